import Verif.Props.Extremas

/-!
# Property C60: queries of extremas
-/

namespace Curvepy
namespace Props
open Spec Extr

variable {ref : ℚ → Option ℚ} {dev m : ℚ}

/-! ## Updates -/

theorem dropStale_spec (lo : Ext) (o : Bool) {l : List (ℚ × ℚ)} (hs : l.Pairwise fun e f => f.1 ≤ e.1) :
    dropStale ⟨lo, .pinf, o, true⟩ l =
      (l.filter (fun e => !(⟨lo, .pinf, o, true⟩ : Iv).contains (.fin e.1)),
        l.any (fun e => (⟨lo, .pinf, o, true⟩ : Iv).contains (.fin e.1))) := by
  induction l with
  | nil => rfl
  | cons e es ih =>
    obtain ⟨h1, h2⟩ := List.pairwise_cons.1 hs
    have ih := ih h2
    unfold dropStale
    cases hc : (⟨lo, .pinf, o, true⟩ : Iv).contains (.fin e.1) with
    | true => simp [ih, hc]
    | false =>
      have hno : ∀ f ∈ es, (⟨lo, .pinf, o, true⟩ : Iv).contains (.fin f.1) = false := by
        intro f hf
        by_contra hcf
        simp only [Bool.not_eq_false] at hcf
        rw [Iv.contains_iff] at hcf
        have h3 : (⟨lo, .pinf, o, true⟩ : Iv).geLo (.fin e.1) = true := Pts.geLo_mono_x (h1 f hf) hcf.1
        have h4 : (⟨lo, .pinf, o, true⟩ : Iv).contains (.fin e.1) = true := by
          rw [Iv.contains_iff]
          refine ⟨h3, ?_⟩
          rw [Iv.leHi_iff]
          left
          simp
        rw [hc] at h4
        cases h4
      have hfil : es.filter (fun e => !(⟨lo, .pinf, o, true⟩ : Iv).contains (.fin e.1)) = es := by
        rw [List.filter_eq_self]
        intro f hf
        simp [hno f hf]
      have hany : es.any (fun e => (⟨lo, .pinf, o, true⟩ : Iv).contains (.fin e.1)) = false := by
        rw [List.any_eq_false]
        intro f hf
        simp [hno f hf]
      simp only [Bool.false_eq_true, if_false]
      rw [ih, hfil, hany]
      simp [hc, hfil, hany]

/-- An update begins: the state goes back to the last extremum left. -/
theorem known_begin (hd : 0 ≤ dev) {pre all all' : List (Pt ℚ)} {A : Extr} (hasc : Ascending all)
    (hf : RefFine ref all) (hpre : pre <+: all) (hall : all <+: all') (hr : A.ref = ref)
    (h : Known ref dev pre all (A.extremas, A.possible)) (d : Iv) :
    ∃ B pre', A.beginUpdate (Accum.updateInterval d) = (B, none) ∧ B.src = A.src ∧ B.ref = A.ref ∧
      B.minDev = A.minDev ∧ B.minStep = A.minStep ∧ B.scanStart = A.scanStart ∧ pre' <+: all' ∧
      B.current = pre'.getLast?.map Prod.fst ∧ Known ref dev pre' all' (B.extremas, B.possible) := by
  obtain ⟨G, h1, h2, h3⟩ := h.confirmed hpre
  have hG : G.Pairwise fun e f => e.1 < f.1 := (C60_order hd hasc hf).1.sublist h2.sublist
  have hsort := h1.sorted hG
  have hdrop := dropStale_spec d.lo d.loOpen (l := A.extremas.reverse) (List.pairwise_reverse.2 hsort)
  set keep : ℚ × ℚ → Bool := fun e => !(⟨d.lo, .pinf, d.loOpen, true⟩ : Iv).contains (.fin e.1) with hkeep
  have hkept := h1.filter keep
  unfold beginUpdate
  have hu : Accum.updateInterval d = ⟨d.lo, .pinf, d.loOpen, true⟩ := rfl
  rw [hu, hdrop, List.any_reverse, List.filter_reverse]
  simp only [List.reverse_reverse]
  cases hl : (A.extremas.filter keep).getLast? with
  | none =>
    refine ⟨_, [], rfl, rfl, rfl, rfl, rfl, rfl, List.nil_prefix, rfl, ?_⟩
    have hnil := List.getLast?_eq_none_iff.1 hl
    simp only [hnil]
    cases ha : A.extremas.any (fun e => (⟨d.lo, .pinf, d.loOpen, true⟩ : Iv).contains (.fin e.1)) with
    | true => exact .fresh .nil rfl
    | false =>
      have hes : A.extremas = [] := by
        rw [← hnil]
        symm
        rw [List.filter_eq_self]
        intro e he
        rw [List.any_eq_false] at ha
        simpa [hkeep] using ha e he
      simp only [Bool.false_eq_true, if_false]
      cases h with
      | fresh g1 g2 =>
        refine .ahead pre List.nil_prefix (hpre.trans hall) rfl ?_
        simp only [hes] at g1 g2
        rw [g2, ← g1.nil_left]
      | rewound e ph g1 g2 g3 g4 =>
        simp only [hes] at g3
        have := g3.nil_left
        simp at this
      | ahead pre2 g1 g2 g3 g4 =>
        exact .ahead pre2 List.nil_prefix (g2.trans hall) rfl g4
  | some e =>
    have hne : G.filter keep ≠ [] := by
      intro h0
      have := hkept.last
      rw [hl, h0] at this
      cases this
    obtain ⟨es, hes⟩ : ∃ es, G.filter keep = es ++ [e] := by
      have h4 := hkept.last
      rw [hl, List.getLast?_eq_some_getLast hne] at h4
      refine ⟨(G.filter keep).dropLast, ?_⟩
      conv_lhs => rw [← List.dropLast_append_getLast hne]
      rw [Option.some.inj h4]
    have hpfx : G.filter keep <+: G := by
      have hclosed : G.Pairwise fun a b => keep b = true → keep a = true := by
        refine hG.imp ?_
        intro a b hab hb
        simp only [hkeep, Bool.not_eq_true'] at hb ⊢
        by_contra hc
        simp only [Bool.not_eq_false] at hc
        rw [Iv.contains_iff] at hc
        have h6 : (⟨d.lo, .pinf, d.loOpen, true⟩ : Iv).contains (.fin b.1) = true := by
          rw [Iv.contains_iff]
          refine ⟨Pts.geLo_mono_x hab.le hc.1, ?_⟩
          rw [Iv.leHi_iff]
          left
          simp
        rw [hb] at h6
        cases h6
      clear_value keep
      clear hG h1 h2 h3 hkept hes hne
      induction G with
      | nil => exact List.prefix_refl _
      | cons a as ih =>
        obtain ⟨c1, c2⟩ := List.pairwise_cons.1 hclosed
        cases hk : keep a with
        | true =>
          rw [List.filter_cons, if_pos hk]
          exact List.prefix_cons_inj _ |>.2 (ih c2)
        | false =>
          have : (a :: as).filter keep = [] := by
            rw [List.filter_eq_nil_iff]
            intro b hb
            rcases List.mem_cons.1 hb with rfl | hb
            · simp [hk]
            · intro hb'
              rw [c1 b hb hb'] at hk
              cases hk
          rw [this]
          exact List.nil_prefix
    have hconf : es ++ [e] <+: (foundIn ref dev all').1 := by
      rw [← hes]
      exact hpfx.trans (h2.trans (foundIn_mono hall))
    obtain ⟨pre', ph, p1, p2, p3, p4⟩ := confirmed_knot hconf
    simp only [hr, p4]
    refine ⟨_, pre', rfl, rfl, rfl, rfl, rfl, rfl, p1, by rw [p2]; rfl, ?_⟩
    refine .rewound e ph (by rw [p3]) (by simp) ?_ (by rw [p3]; exact hconf)
    rw [p3]
    simp only
    rw [← hes]
    exact hkept

/-- Between two operations. -/
structure Track (ref : ℚ → Option ℚ) (dev m : ℚ) (A : Extr) (pre rest : List (Pt ℚ)) : Prop where
  src : Honest A.src
  pts : A.src.points = pre ++ rest
  gapped : Gapped m A.src.points
  fine : RefFine ref A.src.points
  hasRef : A.ref = ref
  hasDev : A.minDev = dev
  step : A.minStep = m
  cur : A.current = pre.getLast?.map Prod.fst
  start : ∀ s, A.scanStart = some s → ∃ p, A.src.points.head? = some p ∧ p.1 = s
  known : Known ref dev pre (pre ++ rest) (A.extremas, A.possible)

theorem Track.asc {A : Extr} {pre rest : List (Pt ℚ)} (h : Track ref dev m A pre rest) :
    Ascending (pre ++ rest) := by
  rw [← h.pts]; exact h.src.wf.asc

theorem Track.dom {A : Extr} {pre rest : List (Pt ℚ)} (h : Track ref dev m A pre rest) :
    A.src.domVal = Pts.getDomain (pre ++ rest) := by
  rw [h.src.wf.domVal, h.pts]

/-- An edit that only adds points at the end. -/
theorem Track.edit (hd : 0 ≤ dev) {A : Extr} {pre rest : List (Pt ℚ)} (h : Track ref dev m A pre rest) {op : Op ℚ}
    (hl : op.Legal) (r : Pts.Reads) (hlate : lateError (op.run A.src r).err = false)
    (ht : Truthful (op.run A.src r).st) (hg : Gapped m (op.run A.src r).st.points)
    (hf : RefFine ref (op.run A.src r).st.points) (hadd : A.src.points <+: (op.run A.src r).st.points) :
    (A.edit op r).2 = none ∧ (A.edit op r).1.src = (op.run A.src r).st ∧
      ∃ pre' rest', Track ref dev m (A.edit op r).1 pre' rest' := by
  have hh : Honest (op.run A.src r).st := .edit h.src hl hlate ht
  have hsame : ∀ s' : Pts ℚ, Honest s' → s'.points = A.src.points → Track ref dev m { A with src := s' } pre rest := by
    intro s' hs' hp'
    refine ⟨hs', hp'.trans h.pts, ?_, ?_, h.hasRef, h.hasDev, h.step, h.cur, ?_, h.known⟩
    · show Gapped m s'.points
      rw [hp']; exact h.gapped
    · show RefFine ref s'.points
      rw [hp']; exact h.fine
    · show ∀ s, A.scanStart = some s → ∃ p, s'.points.head? = some p ∧ p.1 = s
      rw [hp']; exact h.start
  cases Pts.outcome h.src.base h.src.wf hl r with
  | idle hs hev _ _ =>
    have hp : (op.run A.src r).st.points = A.src.points := by
      rcases hs with hs | hs <;> rw [hs] <;> rfl
    have he : A.edit op r = ({ A with src := (op.run A.src r).st }, none) := by
      simp only [Extr.edit, hev, notifyAll]
    rw [he]
    exact ⟨rfl, rfl, pre, rest, hsame _ hh hp⟩
  | stuck iv e he _ hst => rw [hst.err, he] at hlate; cases hlate
  | edited iv hed hk =>
    rcases hed.ev with ⟨_, hev, hpp⟩ | ⟨hne, a, b, hev, _⟩
    · have he : A.edit op r = ({ A with src := (op.run A.src r).st }, none) := by
        simp only [Extr.edit, hev, notifyAll]
      rw [he]
      exact ⟨rfl, rfl, pre, rest, hsame _ hh (by rw [hed.points, hpp])⟩
    · have hstart : ∀ B : Extr, B.src = (op.run A.src r).st → B.scanStart = none ∨ B.scanStart = A.scanStart →
          ∀ s, B.scanStart = some s → ∃ p, B.src.points.head? = some p ∧ p.1 = s := by
        intro B hB hs s hss
        rcases hs with hs | hs
        · rw [hs] at hss; cases hss
        · rw [hs] at hss
          obtain ⟨p, hp, hps⟩ := h.start s hss
          obtain ⟨c, hc⟩ := hadd
          refine ⟨p, ?_, hps⟩
          rw [hB, ← hc, List.head?_append, hp]
          rfl
      have hmain : ∀ B : Extr, B.src = (op.run A.src r).st → B.ref = A.ref → B.minDev = A.minDev → B.minStep = A.minStep →
          (B.scanStart = none ∨ B.scanStart = A.scanStart) → B.extremas = A.extremas → B.possible = A.possible →
          ∃ C, B.beginUpdate (Accum.updateInterval iv) = (C, none) ∧ C.src = (op.run A.src r).st ∧
            ∃ pre' rest', Track ref dev m C pre' rest' := by
        intro B b1 b2 b3 b4 b5 b6 b7
        have hall : pre ++ rest <+: (op.run A.src r).st.points := by rw [← h.pts]; exact hadd
        obtain ⟨C, pre', c1, c2, c3, c4, c5, c6, ⟨rest', c7⟩, c8, c9⟩ := known_begin (A := B) hd h.asc
          (by rw [← h.pts]; exact h.fine) (List.prefix_append pre rest) hall (b2.trans h.hasRef)
          (by rw [b6, b7]; exact h.known) iv
        refine ⟨C, c1, c2.trans b1, pre', rest', ?_⟩
        have hsrc : C.src = (op.run A.src r).st := c2.trans b1
        refine ⟨by rw [hsrc]; exact hh, by rw [hsrc]; exact c7.symm, by rw [hsrc]; exact hg,
          by rw [hsrc]; exact hf, c3.trans (b2.trans h.hasRef), c4.trans (b3.trans h.hasDev),
          c5.trans (b4.trans h.step), c8, hstart C hsrc (by rw [c6]; exact b5), by rw [c7]; exact c9⟩
      have hon : ∃ C, ({ A with src := (op.run A.src r).st } : Extr).onBegin iv = (C, none) ∧
          C.src = (op.run A.src r).st ∧ ∃ pre' rest', Track ref dev m C pre' rest' := by
        have hreset : ∀ (c : Bool) (B : Extr), B.src = (op.run A.src r).st → B.ref = A.ref → B.minDev = A.minDev →
            B.minStep = A.minStep → (B.scanStart = none ∨ B.scanStart = A.scanStart) → B.extremas = A.extremas →
            B.possible = A.possible → ∃ C, (if c then B.resetScan else B) = C ∧ C.src = (op.run A.src r).st ∧
              C.ref = A.ref ∧ C.minDev = A.minDev ∧ C.minStep = A.minStep ∧
              (C.scanStart = none ∨ C.scanStart = A.scanStart) ∧ C.extremas = A.extremas ∧ C.possible = A.possible := by
          intro c B b1 b2 b3 b4 b5 b6 b7
          cases c with
          | true => exact ⟨_, rfl, b1, b2, b3, b4, Or.inl rfl, b6, b7⟩
          | false => exact ⟨_, rfl, b1, b2, b3, b4, b5, b6, b7⟩
        unfold onBegin
        obtain ⟨B, hB, b1, b2, b3, b4, b5, b6, b7⟩ := hreset
          (A.current.any fun c => Accum.touches (Accum.updateInterval iv) c) { A with src := (op.run A.src r).st }
          rfl rfl rfl rfl (Or.inr rfl) rfl rfl
        simp only at hB ⊢
        rw [hB]
        split
        · rename_i c s _ _
          obtain ⟨C, hC, c1, c2, c3, c4, c5, c6, c7⟩ := hreset (decide (c < s)) B b1 b2 b3 b4 b5 b6 b7
          simp only [decide_eq_true_eq] at hC
          rw [hC]
          exact hmain C c1 c2 c3 c4 c5 c6 c7
        · exact hmain B b1 b2 b3 b4 b5 b6 b7
      obtain ⟨C, c1, c2, c3⟩ := hon
      have hedit : A.edit op r = (C, none) := by
        simp only [Extr.edit, hev, notifyAll, c1]
      rw [hedit]
      exact ⟨rfl, c2, c3⟩

/-! ## Queries -/

theorem contains_from {x lo hi : ℚ} (h : (Iv.closed lo hi).contains (.fin x) (enforceStart := false) = true) :
    x ≤ hi := by
  simp [Iv.contains, Iv.closed, Iv.leHi] at h
  exact h.2

/-- Everything recorded is at or before the last knot scanned. -/
theorem Track.recorded {A : Extr} {pre rest : List (Pt ℚ)} (h : Track ref dev m A pre rest) :
    ∀ e ∈ A.extremas, (e.1, some e.2) ∈ pre := by
  obtain ⟨G, h1, _, h3⟩ := h.known.confirmed (List.prefix_append pre rest)
  exact fun e he => h3 e ((h1.mem e).1 he)

theorem Track.mem_cur {A : Extr} {pre rest : List (Pt ℚ)} (h : Track ref dev m A pre rest) {c : ℚ}
    (hc : A.current = some c) : ∃ q, pre.getLast? = some q ∧ q.1 = c := by
  rw [h.cur] at hc
  cases hl : pre.getLast? with
  | none => rw [hl] at hc; cases hc
  | some p => rw [hl] at hc; exact ⟨p, rfl, by simpa using hc⟩

/-- From the last knot scanned the next position is that of the source. -/
theorem Track.xNext {A : Extr} {pre rest : List (Pt ℚ)} (h : Track ref dev m A pre rest) (hm : 0 < m) {c : ℚ}
    (hc : A.current = some c) : A.xNext c A.minStep = .ok (rest.head?.map fun p => .fin p.1) := by
  obtain ⟨q, hq, hqc⟩ := h.mem_cur hc
  have hasc := h.asc
  have hpre : Ascending pre := (List.pairwise_append.1 hasc).1
  have hno : (interval A.extremas).contains (.fin (c + m)) = false := by
    by_contra hcon
    simp only [Bool.not_eq_false] at hcon
    by_cases he : A.extremas = []
    · rw [he] at hcon; cases hcon
    · rw [interval_eq _ he, Iv.contains_closed, Bool.and_eq_true, decide_eq_true_eq, decide_eq_true_eq] at hcon
      have h1 := Accum.le_getLast hpre hq (h.recorded _ (List.getLast_mem he))
      simp only at h1
      linarith [hcon.2]
  unfold Extr.xNext
  simp only [max_self, h.step, hno, Bool.false_eq_true, if_false]
  cases rest with
  | nil =>
    rcases Props.C06_x_next h.src c m with ⟨z, _, ⟨r, hr, hrz, hz⟩, _⟩ | ⟨h1, _⟩
    · exfalso
      rw [h.pts, List.append_nil] at hr
      have := Accum.le_getLast hpre hq hr
      linarith
    · exact h1
  | cons p rest =>
    have hgap : q.1 + m ≤ p.1 := by
      have hg := h.gapped
      rw [h.pts] at hg
      exact (List.isChain_append.1 hg).2.2 q (by simp [hq]) p (by simp)
    rcases Props.C06_x_next h.src c m with ⟨z, h1, ⟨r, hr, hrz, hz⟩, hleast⟩ | ⟨_, h2⟩
    · rw [h1]
      simp only [List.head?_cons, Option.map_some]
      congr 3
      have hle : z ≤ p.1 := hleast ⟨p, by rw [h.pts]; simp, rfl, by linarith⟩
      rw [h.pts] at hr
      rcases List.mem_append.1 hr with hr | hr
      · have := Accum.le_getLast hpre hq hr
        linarith
      · rcases List.mem_cons.1 hr with rfl | hr
        · exact hrz.symm
        · have h3 := (List.pairwise_append.1 hasc).2.1
          have := (List.pairwise_cons.1 h3).1 r hr
          linarith
    · have := h2 p (by rw [h.pts]; simp)
      linarith

theorem Track.nextPos {A : Extr} {pre rest : List (Pt ℚ)} {p : Pt ℚ} (h : Track ref dev m A pre (p :: rest))
    (hm : 0 < m) (x : ℚ) : ∃ B, A.nextPos x = (B, .ok (some (.fin p.1))) ∧ Track ref dev m B pre (p :: rest) := by
  unfold Extr.nextPos
  cases hc : A.current with
  | some c => exact ⟨A, by simp only [h.xNext hm hc, List.head?_cons, Option.map_some], h⟩
  | none =>
    have hpre : pre = [] := by
      have := h.cur
      rw [hc] at this
      cases hl : pre.getLast? with
      | none => simpa using hl
      | some q => rw [hl] at this; cases this
    subst hpre
    have hd := h.dom
    have hne : (Pts.getDomain ([] ++ p :: rest)).isEmpty = false := Pts.getDomain_not_isEmpty h.asc (by simp)
    have hni : (Pts.getDomain ([] ++ p :: rest)).isNegInf = false := by
      simp [Iv.isNegInf, Pts.getDomain, Iv.closed]
    have hinit : A.initScan x = some (.fin p.1) := by
      unfold initScan
      rw [hd, hne, hni]
      rfl
    refine ⟨{ A with scanStart := some p.1 }, by simp only [hinit, Accum.finPart, hc], ?_⟩
    refine ⟨h.src, h.pts, h.gapped, h.fine, h.hasRef, h.hasDev, h.step, by rw [← h.cur], ?_, h.known⟩
    intro s hs
    refine ⟨p, by show A.src.points.head? = _; rw [h.pts]; rfl, Option.some.inj hs⟩

/-- The loop goes on until nothing further can change the answer. -/
theorem scanLoop_track (hd : 0 ≤ dev) (hm : 0 < m) (x : ℚ) : ∀ (rest pre : List (Pt ℚ)) (A : Extr) (n : ℕ),
    Track ref dev m A pre rest → (Pts.getDomain (pre ++ rest)).contains (.fin x) = true → rest.length < n →
    ∃ B pre' rest', scanLoop x n A = some (B, none) ∧ B.src = A.src ∧ Track ref dev m B pre' rest' ∧
      (rest' = [] ∨ (interval B.extremas).contains (.fin x) (enforceStart := false) = true) := by
  intro rest
  induction rest with
  | nil =>
    intro pre A n h hx hn
    obtain ⟨n, rfl⟩ : ∃ k, n = k + 1 := ⟨n - 1, by omega⟩
    refine ⟨A, pre, [], ?_, rfl, h, Or.inl rfl⟩
    unfold scanLoop
    split
    · cases hc : A.current with
      | none =>
        exfalso
        have := h.cur
        rw [hc] at this
        cases hl : pre.getLast? with
        | none =>
          rw [List.getLast?_eq_none_iff.1 hl] at hx
          cases hx
        | some q => rw [hl] at this; cases this
      | some c =>
        have : A.nextPos x = (A, .ok none) := by
          unfold Extr.nextPos
          rw [hc]
          simp only [h.xNext hm hc, List.head?_nil, Option.map_none]
        rw [this]
    · rfl
  | cons p rest ih =>
    intro pre A n h hx hn
    obtain ⟨n, rfl⟩ : ∃ k, n = k + 1 := ⟨n - 1, by omega⟩
    cases hgo : A.current.all (fun c => A.continueScan c x) with
    | false =>
      refine ⟨A, pre, p :: rest, ?_, rfl, h, Or.inr ?_⟩
      · unfold scanLoop
        rw [hgo]
        rfl
      · cases hc : A.current with
        | none => rw [hc] at hgo; cases hgo
        | some c =>
          rw [hc] at hgo
          simp only [Option.all_some] at hgo
          obtain ⟨q, hq, hqc⟩ := h.mem_cur hc
          have hdom : A.src.domVal.contains (.fin c) = true := by
            rw [h.dom, ← hqc]
            exact Pts.getDomain_contains_mem h.asc (by simp [List.mem_of_getLast? hq])
          unfold continueScan at hgo
          split at hgo
          · cases hgo
          · rw [hdom] at hgo
            simpa using hgo
    | true =>
      obtain ⟨B, hB, hT⟩ := h.nextPos hm x
      have hcon : B.src.domVal.contains (.fin p.1) = true := by
        rw [hT.dom]
        exact Pts.getDomain_contains_mem hT.asc (by simp)
      have hadv : B.current.any (fun k => decide (p.1 ≤ k)) = false := by
        rw [hT.cur]
        cases hl : pre.getLast? with
        | none => rfl
        | some q =>
          have := (List.pairwise_append.1 h.asc).2.2 q (List.mem_of_getLast? hl) p (by simp)
          simpa using this
      have hy : B.src.y (.fin p.1) = .ok p.2 := Props.C01_stored_value hT.src (by rw [hT.pts]; simp)
      have hsc : extremaScan B.ref B.minDev (B.extremas, B.possible) p.1 p.2 =
          .ok (foldDev (B.extremas, B.possible) (deviating ref dev [p])) := by
        rw [hT.hasRef, hT.hasDev]
        refine extremaScan_eq ?_ _
        exact refFine_sub hT.fine (by rw [hT.pts]; simp)
      have hstep := Known.step hd hT.asc (by rw [← hT.pts]; exact hT.fine) hT.known
      set s := foldDev (B.extremas, B.possible) (deviating ref dev [p]) with hs
      have hT2 : Track ref dev m { B with extremas := s.1, possible := s.2, current := some p.1 } (pre ++ [p]) rest := by
        refine ⟨hT.src, by show B.src.points = _; rw [hT.pts]; simp, hT.gapped, hT.fine, hT.hasRef, hT.hasDev,
          hT.step, by simp, hT.start, ?_⟩
        have : pre ++ [p] ++ rest = pre ++ p :: rest := by simp
        rw [this]
        exact hstep
      have hsrc : B.src = A.src := by
        unfold Extr.nextPos at hB
        split at hB
        · have := (Prod.mk.inj hB).1
          rw [← this]
        · rw [← (Prod.mk.inj hB).1]
      obtain ⟨C, pre', rest', c1, c2, c3⟩ := ih (pre ++ [p]) _ n hT2 (by simpa using hx) (by simpa using hn)
      refine ⟨C, pre', rest', ?_, c2.trans hsrc, c3⟩
      unfold scanLoop
      simp only [hgo, if_true, hB, hcon, Bool.not_true, Bool.false_eq_true, if_false, hadv, hy, hsc]
      exact c1

/-- What `y` returns, and what it leaves behind. -/
theorem Track.query (hd : 0 ≤ dev) (hm : 0 < m) {A : Extr} {pre rest : List (Pt ℚ)} (h : Track ref dev m A pre rest)
    (x : ℚ) : ∃ B, A.query (.fin x) = some (B, .ok (valueAt .linear (defined (foundIn ref dev A.src.points).1) x)) ∧
      B.src = A.src ∧ ∃ pre' rest', Track ref dev m B pre' rest' := by
  have hfine : RefFine ref (pre ++ rest) := by rw [← h.pts]; exact h.fine
  obtain ⟨hsort, hmem⟩ := C60_order hd h.asc hfine
  unfold Extr.query
  rw [h.dom]
  cases hx : (Pts.getDomain (pre ++ rest)).contains (.fin x) with
  | false =>
    refine ⟨A, ?_, rfl, pre, rest, h⟩
    simp only [Bool.not_false, if_true]
    rw [h.pts]
    congr 3
    symm
    have hout : (∀ p ∈ pre ++ rest, x < p.1) ∨ (∀ p ∈ pre ++ rest, p.1 < x) := by
      by_contra hc
      rw [not_or] at hc
      push Not at hc
      obtain ⟨⟨p, hp, hp'⟩, q, hq, hq'⟩ := hc
      have h1 := Pts.getDomain_contains_mem h.asc hp
      have h2 := Pts.getDomain_contains_mem h.asc hq
      have h3 : (Pts.getDomain (pre ++ rest)).contains (.fin x) = true := by
        rw [Iv.contains_iff] at h1 h2 ⊢
        refine ⟨Pts.geLo_mono_x hp' h1.1, ?_⟩
        rw [Iv.leHi_iff] at h2 ⊢
        rcases h2.2 with h4 | h4
        · left
          exact lt_of_le_of_lt (by simpa using hq') h4
        · rcases hq'.lt_or_eq with h5 | h5
          · left
            rw [← h4.1]; simpa using h5
          · right
            rw [h5]; exact h4
      rw [hx] at h3
      cases h3
    rcases hout with hout | hout
    · apply Pts.valueAt_before
      intro p hp
      obtain ⟨e, he, rfl⟩ := List.mem_map.1 hp
      exact hout _ (hmem e he)
    · apply Pts.valueAt_after
      intro p hp
      obtain ⟨e, he, rfl⟩ := List.mem_map.1 hp
      exact hout _ (hmem e he)
  | true =>
    have hreset : (if A.scanStart.any (fun s => decide (x < s)) then A.resetScan else A) = A := by
      rw [if_neg]
      intro hs
      cases hss : A.scanStart with
      | none => rw [hss] at hs; cases hs
      | some s =>
        rw [hss] at hs
        simp only [Option.any_some, decide_eq_true_eq] at hs
        obtain ⟨p, hp, hps⟩ := h.start s hss
        obtain ⟨p', q, hp', _, h1, _⟩ := (Pts.getDomain_contains_fin _ _).1 hx
        rw [← h.pts, ← List.head?_eq_getElem?, hp] at hp'
        cases hp'
        linarith
    obtain ⟨B, pre', rest', b1, b2, b3, b4⟩ := scanLoop_track hd hm x rest pre A (A.src.points.length + 2) h hx
      (by rw [h.pts, List.length_append]; omega)
    have hscan : A.scan x = some (B, none) := by
      unfold scan
      simp only [hreset]
      exact b1
    refine ⟨B, ?_, b2, pre', rest', b3⟩
    simp only [Bool.not_true, Bool.false_eq_true, if_false, hscan]
    congr 2
    have hpts : pre' ++ rest' = A.src.points := by rw [← b3.pts, b2]
    have hsort' : (foundIn ref dev A.src.points).1.Pairwise fun e f => e.1 < f.1 := by rw [h.pts]; exact hsort
    rcases b4 with rfl | b4
    · rw [List.append_nil] at hpts
      have hk := b3.known
      rw [List.append_nil, hpts] at hk
      exact scannedY_eq hk.complete hsort' x
    · obtain ⟨G, g1, g2, g3⟩ := b3.known.confirmed (List.prefix_append _ _)
      rw [hpts] at g2
      have hG := hsort'.sublist g2.sublist
      rw [scannedY_eq g1 hG x]
      congr 1
      obtain ⟨c, hc⟩ := g2
      rw [g1.interval] at b4
      have hne : G ≠ [] := by
        rintro rfl
        cases b4
      rw [interval_eq G hne] at b4
      replace b4 := contains_from b4
      have hmap : defined (G ++ c) = defined G ++ defined c := List.map_append
      rw [← hc, hmap]
      refine (valueAt_append_left _ ?_ ?_).symm
      · rw [← hmap]
        rw [← hc] at hsort'
        exact defined_asc hsort'
      · exact ⟨_, List.mem_map.2 ⟨_, List.getLast_mem hne, rfl⟩, b4⟩

/-! ## C60 -/

theorem Track.query_inf {A : Extr} {pre rest : List (Pt ℚ)} (h : Track ref dev m A pre rest) {x : Ext}
    (hx : ∀ q, x ≠ .fin q) : A.query x = some (A, .ok none) := by
  have : A.src.domVal.contains x = false := by
    rw [h.dom]
    cases x with
    | fin q => exact absurd rfl (hx q)
    | ninf => exact (Pts.getDomain_contains_inf _).2
    | pinf => exact (Pts.getDomain_contains_inf _).1
  unfold Extr.query
  rw [this]
  rfl

theorem scanned_track (hm : 0 < m) {A : Extr} (h : Scanned ref dev m A) :
    ∃ pre rest, Track ref |dev| m A pre rest := by
  induction h with
  | new hs hg hf => exact ⟨[], _, hs, rfl, hg, hf, rfl, rfl, rfl, rfl, (fun s hs => by cases hs), Known.fresh Stutter.nil rfl⟩
  | @query A B x v _ hq ih =>
    obtain ⟨pre, rest, ih⟩ := ih
    by_cases hx : ∃ q, x = .fin q
    · obtain ⟨q, rfl⟩ := hx
      obtain ⟨C, c1, _, c3⟩ := ih.query (abs_nonneg dev) hm q
      rw [hq] at c1
      cases c1
      exact c3
    · push Not at hx
      rw [ih.query_inf hx] at hq
      cases hq
      exact ⟨pre, rest, ih⟩
  | edit _ hl he ht hg hf hadd ih =>
    obtain ⟨pre, rest, ih⟩ := ih
    exact (ih.edit (abs_nonneg dev) hl _ he ht hg hf hadd).2.2

/-- C60: whatever was queried before, and whatever points were added at the end, `y` interpolates between the
extremas: one for each excursion of the current points but the last. -/
theorem C60_values_partial (hm : 0 < m) {A : Extr} (h : Scanned ref dev m A) :
    ∃ rs es, Excursions (deviating ref |dev| A.src.points) rs ∧ List.Forall₂ IsPeak rs.dropLast es ∧
      ∀ x : ℚ, ∃ B, A.query (.fin x) = some (B, .ok (valueAt .linear (defined es) x)) := by
  obtain ⟨pre, rest, ht⟩ := scanned_track hm h
  obtain ⟨rs, h1, h2⟩ := C60_found (abs_nonneg dev) ht.fine
  refine ⟨rs, _, h1, h2, fun x => ?_⟩
  obtain ⟨B, hB, _⟩ := ht.query (abs_nonneg dev) hm x
  exact ⟨B, hB⟩

/-- C60: the answers depend on nothing but the current points. -/
theorem C60_same_partial (hm : 0 < m) {A B : Extr} (hA : Scanned ref dev m A) (hB : Scanned ref dev m B)
    (hp : A.src.points = B.src.points) (x : ℚ) :
    (A.query (.fin x)).map Prod.snd = (B.query (.fin x)).map Prod.snd := by
  obtain ⟨_, _, hA⟩ := scanned_track hm hA
  obtain ⟨_, _, hB⟩ := scanned_track hm hB
  obtain ⟨_, h1, _⟩ := hA.query (abs_nonneg dev) hm x
  obtain ⟨_, h2, _⟩ := hB.query (abs_nonneg dev) hm x
  rw [h1, h2, hp]
  rfl

/-- C60: what is recorded are extremas of the current points, ascending (a value may be recorded more
than once). -/
theorem C60_recorded_partial (hm : 0 < m) {A : Extr} (h : Scanned ref dev m A) :
    ∃ es, es.Pairwise (fun e f => e.1 < f.1) ∧ Stutter A.extremas es ∧
      ∃ rs more, Excursions (deviating ref |dev| A.src.points) rs ∧ List.Forall₂ IsPeak rs.dropLast (es ++ more) := by
  obtain ⟨pre, rest, ht⟩ := scanned_track hm h
  obtain ⟨G, h1, ⟨more, h2⟩, _⟩ := ht.known.confirmed (List.prefix_append _ _)
  rw [← ht.pts] at h2
  obtain ⟨rs, h3, h4⟩ := C60_found (abs_nonneg dev) ht.fine
  have hs := (C60_order (abs_nonneg dev) ht.src.wf.asc ht.fine).1
  rw [← h2] at hs h4
  exact ⟨G, (List.pairwise_append.1 hs).1, h1, rs, more, h3, h4⟩

theorem mem_takeWhile_imp {α : Type} {P : α → Bool} {l : List α} {a : α} (h : a ∈ l.takeWhile P) : P a = true := by
  have := List.all_takeWhile (p := P) (l := l)
  exact List.all_eq_true.1 this a h

theorem split_strict {l : List (ℚ × ℚ)} (h : l.Pairwise fun e f => e.1 ≤ f.1) (x : ℚ) :
    ∃ a b, l = a ++ b ∧ l.takeWhile (fun e => decide (e.1 < x)) = a ∧ (∀ e ∈ a, e.1 < x) ∧ ∀ e ∈ b, x ≤ e.1 := by
  refine ⟨l.takeWhile _, l.dropWhile (fun e => decide (e.1 < x)), (List.takeWhile_append_dropWhile).symm, rfl, ?_, ?_⟩
  · intro e he
    simpa using mem_takeWhile_imp (P := fun e : ℚ × ℚ => decide (e.1 < x)) he
  · intro e he
    have hsub := h.sublist (List.dropWhile_sublist (fun e => decide (e.1 < x)))
    cases hd : l.dropWhile (fun e => decide (e.1 < x)) with
    | nil => rw [hd] at he; cases he
    | cons f fs =>
      have hf : ¬ f.1 < x := by
        have := List.head?_dropWhile_not (fun e : ℚ × ℚ => decide (e.1 < x)) l
        rw [hd] at this
        simpa using this
      rw [hd] at he hsub
      rcases List.mem_cons.1 he with rfl | he
      · exact not_lt.1 hf
      · exact (not_lt.1 hf).trans ((List.pairwise_cons.1 hsub).1 e he)

theorem interval_between {l : List (ℚ × ℚ)} (hs : l.Pairwise fun e f => e.1 ≤ f.1) {e f : ℚ × ℚ} (he : e ∈ l)
    (hf : f ∈ l) {y : ℚ} (hey : e.1 ≤ y) (hyf : y ≤ f.1) : (interval l).contains (.fin y) = true := by
  have hne : l ≠ [] := List.ne_nil_of_mem he
  rw [interval_eq _ hne, Iv.contains_closed, Bool.and_eq_true, decide_eq_true_eq, decide_eq_true_eq]
  constructor
  · refine le_trans ?_ hey
    obtain ⟨a, as, rfl⟩ := List.exists_cons_of_ne_nil hne
    rcases List.mem_cons.1 he with rfl | he
    · exact le_refl _
    · exact (List.pairwise_cons.1 hs).1 e he
  · refine le_trans hyf ?_
    have hl := List.dropLast_append_getLast hne
    rw [← hl] at hf hs
    rcases List.mem_append.1 hf with hf | hf
    · exact (List.pairwise_append.1 hs).2.2 f hf _ (by simp)
    · simp only [List.mem_singleton] at hf
      exact le_of_eq (by rw [hf])

theorem interval_outside {l : List (ℚ × ℚ)} {y : ℚ} (h : (∀ e ∈ l, y < e.1) ∨ (∀ e ∈ l, e.1 < y)) :
    (interval l).contains (.fin y) = false := by
  by_cases hne : l = []
  · rw [hne]; rfl
  · rw [interval_eq _ hne, Iv.contains_closed, Bool.and_eq_false_iff, decide_eq_false_iff_not, decide_eq_false_iff_not]
    rcases h with h | h
    · exact Or.inl (not_le.2 (h _ (List.head_mem hne)))
    · exact Or.inr (not_le.2 (h _ (List.getLast_mem hne)))

/-- `x_next` from between what is recorded is the next of that; elsewhere it is the source's. -/
theorem next_recorded {A : Extr} (hs : A.extremas.Pairwise fun e f => e.1 ≤ f.1) (x k : ℚ) :
    (∀ e ∈ A.extremas, ∀ f ∈ A.extremas, e.1 ≤ x + max k A.minStep → x + max k A.minStep ≤ f.1 →
      ∃ z, A.xNext x k = .ok (some (.fin z)) ∧ IsLeast {z | ∃ e ∈ A.extremas, e.1 = z ∧ x + max k A.minStep ≤ z} z) ∧
    ((∀ e ∈ A.extremas, x + max k A.minStep < e.1) ∨ (∀ e ∈ A.extremas, e.1 < x + max k A.minStep) →
      A.xNext x k = A.src.xNext (.fin x) (some (max k A.minStep))) := by
  unfold Extr.xNext
  simp only
  generalize x + max k A.minStep = y
  constructor
  · intro e he f hf hey hyf
    have hc := interval_between hs he hf hey hyf
    obtain ⟨a, b, hab, htw, ha, hb⟩ := split_strict hs y
    simp only [hc, if_true]
    unfold bisectLeft
    rw [htw]
    cases b with
    | nil =>
      rw [hab, List.append_nil] at hf
      linarith [ha f hf]
    | cons g gs =>
      have hget : pyGet A.extremas (a.length : ℤ) = .ok g := by rw [hab]; exact pyGet_next a g gs
      have hg := hb g (by simp)
      refine ⟨g.1, ?_, ⟨g, by rw [hab]; simp, rfl, hg⟩, ?_⟩
      · simp only [hget, bind, Except.bind, not_lt.2 hg, if_false, pure, Except.pure]
      · rintro z ⟨e', he', rfl, hz⟩
        rw [hab] at he' hs
        rcases List.mem_append.1 he' with he' | he'
        · linarith [ha e' he']
        · rcases List.mem_cons.1 he' with rfl | he'
          · exact le_refl _
          · exact (List.pairwise_cons.1 (List.pairwise_append.1 hs).2.1).1 e' he'
  · intro hout
    simp only [interval_outside hout, Bool.false_eq_true, if_false]

/-- C60: `x_next` from between the recorded extremas is the next of them; elsewhere it is the source's. -/
theorem C60_x_next_partial (hm : 0 < m) {A : Extr} (h : Scanned ref dev m A) (x k : ℚ) :
    (∀ e ∈ A.extremas, ∀ f ∈ A.extremas, e.1 ≤ x + max k m → x + max k m ≤ f.1 →
      ∃ z, A.xNext x k = .ok (some (.fin z)) ∧ IsLeast {z | ∃ e ∈ A.extremas, e.1 = z ∧ x + max k m ≤ z} z) ∧
    ((∀ e ∈ A.extremas, x + max k m < e.1) ∨ (∀ e ∈ A.extremas, e.1 < x + max k m) →
      A.xNext x k = A.src.xNext (.fin x) (some (max k m))) := by
  obtain ⟨es, h1, h2, _⟩ := C60_recorded_partial hm h
  obtain ⟨_, _, ht⟩ := scanned_track hm h
  have hs := h2.sorted h1
  rw [← ht.step]
  exact next_recorded hs x k

/-- C60: the same for `x_previous`. -/
theorem C60_x_previous_partial (hm : 0 < m) {A : Extr} (h : Scanned ref dev m A) (x k : ℚ) :
    (∀ e ∈ A.extremas, ∀ f ∈ A.extremas, e.1 ≤ x - max k m → x - max k m ≤ f.1 →
      ∃ z, A.xPrevious x k = .ok (some (.fin z)) ∧
        IsGreatest {z | ∃ e ∈ A.extremas, e.1 = z ∧ z ≤ x - max k m} z) ∧
    ((∀ e ∈ A.extremas, x - max k m < e.1) ∨ (∀ e ∈ A.extremas, e.1 < x - max k m) →
      A.xPrevious x k = A.src.xPrevious (.fin x) (some (max k m))) := by
  obtain ⟨es, h1, h2, _⟩ := C60_recorded_partial hm h
  obtain ⟨_, _, ht⟩ := scanned_track hm h
  have hs := h2.sorted h1
  unfold Extr.xPrevious
  simp only [ht.step]
  generalize x - max k m = y
  constructor
  · intro e he f hf hey hyf
    have hc := interval_between hs he hf hey hyf
    obtain ⟨a, b, hab, htw, ha, hb⟩ := split_strict hs y
    simp only [hc, if_true]
    unfold bisectLeft
    rw [htw]
    cases b with
    | nil =>
      rw [hab, List.append_nil] at hf
      linarith [ha f hf]
    | cons g gs =>
      have hget : pyGet A.extremas (a.length : ℤ) = .ok g := by rw [hab]; exact pyGet_next a g gs
      have hg := hb g (by simp)
      by_cases hgy : g.1 > y
      · have hne : a ≠ [] := by
          rintro rfl
          rw [List.nil_append] at hab
          rw [hab] at he hs
          rcases List.mem_cons.1 he with rfl | he
          · linarith
          · linarith [(List.pairwise_cons.1 hs).1 e he]
        obtain ⟨a', p, rfl⟩ : ∃ a' p, a = a' ++ [p] := ⟨_, _, (List.dropLast_append_getLast hne).symm⟩
        have hget' : pyGet A.extremas (((a' ++ [p]).length : ℤ) - 1) = .ok p := by
          rw [hab, List.append_assoc]; exact pyGet_last a' p (g :: gs)
        refine ⟨p.1, ?_, ⟨p, by rw [hab]; simp, rfl, (ha p (by simp)).le⟩, ?_⟩
        · simp only [hget, bind, Except.bind, hgy, if_true, hget', pure, Except.pure]
        · rintro z ⟨e', he', rfl, hz⟩
          rw [hab] at he' hs
          rcases List.mem_append.1 he' with he' | he'
          · rcases List.mem_append.1 he' with he' | he'
            · exact (List.pairwise_append.1 (List.pairwise_append.1 hs).1).2.2 e' he' p (by simp)
            · simp only [List.mem_singleton] at he'
              exact le_of_eq (by rw [he'])
          · rcases List.mem_cons.1 he' with rfl | he'
            · linarith
            · linarith [(List.pairwise_cons.1 (List.pairwise_append.1 hs).2.1).1 e' he']
      · have hgy' : g.1 = y := le_antisymm (not_lt.1 hgy) hg
        refine ⟨g.1, ?_, ⟨g, by rw [hab]; simp, rfl, hgy'.le⟩, ?_⟩
        · simp only [hget, bind, Except.bind, hgy, if_false, pure, Except.pure]
        · rintro z ⟨e', _, rfl, hz⟩
          rw [hgy']; exact hz
  · intro hout
    simp only [interval_outside hout, Bool.false_eq_true, if_false]

/-! ## Witnesses -/

/-- Query, edit the source, query again: the second answer, and what is recorded then. -/
def extrTwice (A : Extr) (x : ℚ) (op : Op ℚ) (y : ℚ) : Option (Except Err (Option ℚ) × List (ℚ × ℚ)) :=
  (A.query (.fin x)).bind fun r => ((r.1.edit op Accum.quiet).1.query (.fin y)).map fun r => (r.2, r.1.extremas)

/-- The reference `10`. -/
def ten : ℚ → Option ℚ := fun _ => some 10

theorem loose_honest {pts : List (Pt ℚ)} (h : Ascending pts) (he : EquallySpaced pts)
    (hs : ((Pts.blank .linear false).set pts none Accum.quiet).err = none) : Honest (loose pts) := by
  refine .new (pts := pts) (i := .linear) (u := false) h ?_ ?_
  · have h' : ((Pts.blank .linear false).set pts none ⟨false, false⟩).err = none := hs
    simp [Pts.new, h', loose, Accum.quiet]
  · intro _
    have h' : ((Pts.blank .linear false).set pts none ⟨false, false⟩).err = none := hs
    have hn : Pts.new pts .linear false = .ok (loose pts) := by simp [Pts.new, h', loose, Accum.quiet]
    rw [(Pts.new_ok h hn).2.1]
    exact he

example : ((Extr.new (loose [(0, some 8), (1, some 12), (2, some 9), (3, some 6), (4, some 15)]) ten 0 1).query
    (.fin 2)).map (fun r => (r.2, r.1.extremas)) = some (.ok (some 9), [(0, 8), (1, 12), (3, 6)]) := by
  decide +kernel
example : extrTwice (Extr.new (loose [(0, some 8), (1, some 12)]) ten (1/10) 1) 1
    (.appendList [(2, some (21/2)), (3, some 6), (4, some 15)]) 2 =
    some (.ok (some 9), [(0, 8), (0, 8), (1, 12), (3, 6)]) := by
  decide +kernel

def wavePts : List (Pt ℚ) := [(0, some 8), (1, some 12), (2, some 8), (3, some 12)]

theorem wave_scanned : Scanned ten 0 1 (Extr.new (loose wavePts) ten 0 1) := by
  have h : (loose wavePts).points = wavePts := by decide +kernel
  refine .new (loose_honest (by norm_num [Ascending, wavePts]) ⟨1, by norm_num [wavePts]⟩ (by decide +kernel)) ?_ ?_
  · rw [h]; norm_num [Gapped, wavePts]
  · intro p _ _ h
    simp [ten] at h

/-- C60 does not hold: after a point is appended the last extremum is recorded again. -/
theorem C60_negation_repeats : Scanned ten 0 1 (Extr.new (loose wavePts) ten 0 1) ∧
    extrTwice (Extr.new (loose wavePts) ten 0 1) 3 (.append (4, some 8)) 4 =
      some (.ok none, [(0, 8), (1, 12), (2, 8), (2, 8), (3, 12)]) :=
  ⟨wave_scanned, by decide +kernel⟩

/-- C60 does not hold: a possible extremum is kept although its point was replaced.  It ends up recorded, and is
not on the curve.  Extremas made afterwards record `(0, 8)`. -/
theorem C60_negation_stale :
    let A := Extr.new (loose [(0, some 8), (1, some 6)]) ten 0 1
    let op : Op ℚ := .set [(0, some 8), (1, some 9), (2, some 12)]
    extrTwice A 1 op 1 = some (.ok (some 6), [(1, 6)]) ∧
    ((A.edit op Accum.quiet).1.query (.fin 1)).map (fun r => (r.2, r.1.extremas)) = some (.ok none, [(0, 8)]) ∧
    (op.run A.src Accum.quiet).st.points = [(0, some 8), (1, some 9), (2, some 12)] := by
  refine ⟨?_, ?_, ?_⟩ <;> decide +kernel

/-- C60 does not hold: an extremum stays recorded although the point that confirmed it was replaced. -/
theorem C60_negation_withdrawn :
    let A := Extr.new (loose [(0, some 8), (1, some 6), (2, some 12)]) ten 0 1
    let op : Op ℚ := .replace (2, some 4) false
    extrTwice A 2 op 1 = some (.ok (some 6), [(1, 6)]) ∧
    ((A.edit op Accum.quiet).1.query (.fin 1)).map (fun r => (r.2, r.1.extremas)) = some (.ok none, []) := by
  refine ⟨?_, ?_⟩ <;> decide +kernel

/-- C60: a reference of zero raises. -/
theorem C60_zero_reference (A : Extr) (s : Found) (x y : ℚ) (h : A.ref x = some 0) :
    extremaScan A.ref A.minDev s x (some y) = .error .zeroDiv := by
  unfold extremaScan
  simp [h]
example : ((Extr.new (loose wavePts) (fun _ => some 0) 0 1).query (.fin 1)).map Prod.snd = some (.error .zeroDiv) := by
  decide +kernel

end Props
end Curvepy
