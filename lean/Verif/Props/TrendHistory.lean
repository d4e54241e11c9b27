import Verif.Lemmas.TrendLines
import Verif.Spec.TrendHistory
import Verif.Props.ExtremasScan

/-!
# Properties C88 and C89: trends over a source that changes
-/

namespace Curvepy
namespace Props
open Spec Trend

variable {t0 : Trd} {m : ℚ}

/-! ## Scans of a series -/

theorem loop_done_more : ∀ {n : ℕ} (k : ℕ) {s u : Trd} {l : ℕ} {ps : List XY},
    Trd.scanLoop n s l ps = .ok (.done u) → Trd.scanLoop (n + k) s l ps = .ok (.done u)
  | 0, k, s, u, l, ps, h => by simp [Trd.scanLoop] at h
  | n + 1, k, s, u, l, ps, h => by
    rw [Trd.scanLoop] at h
    obtain ⟨r, e, h⟩ := bind_inv h
    rw [show n + 1 + k = n + k + 1 by omega, Trd.scanLoop, e]
    cases r with
    | done v => exact h
    | more a b c => exact loop_done_more k h

theorem trendScan_more {n : ℕ} (k : ℕ) {s u : Trd} {x : ℚ} {y : Option ℚ} (h : s.trendScan n x y = .ok (.done u)) :
    s.trendScan (n + k) x y = .ok (.done u) := by
  unfold Trd.trendScan at h ⊢
  cases y with
  | none => exact h
  | some y => exact loop_done_more k h

theorem trendScan_unique {n k : ℕ} {s u v : Trd} {x : ℚ} {y : Option ℚ} (h : s.trendScan n x y = .ok (.done u))
    (h' : s.trendScan k x y = .ok (.done v)) : u = v := by
  have h1 := trendScan_more k h
  have h2 := trendScan_more n h'
  rw [Nat.add_comm, h1] at h2
  simpa using h2

/-- The series determines the trend. -/
theorem scans_unique {pre : List (Pt ℚ)} {s u : Trd} (h : ScansTo t0 pre s) : ScansTo t0 pre u → s = u := by
  induction h generalizing u with
  | nil =>
    intro h'
    generalize hp : ([] : List (Pt ℚ)) = q at h'
    cases h' with
    | nil => rfl
    | snoc => simp at hp
  | snoc h e ih =>
    rename_i pre p s v n
    intro h'
    generalize hp : pre ++ [p] = q at h'
    cases h' with
    | nil => simp at hp
    | snoc k f =>
      obtain ⟨h1, h2⟩ := List.append_inj' hp rfl
      simp only [List.cons.injEq, and_true] at h2
      subst h1 h2
      rw [ih k] at e
      exact trendScan_unique e f

/-- What is there before the first scan. -/
def Clean (t0 : Trd) : Prop := 0 < t0.minWidth ∧ t0.points = [] ∧ t0.upper = [[]] ∧ t0.lower = [[]]

theorem clean_rest {t0 : Trd} (h : Clean t0) (b : ℚ) : Rest (fun _ => True) b t0 := by
  have h1 := rest_new h.1 0 0 0 none none 0 b
  exact ⟨h.1, by rw [h.2.1]; exact UpTo.nil, by rw [h.2.2.1]; exact h1.upper, by rw [h.2.2.2]; exact h1.lower,
    by rw [h.2.2.1, h.2.2.2]⟩

theorem clean_begin {t0 : Trd} (h : Clean t0) (dom : Iv) : t0.beginUpdate dom = .ok t0 := by
  obtain ⟨_, h1, h2, h3⟩ := h
  unfold Trd.beginUpdate
  rw [h1, h2, h3]
  have h4 : TLine.removeStale dom [] = [] := rfl
  have h5 : Trd.updateNested dom [] [[]] = .ok [[]] := rfl
  simp only [h4, h5, bind, Except.bind, pure, Except.pure]
  cases t0
  simp only at h1 h2 h3
  rw [h1, h2, h3]

theorem scans_rest (h0 : Clean t0) {pre : List (Pt ℚ)} {s : Trd} (h : ScansTo t0 pre s) {b : ℚ}
    (hb : ∀ p ∈ pre, p.1 ≤ b) : Rest (fun _ => True) b s ∧ s.points = valued pre := by
  induction h with
  | nil => exact ⟨clean_rest h0 b, by rw [h0.2.1]; rfl⟩
  | snoc h e ih =>
    rename_i pre p s u n
    obtain ⟨r1, r2⟩ := ih fun q hq => hb q (List.mem_append_left _ hq)
    obtain ⟨g1, g2⟩ := rest_scan r1 (hb p (by simp)) e
    refine ⟨g1, ?_⟩
    rw [g2, r2]
    unfold valued
    rw [List.filterMap_append]
    obtain ⟨x, y⟩ := p
    cases y <;> rfl

/-! ## The state between two operations -/

/-- What was scanned is the beginning of the source. -/
structure Trail (t0 : Trd) (m : ℚ) (A : TScan) (pre rest : List (Pt ℚ)) : Prop where
  src : Honest A.src
  pts : A.src.points = pre ++ rest
  gapped : Gapped m A.src.points
  step : A.minStep = m
  cur : A.current = pre.getLast?.map Prod.fst
  start : ∀ s, A.scanStart = some s → ∃ p, A.src.points.head? = some p ∧ p.1 = s
  scans : ScansTo t0 pre A.trd

namespace Trail

variable {A : TScan} {pre rest : List (Pt ℚ)}

theorem asc (h : Trail t0 m A pre rest) : Ascending (pre ++ rest) := by
  rw [← h.pts]; exact h.src.wf.asc

theorem dom (h : Trail t0 m A pre rest) : A.src.domVal = Pts.getDomain (pre ++ rest) := by
  rw [h.src.wf.domVal, h.pts]

theorem mem_cur (h : Trail t0 m A pre rest) {c : ℚ} (hc : A.current = some c) :
    ∃ q, pre.getLast? = some q ∧ q.1 = c := by
  rw [h.cur] at hc
  cases hl : pre.getLast? with
  | none => rw [hl] at hc; cases hc
  | some p => rw [hl] at hc; exact ⟨p, rfl, by simpa using hc⟩

theorem nil_of_cur (h : Trail t0 m A pre rest) (hc : A.current = none) : pre = [] := by
  have := h.cur
  rw [hc] at this
  cases hl : pre.getLast? with
  | none => simpa using hl
  | some q => rw [hl] at this; cases this

/-- From the last point scanned the source goes on to the next one. -/
theorem xNext (h : Trail t0 m A pre rest) (hm : 0 < m) {c : ℚ} (hc : A.current = some c) :
    A.src.xNext (.fin c) (some A.minStep) = .ok (rest.head?.map fun p => .fin p.1) := by
  obtain ⟨q, hq, hqc⟩ := h.mem_cur hc
  have hasc := h.asc
  have hpre : Ascending pre := (List.pairwise_append.1 hasc).1
  rw [h.step]
  cases rest with
  | nil =>
    rcases Props.C06_x_next h.src c m with ⟨z, _, ⟨r, hr, hrz, hz⟩, _⟩ | ⟨h1, _⟩
    · exfalso
      rw [h.pts, List.append_nil] at hr
      have := Accum.le_getLast hpre hq hr
      linarith
    · exact h1
  | cons p rest =>
    have hgap : q.1 + m ≤ p.1 := by
      have hg := h.gapped
      rw [h.pts] at hg
      exact (List.isChain_append.1 hg).2.2 q (by simp [hq]) p (by simp)
    rcases Props.C06_x_next h.src c m with ⟨z, h1, ⟨r, hr, hrz, hz⟩, hleast⟩ | ⟨_, h2⟩
    · rw [h1]
      simp only [List.head?_cons, Option.map_some]
      congr 3
      have hle : z ≤ p.1 := hleast ⟨p, by rw [h.pts]; simp, rfl, by linarith⟩
      rw [h.pts] at hr
      rcases List.mem_append.1 hr with hr | hr
      · have := Accum.le_getLast hpre hq hr
        linarith
      · rcases List.mem_cons.1 hr with rfl | hr
        · exact hrz.symm
        · have h3 := (List.pairwise_append.1 hasc).2.1
          have := (List.pairwise_cons.1 h3).1 r hr
          linarith
    · have := h2 p (by rw [h.pts]; simp)
      linarith

theorem nextPos {p : Pt ℚ} (h : Trail t0 m A pre (p :: rest)) (hm : 0 < m) (x : ℚ) :
    ∃ B, A.nextPos x = .ok (B, some (.fin p.1)) ∧ Trail t0 m B pre (p :: rest) ∧ B.src = A.src ∧ B.trd = A.trd := by
  unfold TScan.nextPos
  cases hc : A.current with
  | some c =>
    refine ⟨A, ?_, h, rfl, rfl⟩
    simp only [h.xNext hm hc, List.head?_cons, Option.map_some]
    rfl
  | none =>
    have hpre := h.nil_of_cur hc
    subst hpre
    have hd := h.dom
    have hne : (Pts.getDomain ([] ++ p :: rest)).isEmpty = false := Pts.getDomain_not_isEmpty h.asc (by simp)
    have hni : (Pts.getDomain ([] ++ p :: rest)).isNegInf = false := by
      simp [Iv.isNegInf, Pts.getDomain, Iv.closed]
    have hlo : (Pts.getDomain ([] ++ p :: rest)).lo = .fin p.1 := rfl
    have hin : A.domVal.contains (.fin p.1) = true := by
      unfold TScan.domVal TScan.extended
      rw [hd, hne, if_neg (by simp), hlo]
      rw [Iv.contains_iff]
      simp [Iv.geLo, Iv.leHi, Pts.getDomain, Iv.closed]
    have hinit : A.initScan x = .ok (some (.fin p.1)) := by
      unfold TScan.initScan
      rw [hd, hne, hni, hlo, hin]
      rfl
    refine ⟨{ A with scanStart := some p.1 }, ?_, ?_, rfl, rfl⟩
    · simp only [hinit, Accum.finPart, bind, Except.bind, pure, Except.pure, hc]
    · refine ⟨h.src, h.pts, h.gapped, h.step, h.cur, ?_, h.scans⟩
      intro s hs
      refine ⟨p, by show A.src.points.head? = _; rw [h.pts]; rfl, Option.some.inj hs⟩

end Trail

/-- The scan stopped because of what is known already. -/
def Stopped (A : TScan) (x : ℚ) : Prop := ∃ c, A.current = some c ∧ A.continueScan c x = false

theorem scanLoop_trail (hm : 0 < m) (x : ℚ) : ∀ (n : ℕ) {A B : TScan} {pre rest : List (Pt ℚ)},
    Trail t0 m A pre rest → A.src.points ≠ [] → TScan.scanLoop x n A = some (.ok B) →
    ∃ pre' rest', Trail t0 m B pre' rest' ∧ B.src = A.src ∧ (rest' = [] ∨ Stopped B x)
  | 0, A, B, pre, rest, _, _, e => by simp [TScan.scanLoop] at e
  | n + 1, A, B, pre, rest, h, hne, e => by
    rw [TScan.scanLoop] at e
    by_cases hgo : A.current.all (fun c => A.continueScan c x) = true
    · rw [if_pos hgo] at e
      cases rest with
      | nil =>
        cases hc : A.current with
        | none =>
          exfalso
          rw [h.pts, h.nil_of_cur hc] at hne
          exact hne rfl
        | some c =>
          have : A.nextPos x = .ok (A, none) := by
            unfold TScan.nextPos
            rw [hc]
            simp only [h.xNext hm hc, List.head?_nil, Option.map_none]
            rfl
          rw [this] at e
          simp only [Option.some.injEq, Except.ok.injEq] at e
          subst e
          exact ⟨pre, [], h, rfl, .inl rfl⟩
      | cons p rest =>
        obtain ⟨C, hC, hT, hCs, hCt⟩ := h.nextPos hm x
        have hcon : C.src.domVal.contains (.fin p.1) = true := by
          rw [hT.dom]
          exact Pts.getDomain_contains_mem hT.asc (by simp)
        have hadv : C.current.any (fun k => decide (p.1 ≤ k)) = false := by
          rw [hT.cur]
          cases hl : pre.getLast? with
          | none => rfl
          | some q =>
            have := (List.pairwise_append.1 h.asc).2.2 q (List.mem_of_getLast? hl) p (by simp)
            simpa using this
        have hy : C.src.y (.fin p.1) = .ok p.2 := Props.C01_stored_value hT.src (by rw [hT.pts]; simp)
        rw [hC] at e
        simp only [hcon, Bool.not_true, Bool.false_eq_true, if_false, hadv, hy] at e
        split at e
        · cases e
        · cases e
        · rename_i s hs
          have hT2 : Trail t0 m { C with trd := s, current := some p.1 } (pre ++ [p]) rest :=
            ⟨hT.src, by show C.src.points = _; rw [hT.pts]; simp, hT.gapped, hT.step, by simp, hT.start,
              .snoc hT.scans hs⟩
          obtain ⟨pre', rest', g1, g2, g3⟩ := scanLoop_trail hm x n hT2
            (by show C.src.points ≠ []; rw [hCs]; exact hne) e
          exact ⟨pre', rest', g1, g2.trans hCs, g3⟩
    · rw [if_neg hgo] at e
      simp only [Option.some.injEq, Except.ok.injEq] at e
      subst e
      refine ⟨pre, rest, h, rfl, .inr ?_⟩
      cases hc : A.current with
      | none => rw [hc] at hgo; simp at hgo
      | some c =>
        rw [hc] at hgo
        exact ⟨c, hc, by simpa using hgo⟩

/-- A query keeps the trail. -/
theorem Trail.query (hm : 0 < m) {A B : TScan} {pre rest : List (Pt ℚ)} (h : Trail t0 m A pre rest) {n : ℕ} {x : ℚ}
    {v : Option (List TLine)} (e : A.query n x = some (.ok (B, v))) :
    B.src = A.src ∧ ∃ pre' rest', Trail t0 m B pre' rest' ∧
      ((v = none ∧ B = A ∧ A.src.points.head?.all (fun p => decide (x < p.1)) = true) ∨
        (v = some (B.trd.scannedY (some x)) ∧ A.src.points ≠ [] ∧ (rest' = [] ∨ Stopped B x))) := by
  unfold TScan.query at e
  by_cases hd : (!A.src.domVal.contains (.fin x) && !A.domVal.contains (.fin x)) = true
  · rw [if_pos hd] at e
    simp only [Option.some.injEq, Except.ok.injEq, Prod.mk.injEq] at e
    obtain ⟨rfl, rfl⟩ := e
    refine ⟨rfl, pre, rest, h, .inl ⟨rfl, rfl, ?_⟩⟩
    cases hp : A.src.points with
    | nil => rfl
    | cons p ps =>
      simp only [List.head?_cons, Option.all_some, decide_eq_true_eq]
      by_contra hx
      push Not at hx
      simp only [Bool.and_eq_true, Bool.not_eq_true'] at hd
      have hdom : A.domVal.contains (.fin x) = true := by
        unfold TScan.domVal TScan.extended
        have hasc := h.asc
        rw [← h.pts, hp] at hasc
        have hd' := h.dom
        rw [← h.pts, hp] at hd'
        rw [hd', Pts.getDomain_not_isEmpty hasc (by simp), if_neg (by simp), Iv.contains_iff]
        simp [Iv.geLo, Iv.leHi, Pts.getDomain, Iv.closed]
        exact hx
      rw [hdom] at hd
      cases hd.2
  · rw [if_neg hd] at e
    have hne : A.src.points ≠ [] := by
      intro h0
      apply hd
      have h1 : A.src.domVal = Iv.empty := by rw [h.dom, ← h.pts, h0]; rfl
      unfold TScan.domVal TScan.extended
      rw [h1]
      rfl
    obtain ⟨p, ps, hp⟩ := List.exists_cons_of_ne_nil hne
    have hx : p.1 ≤ x := by
      by_contra hlt
      push Not at hlt
      apply hd
      have hasc := h.asc
      rw [← h.pts, hp] at hasc
      have hd' := h.dom
      rw [← h.pts, hp] at hd'
      have h1 : A.src.domVal.contains (.fin x) = false := by
        by_contra hc
        simp only [Bool.not_eq_false] at hc
        rw [hd', Pts.getDomain_contains_fin] at hc
        obtain ⟨p', q, hp', _, h1, _⟩ := hc
        simp only [List.getElem?_cons_zero, Option.some.injEq] at hp'
        subst hp'
        linarith
      have h2 : A.domVal.contains (.fin x) = false := by
        by_contra hc
        simp only [Bool.not_eq_false] at hc
        unfold TScan.domVal TScan.extended at hc
        rw [hd', Pts.getDomain_not_isEmpty hasc (by simp), if_neg (by simp), Iv.contains_iff] at hc
        simp [Iv.geLo, Iv.leHi, Pts.getDomain, Iv.closed] at hc
        linarith
      rw [h1, h2]; rfl
    have hreset : (if A.scanStart.any (fun s => decide (x < s)) then A.resetScan else A) = A := by
      rw [if_neg]
      intro hs
      cases hss : A.scanStart with
      | none => rw [hss] at hs; cases hs
      | some s =>
        rw [hss] at hs
        simp only [Option.any_some, decide_eq_true_eq] at hs
        obtain ⟨p', hp', hps⟩ := h.start s hss
        rw [hp] at hp'
        cases hp'
        linarith
    have hscan : A.scan n x = TScan.scanLoop x n A := by
      unfold TScan.scan
      rw [hreset]
    rw [hscan] at e
    split at e
    · cases e
    · cases e
    · rename_i C hC
      simp only [Option.some.injEq, Except.ok.injEq, Prod.mk.injEq] at e
      obtain ⟨rfl, rfl⟩ := e
      obtain ⟨pre', rest', g1, g2, g3⟩ := scanLoop_trail hm x n h hne hC
      exact ⟨g2, pre', rest', g1, .inr ⟨rfl, hne, g3⟩⟩

/-- What an edit that adds points at the end announces. -/
theorem appends_outcome {s : Pts ℚ} (hh : Honest s) {op : Op ℚ} (ha : Appends op) (hl : op.Legal) (r : Pts.Reads)
    (he : lateError (op.run s r).err = false) :
    ((op.run s r).ev = [] ∧ (op.run s r).st.points = s.points) ∨
      ∃ iv a b, (op.run s r).ev = [.begin iv a, .fin iv b] ∧ s.points <+: (op.run s r).st.points ∧
        ∀ o ∈ s.points.getLast?, iv.lo = .fin o.1 ∧ iv.loOpen = true := by
  have main : ∀ pts : List (Pt ℚ), Ascending pts → lateError (s.appendList pts r).err = false →
      ((s.appendList pts r).ev = [] ∧ (s.appendList pts r).st.points = s.points) ∨
      ∃ iv a b, (s.appendList pts r).ev = [.begin iv a, .fin iv b] ∧ s.points <+: (s.appendList pts r).st.points ∧
        ∀ o ∈ s.points.getLast?, iv.lo = .fin o.1 ∧ iv.loOpen = true := by
    intro pts hp he
    cases ho : s.points with
    | nil =>
      have : s.appendList pts r = s.set pts none r := by
        unfold Pts.appendList
        split
        · rfl
        · rename_i h; rw [ho] at h; cases h
      rw [this] at he ⊢
      rcases Pts.set_none hh.base hp r with ⟨h1, h2, h3⟩ | ⟨_, h, _⟩
      · rw [h3.err] at he; cases he
      · rcases h.ev with ⟨_, hev, hpp⟩ | ⟨hne, a, b, hev, _⟩
        · exact .inl ⟨hev, by rw [h.points, hpp, ho]⟩
        · exact .inr ⟨_, a, b, hev, List.nil_prefix, by simp⟩
    | cons o os =>
      cases pts with
      | nil =>
        have : s.appendList [] r = ⟨s, [], none⟩ := by
          unfold Pts.appendList
          split
          · rename_i h; rw [ho] at h; cases h
          · rfl
        rw [this]
        exact .inl ⟨rfl, ho⟩
      | cons p ps =>
        by_cases hle : p.1 ≤ ((o :: os).getLast (by simp)).1
        · rw [Pts.appendList_nonAscending r ho hle]
          exact .inl ⟨rfl, ho⟩
        · rcases Pts.appendList_cons hh.base r ho hp (not_le.1 hle) with ⟨h1, h2, h3⟩ | ⟨_, h, _⟩
          · rw [h3.err] at he; cases he
          · rcases h.ev with ⟨_, hev, hpp⟩ | ⟨hne, a, b, hev, _⟩
            · exact .inl ⟨hev, by rw [h.points, hpp, ho]⟩
            · refine .inr ⟨_, a, b, hev, ?_, ?_⟩
              · rw [h.points, ho]; exact List.prefix_append _ _
              · intro q hq
                rw [List.getLast?_eq_some_getLast (by simp)] at hq
                simp only [Option.mem_def, Option.some.injEq] at hq
                rw [← hq]
                exact ⟨rfl, rfl⟩
  cases op with
  | append p => exact main [p] (by simp [Ascending]) he
  | appendList pts => exact main pts hl he
  | set pts => exact ha.elim
  | replace p o => exact ha.elim
  | reset d => exact ha.elim

/-- An edit that adds points at the end leaves everything scanned as it is. -/
theorem Trail.edit (h0 : Clean t0) {A : TScan} {pre rest : List (Pt ℚ)} (h : Trail t0 m A pre rest) {op : Op ℚ}
    (ha : Appends op) (hl : op.Legal) (r : Pts.Reads) (he : lateError (op.run A.src r).err = false)
    (ht : Truthful (op.run A.src r).st) (hg : Gapped m (op.run A.src r).st.points) :
    A.edit op r = .ok { A with src := (op.run A.src r).st } ∧
      ∃ rest', Trail t0 m { A with src := (op.run A.src r).st } pre rest' := by
  have hh : Honest (op.run A.src r).st := .edit h.src hl he ht
  have hpre : A.src.points <+: (op.run A.src r).st.points := by
    rcases appends_outcome h.src ha hl r he with ⟨_, h2⟩ | ⟨_, _, _, _, h2, _⟩
    · rw [h2]
    · exact h2
  refine ⟨?_, ?_⟩
  · unfold TScan.edit
    rcases appends_outcome h.src ha hl r he with ⟨h1, h2⟩ | ⟨iv, a, b, h1, _, h3⟩
    · simp only [h1]; rfl
    · simp only [h1, TScan.notifyAll]
      have hle : ∀ q ∈ pre, ∀ o, (pre ++ rest).getLast? = some o → q.1 ≤ o.1 := by
        intro q hq o ho
        exact Accum.le_getLast h.asc ho (List.mem_append_left _ hq)
      have hout : ∀ q ∈ pre, ∀ x, x ≤ q.1 → (Accum.updateInterval iv).contains (.fin x) = false := by
        intro q hq x hx
        have hne : pre ++ rest ≠ [] := by
          intro h0
          rw [List.append_eq_nil_iff] at h0
          rw [h0.1] at hq; cases hq
        obtain ⟨i1, i2⟩ := h3 ((pre ++ rest).getLast hne) (by rw [h.pts]; simp [List.getLast?_eq_some_getLast hne])
        have := hle q hq _ (List.getLast?_eq_some_getLast hne)
        by_contra hc
        simp only [Bool.not_eq_false] at hc
        rw [Iv.contains_iff] at hc
        have h5 := hc.1
        simp [Accum.updateInterval, Iv.geLo, i1, i2] at h5
        linarith
      have hsame : A.trd.beginUpdate (Accum.updateInterval iv) = .ok A.trd := by
        cases hl : pre.getLast? with
        | none =>
          have hnil : pre = [] := by simpa using hl
          have hs := h.scans
          rw [hnil] at hs
          rw [← scans_unique .nil hs]
          exact clean_begin h0 _
        | some q =>
          have hpre : Ascending pre := (List.pairwise_append.1 h.asc).1
          exact beyond_begin (scans_rest h0 h.scans fun p hp => Accum.le_getLast hpre hl hp).1
            (hout q (List.mem_of_getLast? hl))
      have hdrop : ({ A with src := (op.run A.src r).st } : TScan).dropScanned (Accum.updateInterval iv) =
          { A with src := (op.run A.src r).st } := by
        unfold TScan.dropScanned
        cases hc : A.current with
        | none => simp
        | some c =>
          obtain ⟨q, hq, hqc⟩ := h.mem_cur hc
          have hqm := List.mem_of_getLast? hq
          have ht : Accum.touches (Accum.updateInterval iv) c = false := by
            have h6 := hout q hqm c hqc.ge
            by_contra hc
            simp only [Bool.not_eq_false] at hc
            have : (Accum.updateInterval iv).contains (.fin c) = true := by
              rw [Iv.contains_iff]
              refine ⟨?_, by simp [Iv.leHi, Accum.updateInterval]⟩
              unfold Accum.touches at hc
              rw [Iv.geLo_iff]
              simpa using hc
            rw [h6] at this; cases this
          simp only [Option.any_some, ht, Bool.false_eq_true, if_false]
          cases hs : A.scanStart with
          | none => simp
          | some s =>
            obtain ⟨p, hp, hps⟩ := h.start s hs
            have hle : s ≤ c := by
              rw [← hps, ← hqc]
              have hasc := h.asc
              rw [h.pts] at hp
              obtain ⟨l, hl⟩ : ∃ l, pre ++ rest = p :: l := by
                cases hpr : pre ++ rest with
                | nil => rw [hpr] at hp; cases hp
                | cons a l => rw [hpr] at hp; cases hp; exact ⟨l, rfl⟩
              have hq2 : q ∈ pre ++ rest := List.mem_append_left _ hqm
              rw [hl] at hasc hq2
              rcases List.mem_cons.1 hq2 with rfl | hq2
              · exact le_refl _
              · exact ((List.pairwise_cons.1 hasc).1 q hq2).le
            simp only
            rw [if_neg (not_lt.2 hle)]
      unfold TScan.onBegin
      simp only [hdrop, hsame]
      rfl
  · obtain ⟨c, hc⟩ := hpre
    refine ⟨rest ++ c, hh, ?_, hg, h.step, h.cur, ?_, h.scans⟩
    · show (op.run A.src r).st.points = _
      rw [← hc, h.pts, List.append_assoc]
    · intro s hs
      obtain ⟨p, hp, hps⟩ := h.start s hs
      refine ⟨p, ?_, hps⟩
      show (op.run A.src r).st.points.head? = _
      rw [← hc, List.head?_append, hp]
      rfl

/-- Histories with edits at the end only leave a trail. -/
theorem fed_trail (h0 : Clean t0) (hm : 0 < m) {A : TScan} (h : Fed Appends t0 m A) :
    ∃ pre rest, Trail t0 m A pre rest := by
  induction h with
  | new hs hg => exact ⟨[], _, hs, rfl, hg, rfl, rfl, (fun _ h => by cases h), .nil⟩
  | query h hq ih =>
    obtain ⟨pre, rest, hT⟩ := ih
    obtain ⟨_, pre', rest', h1, _⟩ := hT.query hm hq
    exact ⟨pre', rest', h1⟩
  | edit h ha hl he ht hg hB ih =>
    obtain ⟨pre, rest, hT⟩ := ih
    obtain ⟨h1, rest', h2⟩ := hT.edit h0 ha hl _ he ht hg
    rw [h1] at hB
    simp only [Except.ok.injEq] at hB
    rw [← hB]
    exact ⟨pre, rest', h2⟩

theorem clean_new {w : ℚ} (hw : 0 < w) (k : ℕ) (d s : ℚ) (r a : Option ℚ) (g : ℚ) : Clean (Trd.new w k d s r a g) :=
  ⟨hw, rfl, rfl, rfl⟩

/-! ## C88 -/

variable {w : ℚ} {k : ℕ} {d sr g : ℚ} {yr ya : Option ℚ}

/-- C88 (partial: edits add points at the end): whatever was queried before, the points of the trend are the first
points of the source that have a value, in order and each of them once, up to the position of the scan.
Missing: other edits, see `C88_negation`. -/
theorem C88_partial (hw : 0 < w) (hm : 0 < m) {A : TScan} (h : Fed Appends (Trd.new w k d sr yr ya g) m A) :
    ∃ pre rest, A.src.points = pre ++ rest ∧ A.trd.points = valued pre ∧
      A.current = pre.getLast?.map Prod.fst ∧ StrictX A.trd.points := by
  obtain ⟨pre, rest, hT⟩ := fed_trail (clean_new hw k d sr yr ya g) hm h
  have hpts : A.trd.points = valued pre := by
    cases hl : pre.getLast? with
    | none =>
      have : pre = [] := by simpa using hl
      exact (scans_rest (clean_new hw k d sr yr ya g) hT.scans (b := 0) (by rw [this]; simp)).2
    | some q =>
      have hpre : Ascending pre := (List.pairwise_append.1 hT.asc).1
      exact (scans_rest (clean_new hw k d sr yr ya g) hT.scans fun p hp => Accum.le_getLast hpre hl hp).2
  refine ⟨pre, rest, hT.pts, hpts, hT.cur, ?_⟩
  rw [hpts]
  have hpre : Ascending pre := (List.pairwise_append.1 hT.asc).1
  unfold valued StrictX
  rw [List.pairwise_filterMap]
  refine hpre.imp ?_
  intro p q hpq a ha b hb
  cases hp : p.2 with
  | none => rw [hp] at ha; cases ha
  | some y =>
    cases hq : q.2 with
    | none => rw [hq] at hb; cases hb
    | some z =>
      rw [hp] at ha; rw [hq] at hb
      cases ha; cases hb
      exact hpq

/-- C88, edits: an edit that adds points at the end never fails, and changes nothing but the source. -/
theorem C88_edit (hw : 0 < w) (hm : 0 < m) {A : TScan} (h : Fed Appends (Trd.new w k d sr yr ya g) m A) {op : Op ℚ}
    (ha : Appends op) (hl : op.Legal) (r : Pts.Reads) (he : lateError (op.run A.src r).err = false)
    (ht : Truthful (op.run A.src r).st) (hg : Gapped m (op.run A.src r).st.points) :
    A.edit op r = .ok { A with src := (op.run A.src r).st } := by
  obtain ⟨pre, rest, hT⟩ := fed_trail (clean_new hw k d sr yr ya g) hm h
  exact (hT.edit (clean_new hw k d sr yr ya g) ha hl r he ht hg).1

/-! ## C89 -/

/-- C89 (partial: edits add points at the end): after any such history the trend is the one that results from the scan
of the first points of the source without interruption.
Missing: other edits, see `C89_negation`. -/
theorem C89_partial (hw : 0 < w) (hm : 0 < m) {A : TScan} (h : Fed Appends (Trd.new w k d sr yr ya g) m A) :
    ∃ pre, pre <+: A.src.points ∧ ScansTo (Trd.new w k d sr yr ya g) pre A.trd ∧
      ∀ s, ScansTo (Trd.new w k d sr yr ya g) pre s → s = A.trd := by
  obtain ⟨pre, rest, hT⟩ := fed_trail (clean_new hw k d sr yr ya g) hm h
  exact ⟨pre, ⟨rest, hT.pts.symm⟩, hT.scans, fun s hs => scans_unique hs hT.scans⟩

/-- C89, answers (partial: edits add points at the end): a query at or after the last point of the source returns the
lines of the trend that results from the scan of all points without interruption. -/
theorem C89_answer_partial (hw : 0 < w) (hm : 0 < m) {A B : TScan} (h : Fed Appends (Trd.new w k d sr yr ya g) m A)
    {n : ℕ} {x : ℚ} {v : Option (List TLine)} (hx : ∀ p ∈ A.src.points, p.1 ≤ x) (hne : A.src.points ≠ [])
    (e : A.query n x = some (.ok (B, v))) :
    ScansTo (Trd.new w k d sr yr ya g) A.src.points B.trd ∧ v = some (B.trd.scannedY (some x)) := by
  obtain ⟨pre, rest, hT⟩ := fed_trail (clean_new hw k d sr yr ya g) hm h
  obtain ⟨hs, pre', rest', h1, h2⟩ := hT.query hm e
  have key : rest' = [] → ScansTo (Trd.new w k d sr yr ya g) A.src.points B.trd := by
    intro h0
    have := h1.pts
    rw [h0, List.append_nil, hs] at this
    rw [this]; exact h1.scans
  rcases h2 with ⟨_, _, h3⟩ | ⟨hv, _, h3 | ⟨c, hc, h3⟩⟩
  · exfalso
    obtain ⟨p, ps, hp⟩ := List.exists_cons_of_ne_nil hne
    rw [hp] at h3
    simp only [List.head?_cons, Option.all_some, decide_eq_true_eq] at h3
    have := hx p (by rw [hp]; simp)
    linarith
  · exact ⟨key h3, hv⟩
  · refine ⟨key ?_, hv⟩
    obtain ⟨q, hq, hqc⟩ := h1.mem_cur hc
    have hcx : ¬ c < x := by
      intro hlt
      unfold TScan.continueScan at h3
      rw [if_pos hlt] at h3
      cases h3
    cases rest' with
    | nil => rfl
    | cons p rest' =>
      exfalso
      have h5 := (List.pairwise_append.1 h1.asc).2.2 q (List.mem_of_getLast? hq) p (by simp)
      have := hx p (by rw [← hs, h1.pts]; simp)
      linarith

/-! ## C90 -/

theorem extent_width (t : TLine) : extent t.trend = t.width := by
  unfold extent TLine.width
  match t.trend with
  | [] => rfl
  | [p] => simp
  | p :: q :: rest => simp [List.getLast?_eq_some_getLast]

theorem distance_spaced (dd : ℚ) (mm : ℕ) : ∀ (ps : List XY) (n : ℕ),
    TLine.distanceLoop dd mm n ps < mm ↔ n + spaced dd ps < mm
  | [], n => by simp [TLine.distanceLoop, spaced]
  | [p], n => by simp [TLine.distanceLoop, spaced]
  | p :: q :: rest, n => by
    rw [TLine.distanceLoop]
    have hsp : spaced dd (p :: q :: rest) = spaced dd (q :: rest) + if q.1 - p.1 ≥ dd then 1 else 0 := by
      unfold spaced
      simp only [List.tail_cons, List.zip_cons_cons, List.countP_cons, decide_eq_true_eq, ge_iff_le]
    by_cases h1 : q.1 - p.1 ≥ dd
    · rw [if_pos h1]
      rw [if_pos h1] at hsp
      by_cases h2 : n + 1 ≥ mm
      · rw [if_pos h2]; omega
      · rw [if_neg h2, distance_spaced dd mm (q :: rest) (n + 1)]; omega
    · rw [if_neg h1]
      rw [if_neg h1] at hsp
      rw [distance_spaced dd mm (q :: rest) n]; omega

theorem lineFilter_iff (s : Trd) (t : TLine) (x : Option ℚ) : s.lineFilter t x = true ↔ Offered s x t := by
  have hv : t.isValid = true ↔ t.line ≠ none ∧ t.minWidth ≤ extent t.trend ∧ t.minPoints ≤ t.trend.length ∧
      t.minPoints ≤ 1 + spaced t.minDist t.trend := by
    unfold TLine.isValid TLine.isReady
    rw [extent_width]
    have h1 := distance_spaced t.minDist t.minPoints t.trend 1
    cases hl : t.line with
    | none => simp
    | some l =>
      simp only [Option.isSome_some, Bool.not_true, Bool.false_or, Bool.or_eq_true, decide_eq_true_eq, ne_eq,
        reduceCtorEq, not_false_eq_true, true_and]
      by_cases h2 : t.width < t.minWidth ∨ t.trend.length < t.minPoints
      · rw [if_pos h2]
        simp only [Bool.false_eq_true, false_iff]
        rintro ⟨a, b, -⟩
        rcases h2 with h2 | h2
        · linarith
        · omega
      · rw [if_neg h2]
        push Not at h2
        by_cases h3 : 1 + spaced t.minDist t.trend < t.minPoints
        · rw [if_pos (h1.2 h3)]
          simp only [Bool.false_eq_true, false_iff]
          rintro ⟨-, -, c⟩
          omega
        · rw [if_neg (mt h1.1 h3)]
          exact ⟨fun _ => ⟨h2.1, h2.2, by omega⟩, fun _ => rfl⟩
  unfold Trd.lineFilter
  constructor
  · intro h
    by_cases h1 : t.isValid = true
    · obtain ⟨a, b, c, e⟩ := hv.1 h1
      rw [h1, if_neg (by simp)] at h
      have hcov : ∀ z, x = some z → t.search.contains (.fin z) = true := by
        rintro z rfl
        by_contra hc
        simp only [Bool.not_eq_true] at hc
        simp [hc] at h
      refine ⟨a, b, ?_, c, e, hcov⟩
      rw [extent_width]
      by_contra h3
      push Not at h3
      rw [if_pos h3] at h
      simp at h
    · rw [if_pos (by simpa using h1)] at h; cases h
  · intro h
    have h1 := hv.2 ⟨h.line, h.width, h.points, h.apart⟩
    rw [h1, if_neg (by simp), if_neg, if_neg]
    · have := h.wide
      rw [extent_width] at this
      exact not_lt.2 this
    · cases x with
      | none => simp
      | some z => simp [h.covers z rfl]

open Classical in
/-- C90: what a trend returns are the lines that have a chord, enough width and enough points, and whose search interval
contains the position; all of them, the ones below the points first, and in order of their levels. -/
theorem C90_lines (s : Trd) (x : Option ℚ) :
    s.scannedY x = (s.lower.flatten ++ s.upper.flatten).filter fun t => decide (Offered s x t) := by
  unfold Trd.scannedY Trd.scannedLower Trd.scannedUpper
  rw [← List.filter_append]
  congr 1
  funext t
  rw [Bool.eq_iff_iff, lineFilter_iff, decide_eq_true_eq]

/-- C90, queries: an answer is given from the first point of the source on, and only there. -/
theorem C90_query {A B : TScan} (hs : Honest A.src) {n : ℕ} {x : ℚ} {v : Option (List TLine)}
    (e : A.query n x = some (.ok (B, v))) :
    (v = some (B.trd.scannedY (some x)) ∧ ∃ p, A.src.points.head? = some p ∧ p.1 ≤ x) ∨
      (v = none ∧ B = A ∧ ∀ p, A.src.points.head? = some p → x < p.1) := by
  have hasc := hs.wf.asc
  have hdom : (!A.src.domVal.contains (.fin x) && !A.domVal.contains (.fin x)) = true ↔
      ∀ p, A.src.points.head? = some p → x < p.1 := by
    unfold TScan.domVal TScan.extended
    rw [hs.wf.domVal]
    cases hp : A.src.points with
    | nil => simp only [List.head?_nil, reduceCtorEq, false_implies, implies_true, iff_true]; rfl
    | cons p ps =>
      rw [hp] at hasc
      rw [Pts.getDomain_not_isEmpty hasc (by simp), if_neg (by simp)]
      simp only [Bool.and_eq_true, Bool.not_eq_true', List.head?_cons, Option.some.injEq, forall_eq']
      have h2 : (⟨(Pts.getDomain (p :: ps)).lo, .pinf, (Pts.getDomain (p :: ps)).loOpen, true⟩ : Iv).contains
          (.fin x) = decide (p.1 ≤ x) := by
        rw [Bool.eq_iff_iff, Iv.contains_iff]
        simp [Iv.geLo, Iv.leHi, Pts.getDomain, Iv.closed]
      rw [h2, decide_eq_false_iff_not, not_le]
      refine ⟨fun h => h.2, fun h => ⟨?_, h⟩⟩
      by_contra hc
      simp only [Bool.not_eq_false] at hc
      rw [Pts.getDomain_contains_fin] at hc
      obtain ⟨p', q, hp', _, h1, _⟩ := hc
      simp only [List.getElem?_cons_zero, Option.some.injEq] at hp'
      subst hp'
      linarith
  unfold TScan.query at e
  by_cases hd : (!A.src.domVal.contains (.fin x) && !A.domVal.contains (.fin x)) = true
  · rw [if_pos hd] at e
    simp only [Option.some.injEq, Except.ok.injEq, Prod.mk.injEq] at e
    obtain ⟨rfl, rfl⟩ := e
    exact .inr ⟨rfl, rfl, hdom.1 hd⟩
  · rw [if_neg hd] at e
    split at e
    · cases e
    · cases e
    · simp only [Option.some.injEq, Except.ok.injEq, Prod.mk.injEq] at e
      obtain ⟨rfl, rfl⟩ := e
      rw [hdom] at hd
      push Not at hd
      exact .inl ⟨rfl, hd⟩

/-! ## C91 -/

theorem staleLoop_sorted (dom : Iv) : ∀ {ps : List XY}, ps.Pairwise (fun p q => q.1 ≤ p.1) →
    TLine.staleLoop dom ps = ps.filter fun p => !dom.contains (.fin p.1)
  | [], _ => rfl
  | p :: ps, h => by
    obtain ⟨h1, h2⟩ := List.pairwise_cons.1 h
    rw [TLine.staleLoop, List.filter_cons]
    by_cases hc : dom.contains (.fin p.1) = true
    · rw [if_pos hc, staleLoop_sorted dom h2]
      simp [hc]
    · rw [if_neg hc]
      have hc' : dom.contains (.fin p.1) = false := by simpa using hc
      simp only [hc', Bool.not_false, if_true]
      by_cases hlt : Ext.fin p.1 < dom.lo
      · rw [if_pos hlt]
        congr 1
        symm
        rw [List.filter_eq_self]
        intro q hq
        simp only [Bool.not_eq_true']
        by_contra hq'
        simp only [Bool.not_eq_false] at hq'
        rw [Iv.contains_iff, Iv.geLo_iff] at hq'
        have h3 : Ext.fin q.1 ≤ Ext.fin p.1 := by simpa using h1 q hq
        have h4 : Ext.fin q.1 < dom.lo := lt_of_le_of_lt h3 hlt
        rcases hq'.1 with h5 | h5
        · exact absurd (h4.trans h5) (lt_irrefl _)
        · rw [h5.1] at h4; exact absurd h4 (lt_irrefl _)
      · rw [if_neg hlt, staleLoop_sorted dom h2]

theorem removeStale_sorted (dom : Iv) {ps : List XY} (h : SortedX ps) :
    TLine.removeStale dom ps = ps.filter fun p => !dom.contains (.fin p.1) := by
  unfold TLine.removeStale
  rw [staleLoop_sorted dom (List.pairwise_reverse.2 h), List.filter_reverse, List.reverse_reverse]

/-- C91 (partial: sorted points): an update removes the points of the trend that are in its interval, and no others.
Missing: points in any other order, see `C91_negation_unsorted`. -/
theorem C91_points_partial {s u : Trd} {dom : Iv} (hs : SortedX s.points) (h : s.beginUpdate dom = .ok u) :
    u.points = s.points.filter fun p => !dom.contains (.fin p.1) := by
  unfold Trd.beginUpdate at h
  obtain ⟨a, -, h⟩ := bind_inv h
  obtain ⟨b, -, h⟩ := bind_inv h
  have := pure_inv h
  rw [← this]
  exact removeStale_sorted dom hs

/-- C91 (partial: boundary points, and lines whose search interval meets that of the update): an update leaves no
boundary point of a line in its interval.
Missing: lines that are not searched there, see `C91_negation`. -/
theorem C91_boundary_partial {t u : TLine} {dom : Iv} {us : List XY} (hg : Grown t) (hw : 0 < t.minWidth)
    (hi : t.search.intersects dom = true) (h : t.beginUpdate dom us = .ok u) :
    ∀ p ∈ u.boundary, dom.contains (.fin p.1) = false := by
  have hk := grown_kept hg hw
  have hst : TLine.removeStale dom t.boundary = t.boundary.filter fun p => !dom.contains (.fin p.1) :=
    removeStale_sorted dom (hk.strict.imp fun h => h.le)
  have hno : ∀ p ∈ TLine.removeStale dom t.boundary, dom.contains (.fin p.1) = false := by
    intro p hp
    rw [hst] at hp
    simpa using (List.mem_filter.1 hp).2
  unfold TLine.beginUpdate at h
  rw [if_neg (by simp [hi])] at h
  simp only at h
  split_ifs at h
  · obtain ⟨v, l, up, lo, i, a, e, s, d, h1, -, -, -, rfl⟩ := TLine.updateTrend_eq h
    show ∀ p ∈ v.boundary, _
    unfold TLine.renew at h1
    split_ifs at h1
    · obtain ⟨bs, ts, rfl, a1, -, -⟩ := TLine.setTrend_eq h1
      exact fun p hp => hno p (a1.subset hp)
    · simp only [Except.ok.injEq] at h1
      rw [← h1]
      exact hno
  · simp only [Except.ok.injEq] at h
    rw [← h]
    exact hno

/-! ## Examples and disagreements -/

/-- The state after a query. -/
def asked (A : TScan) (n : ℕ) (x : ℚ) : TScan :=
  match A.query n x with
  | some (.ok (B, _)) => B
  | _ => A

/-- The answer to a query. -/
def answer (A : TScan) (n : ℕ) (x : ℚ) : Option (List TLine) :=
  match A.query n x with
  | some (.ok (_, v)) => v
  | _ => none

/-- The state after an edit. -/
def edited (A : TScan) (op : Op ℚ) : TScan :=
  match A.edit op Accum.quiet with
  | .ok B => B
  | _ => A

theorem fed_asked {allowed : Op ℚ → Prop} {A : TScan} (h : Fed allowed t0 m A) (n : ℕ) (x : ℚ) :
    Fed allowed t0 m (asked A n x) := by
  unfold asked
  split
  · rename_i e; exact .query h e
  · exact h

theorem fed_edited {allowed : Op ℚ → Prop} {A : TScan} (h : Fed allowed t0 m A) {op : Op ℚ} (ha : allowed op)
    (hl : op.Legal) (he : lateError (op.run A.src Accum.quiet).err = false)
    (ht : EquallySpaced (op.run A.src Accum.quiet).st.points) (hg : Gapped m (op.run A.src Accum.quiet).st.points) :
    Fed allowed t0 m (edited A op) := by
  unfold edited
  split
  · rename_i e; exact .edit h ha hl he (fun _ => ht) hg e
  · exact h

/-- Three equal values and one above them. -/
def bumpPts : List (Pt ℚ) := [(0, some 1), (1, some 1), (2, some 2), (3, some 1)]

/-- A trend before its first scan. -/
def bumpTrd : Trd := Trd.new 1 3 0 10 none (some (1 / 10)) (8 / 5)

/-- A trend over the points. -/
def bump : TScan := TScan.new (loose bumpPts) bumpTrd (1 / 100)

/-- The trend is queried, then the last point is replaced by itself. -/
def bumped : TScan := edited (asked bump 30 3) (.replace (3, some 1) false)

theorem bumpPts_spaced : EquallySpaced bumpPts := ⟨1, by norm_num [bumpPts]⟩

theorem bumpPts_gapped : Gapped (1 / 100) bumpPts := by norm_num [Gapped, bumpPts]

theorem bump_fed (allowed : Op ℚ → Prop) : Fed allowed bumpTrd (1 / 100) bump := by
  have h : (loose bumpPts).points = bumpPts := by decide +kernel
  refine .new (loose_honest (by norm_num [Ascending, bumpPts]) bumpPts_spaced (by decide +kernel)) ?_
  rw [h]; exact bumpPts_gapped

theorem bumped_fed : Fed (fun _ => True) bumpTrd (1 / 100) bumped := by
  have h : ((Op.replace (3, some 1) false : Op ℚ).run (asked bump 30 3).src Accum.quiet).st.points = bumpPts := by
    decide +kernel
  refine fed_edited (fed_asked (bump_fed _) 30 3) trivial trivial (by decide +kernel) ?_ ?_
  · rw [h]; exact bumpPts_spaced
  · rw [h]; exact bumpPts_gapped

/-- Disagreement with C88: the last point of the source is replaced, even by the same value, and the next query scans
all points again, without removing those recorded before. -/
theorem C88_negation : ∃ A : TScan, Fed (fun _ => True) bumpTrd (1 / 100) A ∧ A.src.points = bumpPts ∧
    A.trd.points = [(0, 1), (1, 1), (2, 2), (0, 1), (1, 1), (2, 2), (3, 1)] :=
  ⟨asked bumped 30 3, fed_asked bumped_fed 30 3, by decide +kernel, by decide +kernel⟩

/-- Disagreement with C89: over the same points, a trend that was queried before a point was replaced by itself
returns no line, a new one returns one. -/
theorem C89_negation : ∃ A B : TScan, Fed (fun _ => True) bumpTrd (1 / 100) A ∧
    Fed (fun _ => True) bumpTrd (1 / 100) B ∧ A.src.points = bumpPts ∧ B.src.points = bumpPts ∧
    (answer A 30 3).map List.length = some 0 ∧ (answer B 30 3).map List.length = some 1 :=
  ⟨bumped, bump, bumped_fed, bump_fed _, by decide +kernel, by decide +kernel, by decide +kernel, by decide +kernel⟩

/-- Disagreement with C89, the state: the trend is not the result of scanning any beginning of the source. -/
theorem C89_negation_state : ∃ A : TScan, Fed (fun _ => True) bumpTrd (1 / 100) A ∧
    ∀ pre, pre <+: A.src.points → ¬ ScansTo bumpTrd pre A.trd := by
  obtain ⟨A, hA, hs, hp⟩ := C88_negation
  refine ⟨A, hA, ?_⟩
  intro pre hpre hsc
  rw [hs] at hpre
  have hb : ∀ p ∈ pre, p.1 ≤ 3 := by
    intro p hp
    have := hpre.subset hp
    simp only [bumpPts, List.mem_cons, List.not_mem_nil, or_false] at this
    rcases this with rfl | rfl | rfl | rfl <;> norm_num
  have h1 := (scans_rest (clean_new (by norm_num) _ _ _ _ _ _) hsc hb).2
  have h2 := congrArg List.length h1
  rw [hp] at h2
  have h3 : (valued pre).length ≤ pre.length := List.length_filterMap_le _ _
  have h4 := hpre.length_le
  simp only [bumpPts, List.length_cons, List.length_nil] at h2 h4
  omega

/-- Points added at the end. -/
def grownBump : TScan := asked (edited (asked bump 30 1) (.append (4, some 3))) 30 4

example : Fed Appends bumpTrd (1 / 100) grownBump ∧
    grownBump.trd.points = [(0, 1), (1, 1), (2, 2), (3, 1), (4, 3)] ∧
    (answer grownBump 30 4).map List.length = some 2 := by
  have h : ((Op.append (4, some 3) : Op ℚ).run (asked bump 30 1).src Accum.quiet).st.points =
      bumpPts ++ [(4, some 3)] := by decide +kernel
  refine ⟨fed_asked (fed_edited (fed_asked (bump_fed _) 30 1) (op := .append (4, some 3)) trivial trivial (by decide +kernel) ?_ ?_) 30 4,
    by decide +kernel, by decide +kernel⟩
  · rw [h]; exact ⟨1, by norm_num [bumpPts]⟩
  · rw [h]; norm_num [Gapped, bumpPts]

example : (bumpTrd.scannedY none).length = 0 ∧ ((asked bump 30 3).trd.scannedY none).length = 1 ∧
    ((asked bump 30 3).trd.scannedY (some (-1))).length = 0 := by
  refine ⟨?_, ?_, ?_⟩ <;> decide +kernel

/-- A trend with a line that is crossed before its last point. -/
def crossedTrd : Trd :=
  scanned (Trd.new 2 3 2 10 none (some 1) (8 / 5)) [(0, 2), (1, 4), (2, 1), (3, 1), (4, 1)]

/-- The trend points of the lines after an update. -/
def leftOver (s : Trd) (dom : Iv) : List (List XY) :=
  match s.beginUpdate dom with
  | .ok u => (u.upper.flatten ++ u.lower.flatten).map (·.trend)
  | .error _ => []

/-- Disagreement with C91: a line that was crossed before its last point is not searched there, so an update of that
point leaves it in the line. -/
theorem C91_negation : ∃ s u : Trd, TrdScanned s ∧ s.beginUpdate ⟨.fin 3, .pinf, false, true⟩ = .ok u ∧
    ∃ ls ∈ u.upper ++ u.lower, ∃ t ∈ ls, t.trend = [(1, 4), (3, 1)] := by
  have h0 : TrdScanned crossedTrd := scanned_scanned (TrdScanned.new _ _ _ _ _ _ _) _
  have h1 : ([(1, 4), (3, 1)] : List XY) ∈ leftOver crossedTrd ⟨.fin 3, .pinf, false, true⟩ := by decide +kernel
  unfold leftOver at h1
  split at h1
  · rename_i u hu
    obtain ⟨t, ht, htt⟩ := List.mem_map.1 h1
    rw [← List.flatten_append] at ht
    obtain ⟨ls, hls, hl⟩ := List.mem_flatten.1 ht
    exact ⟨crossedTrd, u, h0, hu, ls, hls, t, hl, htt⟩
  · cases h1

/-- Disagreement with C91: once points were recorded twice, an update leaves some of those in its interval. -/
theorem C91_negation_unsorted : ∃ A : TScan, Fed (fun _ => True) bumpTrd (1 / 100) A ∧
    ∃ u, A.trd.beginUpdate ⟨.fin 1, .pinf, false, true⟩ = .ok u ∧ u.points = [(0, 1), (1, 1), (2, 2), (0, 1)] := by
  refine ⟨asked bumped 30 3, fed_asked bumped_fed 30 3, ?_⟩
  have h : (match (asked bumped 30 3).trd.beginUpdate ⟨.fin 1, .pinf, false, true⟩ with
    | .ok u => u.points
    | .error _ => []) = [(0, 1), (1, 1), (2, 2), (0, 1)] := by decide +kernel
  split at h
  · rename_i u hu; exact ⟨u, hu, h⟩
  · cases h

example : (match (asked bump 30 3).trd.beginUpdate ⟨.fin 2, .pinf, false, true⟩ with
    | .ok u => (u.points, u.upper.flatten.map TLine.boundary)
    | .error _ => ([], [])) = ([(0, 1), (1, 1)], [[(0, 1)], [(1, 1)], [(0, 1)]]) := by decide +kernel

/-! ### An instance of each theorem -/

theorem grownBump_fed : Fed Appends bumpTrd (1 / 100) grownBump := by
  have h : ((Op.append (4, some 3) : Op ℚ).run (asked bump 30 1).src Accum.quiet).st.points =
      bumpPts ++ [(4, some 3)] := by decide +kernel
  refine fed_asked (fed_edited (fed_asked (bump_fed _) 30 1) (op := .append (4, some 3)) trivial trivial (by decide +kernel) ?_ ?_) 30 4
  · rw [h]; exact ⟨1, by norm_num [bumpPts]⟩
  · rw [h]; norm_num [Gapped, bumpPts]

-- `C88_partial`, `C89_partial`: after a query at `1`, a point appended and a query at `4`
example : (∃ pre rest, grownBump.src.points = pre ++ rest ∧ grownBump.trd.points = valued pre) ∧
    ∃ pre, pre <+: grownBump.src.points ∧ ScansTo bumpTrd pre grownBump.trd := by
  obtain ⟨pre, rest, h, h', -⟩ := C88_partial (by norm_num) (by norm_num) grownBump_fed
  obtain ⟨pre', k, k', -⟩ := C89_partial (by norm_num) (by norm_num) grownBump_fed
  exact ⟨⟨pre, rest, h, h'⟩, pre', k, k'⟩

-- `C88_edit`: a point appended to a curve that was asked at `1` only
example : (asked bump 30 1).edit (.append (4, some 3)) Accum.quiet =
    .ok { asked bump 30 1 with src := ((Op.append (4, some 3) : Op ℚ).run (asked bump 30 1).src Accum.quiet).st } := by
  have h : ((Op.append (4, some 3) : Op ℚ).run (asked bump 30 1).src Accum.quiet).st.points =
      bumpPts ++ [(4, some 3)] := by decide +kernel
  refine C88_edit (by norm_num) (by norm_num) (fed_asked (bump_fed Appends) 30 1) (op := .append (4, some 3)) trivial trivial _ (by decide +kernel) ?_ ?_
  · intro _; rw [h]; exact ⟨1, by norm_num [bumpPts]⟩
  · rw [h]; norm_num [Gapped, bumpPts]

-- `C89_answer_partial`, `C90_query`
example : ∃ B v, grownBump.query 30 5 = some (.ok (B, v)) ∧ ScansTo bumpTrd grownBump.src.points B.trd ∧
    v = some (B.trd.scannedY (some 5)) := by
  have key : (match grownBump.query 30 5 with | some (.ok _) => true | _ => false) = true := by decide +kernel
  have hp : grownBump.src.points = bumpPts ++ [(4, some 3)] := by decide +kernel
  match e : grownBump.query 30 5, key with
  | some (.ok (B, v)), _ =>
    have := C89_answer_partial (by norm_num) (by norm_num) grownBump_fed (x := 5)
      (by rw [hp]; intro p hp; simp [bumpPts] at hp; rcases hp with rfl | rfl | rfl | rfl | rfl <;> norm_num)
      (by rw [hp]; simp) e
    exact ⟨B, v, rfl, this⟩

-- `C91_points_partial`
example : ∃ u, (asked bump 30 3).trd.beginUpdate ⟨.fin 2, .pinf, false, true⟩ = .ok u ∧
    u.points = (asked bump 30 3).trd.points.filter fun p => !(⟨.fin 2, .pinf, false, true⟩ : Iv).contains (.fin p.1) := by
  have key : (match (asked bump 30 3).trd.beginUpdate ⟨.fin 2, .pinf, false, true⟩ with | .ok _ => true | _ => false) = true := by
    decide +kernel
  match e : (asked bump 30 3).trd.beginUpdate ⟨.fin 2, .pinf, false, true⟩, key with
  | .ok u, _ =>
    refine ⟨u, rfl, C91_points_partial ?_ e⟩
    have hp : (asked bump 30 3).trd.points = [(0, 1), (1, 1), (2, 2), (3, 1)] := by decide +kernel
    rw [hp]
    norm_num [SortedX]

end Props
end Curvepy
