import Verif.Model.ExtremasSampling
import Verif.Spec.ExtremasSampling
import Verif.Props.ExtremasScan
import Verif.Props.PointsSampling

/-!
# Property C144: sampling of extremas
-/

namespace Curvepy
namespace Props
open Spec Extr

variable {ref : ℚ → Option ℚ} {dev m b : ℚ} {A : Extr} {pre rest : List (Pt ℚ)}

/-- Nothing up to `b` is scanned any more. -/
structure Settled (ref : ℚ → Option ℚ) (dev m b : ℚ) (A : Extr) (pre rest : List (Pt ℚ)) : Prop where
  track : Track ref dev m A pre rest
  dom : A.src.domVal.contains (.fin b) = true
  done : rest = [] ∨ (interval A.extremas).contains (.fin b) (enforceStart := false) = true

theorem no_reset (h : Track ref dev m A pre rest) {x : ℚ} (hx : A.src.domVal.contains (.fin x) = true) :
    (if A.scanStart.any (fun s => decide (x < s)) then A.resetScan else A) = A := by
  rw [if_neg]
  intro hs
  cases hss : A.scanStart with
  | none => rw [hss] at hs; cases hs
  | some s =>
    rw [hss] at hs
    simp only [Option.any_some, decide_eq_true_eq] at hs
    obtain ⟨p, hp, hps⟩ := h.start s hss
    rw [h.dom, ← h.pts] at hx
    obtain ⟨p', q, hp', _, h1, _⟩ := (Pts.getDomain_contains_fin _ _).1 hx
    rw [← List.head?_eq_getElem?, hp] at hp'
    cases hp'
    linarith

theorem scan_settles (hd : 0 ≤ dev) (hm : 0 < m) (h : Track ref dev m A pre rest) {x : ℚ}
    (hx : A.src.domVal.contains (.fin x) = true) :
    ∃ B pre' rest', A.scan x = some (B, none) ∧ B.src = A.src ∧ Settled ref dev m x B pre' rest' := by
  obtain ⟨B, pre', rest', b1, b2, b3, b4⟩ := scanLoop_track hd hm x rest pre A (A.src.points.length + 2) h
    (by rw [← h.dom]; exact hx) (by rw [h.pts, List.length_append]; omega)
  refine ⟨B, pre', rest', ?_, b2, b3, by rw [b2]; exact hx, b4⟩
  unfold scan
  simp only [no_reset h hx]
  exact b1

theorem scan_settled (hm : 0 < m) (h : Settled ref dev m b A pre rest) {x : ℚ}
    (hx : A.src.domVal.contains (.fin x) = true) (hxb : x ≤ b) : A.scan x = some (A, none) := by
  have ht := h.track
  unfold scan
  simp only [no_reset ht hx]
  unfold scanLoop
  cases hc : A.current with
  | none =>
    exfalso
    have hp : pre = [] := by
      have := ht.cur
      rw [hc] at this
      cases hl : pre.getLast? with
      | none => simpa using hl
      | some q => rw [hl] at this; cases this
    rcases h.done with hr | hr
    · have := ht.dom
      rw [hp, hr] at this
      rw [this] at hx
      cases hx
    · cases he : A.extremas with
      | nil => rw [he] at hr; cases hr
      | cons e es =>
        have := ht.recorded e (by rw [he]; simp)
        rw [hp] at this
        cases this
  | some c =>
    rcases h.done with hr | hr
    · have : A.nextPos x = (A, .ok none) := by
        unfold Extr.nextPos
        rw [hc]
        simp only [ht.xNext hm hc, hr, List.head?_nil, Option.map_none]
      simp only [this]
      split <;> rfl
    · have hno : A.continueScan c x = false := by
        have hne : A.extremas ≠ [] := by
          intro h0; rw [h0] at hr; cases hr
        obtain ⟨q, hq, hqc⟩ := ht.mem_cur hc
        have hpre : Ascending pre := (List.pairwise_append.1 ht.asc).1
        have h1 := Accum.le_getLast hpre hq (ht.recorded _ (List.getLast_mem hne))
        rw [interval_eq _ hne] at hr
        have h2 := contains_from hr
        have hdom : A.src.domVal.contains (.fin c) = true := by
          rw [ht.dom, ← hqc]
          exact Pts.getDomain_contains_mem ht.asc (by simp [List.mem_of_getLast? hq])
        unfold continueScan
        simp only at h1
        rw [if_neg (by linarith), hdom, interval_eq _ hne]
        simp [Iv.contains, Iv.closed, Iv.leHi] at hr ⊢
        exact ⟨hr.1, by linarith⟩
      simp [hno]

/-- The extremas of the points there are. -/
abbrev turns (ref : ℚ → Option ℚ) (dev : ℚ) (A : Extr) : List (ℚ × ℚ) := (foundIn ref dev A.src.points).1

theorem query_settled (hd : 0 ≤ dev) (hm : 0 < m) (h : Settled ref dev m b A pre rest) {x : ℚ} (hxb : x ≤ b)
    (hx : A.src.domVal.contains (.fin x) = true) :
    A.query (.fin x) = some (A, .ok (valueAt .linear (defined (turns ref dev A)) x)) := by
  obtain ⟨B, h1, _⟩ := h.track.query hd hm x
  rw [h1]
  unfold Extr.query at h1
  simp only [hx, Bool.not_true, Bool.false_eq_true, if_false, scan_settled hm h hx hxb] at h1
  rw [(Prod.mk.inj (Option.some.inj h1)).1]

theorem turns_points (hd : 0 ≤ dev) (h : Track ref dev m A pre rest) :
    (turns ref dev A).Pairwise (fun e f => e.1 < f.1) ∧ ∀ e ∈ turns ref dev A, (e.1, some e.2) ∈ A.src.points :=
  C60_order hd h.src.wf.asc h.fine

theorem gapped_pair {l : List (Pt ℚ)} (hg : Gapped m l) (hm : 0 < m) {p q : Pt ℚ} (hp : p ∈ l) (hq : q ∈ l) (h : p.1 < q.1) :
    p.1 + m ≤ q.1 := by
  have hpw : l.Pairwise fun p q => p.1 + m ≤ q.1 := by
    have : IsTrans (Pt ℚ) fun p q => p.1 + m ≤ q.1 := ⟨fun a b c h1 h2 => by linarith⟩
    exact List.isChain_iff_pairwise.1 hg
  have asym := hpw
  obtain ⟨i, hi, rfl⟩ := List.getElem_of_mem hp
  obtain ⟨j, hj, rfl⟩ := List.getElem_of_mem hq
  rcases lt_trichotomy i j with hij | rfl | hij
  · exact List.pairwise_iff_getElem.1 hpw i j hi hj hij
  · exact absurd h (lt_irrefl _)
  · have := List.pairwise_iff_getElem.1 hpw j i hj hi hij
    linarith

/-- Where the walk goes from `x`. -/
theorem next_settled (hd : 0 ≤ dev) (hm : 0 < m) (h : Settled ref dev m b A pre rest) (x : ℚ) :
    (A.xNext x m = .ok none ∧ ∀ e ∈ turns ref dev A, ¬ (x + m ≤ e.1 ∧ e.1 ≤ b)) ∨
    ∃ p ∈ A.src.points, A.xNext x m = .ok (some (.fin p.1)) ∧ x + m ≤ p.1 ∧
      ((b < p.1 ∧ ∀ e ∈ turns ref dev A, ¬ (x + m ≤ e.1 ∧ e.1 ≤ b)) ∨
       (∃ e ∈ turns ref dev A, e.1 = p.1 ∧ ∀ f ∈ turns ref dev A, x + m ≤ f.1 → e.1 ≤ f.1) ∨
       (valueAt .linear (defined (turns ref dev A)) p.1 = none ∧
         ∀ e ∈ turns ref dev A, x + m ≤ e.1 → p.1 + m ≤ e.1)) := by
  have ht := h.track
  obtain ⟨hsort, hpts⟩ := turns_points hd ht
  obtain ⟨G, g1, g2, _⟩ := ht.known.confirmed (List.prefix_append pre rest)
  rw [← ht.pts] at g2
  have hG : G.Pairwise fun e f => e.1 < f.1 := hsort.sublist g2.sublist
  have hs := g1.sorted hG
  have hmem : ∀ e, e ∈ A.extremas ↔ e ∈ G := fun e => g1.mem e
  have hnext := next_recorded hs x m
  rw [ht.step, max_self] at hnext
  obtain ⟨n1, n2⟩ := hnext
  by_cases hin : (∃ e ∈ A.extremas, e.1 ≤ x + m) ∧ ∃ f ∈ A.extremas, x + m ≤ f.1
  · obtain ⟨⟨e, he, hex⟩, f, hf, hxf⟩ := hin
    obtain ⟨z, h1, ⟨w, hw, rfl, hw'⟩, h3⟩ := n1 e he f hf hex hxf
    have hwG := (hmem w).1 hw
    have hwT : w ∈ turns ref dev A := g2.subset hwG
    refine Or.inr ⟨_, hpts w hwT, h1, hw', Or.inr (Or.inl ⟨w, hwT, rfl, ?_⟩)⟩
    intro f hf hxf
    obtain ⟨more, hmore⟩ := g2
    have hf' : f ∈ G ++ more := by rw [hmore]; exact hf
    rcases List.mem_append.1 hf' with hf' | hf'
    · exact h3 ⟨f, (hmem f).2 hf', rfl, hxf⟩
    · have hs2 := hsort
      change (foundIn ref dev A.src.points).1.Pairwise _ at hs2
      rw [← hmore] at hs2
      exact ((List.pairwise_append.1 hs2).2.2 w hwG f hf').le
  · have hout : (∀ e ∈ A.extremas, x + m < e.1) ∨ (∀ e ∈ A.extremas, e.1 < x + m) := by
      rw [not_and_or] at hin
      rcases hin with hin | hin
      · left
        intro e he
        by_contra hc
        exact hin ⟨e, he, not_lt.1 hc⟩
      · right
        intro e he
        by_contra hc
        exact hin ⟨e, he, not_lt.1 hc⟩
    rw [n2 hout]
    have hcomplete : rest = [] → G = turns ref dev A := by
      intro hr
      have hk := ht.known
      have hp := ht.pts
      rw [hr, List.append_nil] at hk hp
      rw [← hp] at hk
      have e1 := hk.complete
      refine g2.eq_of_length_le ?_
      -- the same members, both strictly ascending
      have hnd : (turns ref dev A).Nodup := hsort.imp fun h => by rintro rfl; exact lt_irrefl _ h
      have hsub : turns ref dev A ⊆ G := fun e he => (hmem e).1 ((e1.mem e).2 he)
      exact (List.subperm_of_subset hnd hsub).length_le
    have hlate : (∀ e ∈ A.extremas, e.1 < x + m) → rest ≠ [] → b < x + m := by
      intro hall hr
      rcases h.done with hd' | hd'
      · exact absurd hd' hr
      · have hne : A.extremas ≠ [] := by
          intro h0; rw [h0] at hd'; cases hd'
        rw [interval_eq _ hne] at hd'
        have h2 := contains_from hd'
        have := hall _ (List.getLast_mem hne)
        linarith
    rcases Props.C06_x_next ht.src x m with ⟨z, h1, ⟨p, hp, rfl, hz⟩, hleast⟩ | ⟨h1, h2⟩
    · refine Or.inr ⟨p, hp, h1, hz, ?_⟩
      rcases hout with hout | hout
      · by_cases hr : A.extremas = [] ∧ rest ≠ []
        · -- nothing recorded, nothing settled
          exfalso
          rcases h.done with hd' | hd'
          · exact hr.2 hd'
          · rw [hr.1] at hd'; cases hd'
        · by_cases hE : turns ref dev A = []
          · right; right
            rw [hE]
            exact ⟨rfl, by simp⟩
          · have hhead : ∀ e ∈ turns ref dev A, x + m < e.1 := by
              intro e he
              by_cases h0 : A.extremas = []
              · rw [not_and_not_right] at hr
                have h5 := hcomplete (hr h0)
                rw [← h5] at he
                have := (hmem e).2 he
                rw [h0] at this
                cases this
              · obtain ⟨g, gs, hgs⟩ := List.exists_cons_of_ne_nil h0
                have hgG := (hmem g).1 (by rw [hgs]; simp)
                have hg1 := hout g (by rw [hgs]; simp)
                obtain ⟨more, hmore⟩ := g2
                have he' : e ∈ G ++ more := by rw [hmore]; exact he
                rcases List.mem_append.1 he' with he' | he'
                · exact hout e ((hmem e).2 he')
                · have hs2 := hsort
                  change (foundIn ref dev A.src.points).1.Pairwise _ at hs2
                  rw [← hmore] at hs2
                  exact hg1.trans ((List.pairwise_append.1 hs2).2.2 g hgG e he')
            by_cases hpe : ∃ e ∈ turns ref dev A, e.1 = p.1
            · obtain ⟨e, he, hep⟩ := hpe
              right; left
              refine ⟨e, he, hep, ?_⟩
              intro f hf hxf
              rw [hep]
              exact hleast ⟨_, hpts f hf, rfl, hxf⟩
            · right; right
              have hlt : ∀ e ∈ turns ref dev A, p.1 < e.1 := by
                intro e he
                refine lt_of_le_of_ne (hleast ⟨_, hpts e he, rfl, (hhead e he).le⟩) ?_
                intro hc
                exact hpe ⟨e, he, hc.symm⟩
              refine ⟨?_, ?_⟩
              · apply Pts.valueAt_before
                intro q hq
                obtain ⟨e, he, rfl⟩ := List.mem_map.1 hq
                exact hlt e he
              · intro e he _
                exact gapped_pair ht.gapped hm hp (hpts e he) (hlt e he)
      · by_cases hr : rest = []
        · have h5 := hcomplete hr
          have hlt : ∀ e ∈ turns ref dev A, e.1 < x + m := by
            intro e he
            rw [← h5] at he
            exact hout e ((hmem e).2 he)
          right; right
          refine ⟨?_, ?_⟩
          · apply Pts.valueAt_after
            intro q hq
            obtain ⟨e, he, rfl⟩ := List.mem_map.1 hq
            exact (hlt e he).trans_le hz
          · intro e he hx
            have := hlt e he
            linarith
        · have hb := hlate hout hr
          left
          refine ⟨by linarith, ?_⟩
          rintro e _ ⟨h6, h7⟩
          linarith
    · refine Or.inl ⟨h1, ?_⟩
      rintro e he ⟨h6, _⟩
      have := h2 _ (hpts e he)
      simp only at this
      linarith

/-- The extremas from `x` to `b`. -/
abbrev turnsIn (es : List (ℚ × ℚ)) (x b : ℚ) : List (ℚ × ℚ) := es.filter fun e => decide (x ≤ e.1 ∧ e.1 ≤ b)

theorem turnsIn_nil {es : List (ℚ × ℚ)} {x b : ℚ} (h : ∀ e ∈ es, ¬ (x ≤ e.1 ∧ e.1 ≤ b)) : turnsIn es x b = [] := by
  rw [turnsIn, List.filter_eq_nil_iff]
  intro e he
  simpa using h e he

theorem turnsIn_cons {es : List (ℚ × ℚ)} {x b : ℚ} (hs : es.Pairwise fun e f => e.1 < f.1) {e : ℚ × ℚ} (he : e ∈ es)
    (hx : x ≤ e.1) (hb : e.1 ≤ b) (hl : ∀ f ∈ es, x ≤ f.1 → e.1 ≤ f.1) (hm : 0 < m)
    (hg : ∀ f ∈ es, e.1 < f.1 → e.1 + m ≤ f.1) : turnsIn es x b = e :: turnsIn es (e.1 + m) b := by
  obtain ⟨s, t, rfl⟩ := List.append_of_mem he
  obtain ⟨h1, h2, h3⟩ := List.pairwise_append.1 hs
  obtain ⟨h4, _⟩ := List.pairwise_cons.1 h2
  have e1 : ∀ y, x ≤ y → turnsIn s y b = [] := by
    intro y hy
    refine turnsIn_nil ?_
    rintro f hf ⟨h5, _⟩
    have h6 := hl f (by simp [hf]) (hy.trans h5)
    have := h3 f hf e (by simp)
    linarith
  have e2 : turnsIn t x b = turnsIn t (e.1 + m) b := by
    refine List.filter_congr fun f hf => ?_
    have h5 := hg f (by simp [hf]) (h4 f hf)
    have h6 : x ≤ f.1 := by linarith
    simp [h5, h6]
  have e3 : turnsIn [e] (e.1 + m) b = [] := by
    refine turnsIn_nil ?_
    rintro f hf ⟨h5, _⟩
    simp only [List.mem_singleton] at hf
    subst hf
    linarith
  have e4 : turnsIn [e] x b = [e] := by
    simp [turnsIn, hx, hb]
  have app : ∀ y, turnsIn (s ++ e :: t) y b = turnsIn s y b ++ (turnsIn [e] y b ++ turnsIn t y b) := by
    intro y
    rw [← List.filter_append, ← List.filter_append]
    rfl
  rw [app, app, e1 x le_rfl, e1 _ (by linarith), e3, e4, e2]
  rfl

theorem knot_value {es : List (ℚ × ℚ)} (hs : es.Pairwise fun e f => e.1 < f.1) {e : ℚ × ℚ} (he : e ∈ es) :
    valueAt .linear (defined es) e.1 = some e.2 := by
  obtain ⟨i, hi, rfl⟩ := List.getElem_of_mem he
  exact Pts.valueAt_knot .linear (k := i) (p := (es[i].1, some es[i].2)) (defined_asc hs) (by simp [defined, hi])

/-- The walk from `x`. -/
theorem walkLoop_spec (hd : 0 ≤ dev) (hm : 0 < m) (h : Settled ref dev m b A pre rest)
    (hh : ∀ p ∈ A.src.points, p.1 ≤ b → NotHalfway m p.1) : ∀ (n : ℕ) (x : ℚ),
    (A.src.points.filter fun p => decide (x + m ≤ p.1)).length < n →
    ∃ r qs, A.xNext x m = .ok r ∧ walkLoop m b (pyRound (b / m)) n A r = some (A, .ok qs) ∧
      qs.filter (fun p => p.2.isSome) = defined (turnsIn (turns ref dev A) (x + m) b) ∧
      (∀ q ∈ qs, q.2 = valueAt .linear (defined (turns ref dev A)) q.1 ∧ x < q.1 ∧ q.1 ≤ b) ∧
      qs.Pairwise fun p q => p.1 < q.1 := by
  have ht := h.track
  obtain ⟨hsort, hpts⟩ := turns_points hd ht
  intro n
  induction n with
  | zero => intro x hx; omega
  | succ n ih =>
    intro x hx
    rcases next_settled hd hm h x with ⟨h1, h2⟩ | ⟨p, hp, h1, hxp, h2⟩
    · exact ⟨none, [], h1, rfl, by rw [turnsIn_nil h2]; rfl, by simp, .nil⟩
    · by_cases hpb : p.1 ≤ b
      · have hdom : A.src.domVal.contains (.fin p.1) = true := by
          rw [ht.src.wf.domVal]
          exact Pts.getDomain_contains_mem ht.src.wf.asc hp
        have hq := query_settled hd hm h hpb hdom
        have hnh := hh p hp hpb
        have hlen : (A.src.points.filter fun q => decide (p.1 + m ≤ q.1)).length < n := by
          have hsub : (A.src.points.filter fun q => decide (p.1 + m ≤ q.1)).length <
              (A.src.points.filter fun q => decide (x + m ≤ q.1)).length := by
            have e2 : (A.src.points.filter fun q => decide (p.1 + m ≤ q.1)) =
                (A.src.points.filter fun q => decide (x + m ≤ q.1)).filter fun q => decide (p.1 + m ≤ q.1) := by
              rw [List.filter_filter]
              refine List.filter_congr fun q _ => ?_
              by_cases hr : p.1 + m ≤ q.1
              · have : x + m ≤ q.1 := by linarith
                simp [hr, this]
              · simp [hr]
            rw [e2]
            refine List.length_filter_lt_length_iff_exists.2 ⟨p, List.mem_filter.2 ⟨hp, by simpa using hxp⟩, ?_⟩
            simp only [decide_eq_true_eq, not_le]
            linarith
          omega
        obtain ⟨r, qs, i1, i2, i3, i4, i5⟩ := ih p.1 hlen
        -- what is put before the rest
        have hput : (((p.1, valueAt .linear (defined (turns ref dev A)) p.1) : Pt ℚ) :: qs).filter (fun p => p.2.isSome) =
            defined (turnsIn (turns ref dev A) (x + m) b) := by
          rcases h2 with ⟨h3, _⟩ | ⟨e, he, hep, hl⟩ | ⟨h3, h4⟩
          · exact absurd hpb (not_le.2 h3)
          · rw [← hep, knot_value hsort he, List.filter_cons_of_pos (by simp), i3,
              turnsIn_cons hsort he (by rw [hep]; exact hxp) (by rw [hep]; exact hpb) hl hm (fun f hf hlt =>
                gapped_pair ht.gapped hm (hpts e he) (hpts f hf) hlt), hep]
            simp only [defined, List.map_cons, hep]
          · rw [h3, List.filter_cons_of_neg (by simp), i3]
            congr 1
            refine List.filter_congr fun f hf => ?_
            have h5 := h4 f hf
            by_cases h6 : x + m ≤ f.1
            · simp [h6, h5 h6]
            · have : ¬ p.1 + m ≤ f.1 := by intro h7; exact h6 (by linarith)
              simp [h6, this]
        have hall : ∀ q ∈ ((p.1, valueAt .linear (defined (turns ref dev A)) p.1) : Pt ℚ) :: qs,
            q.2 = valueAt .linear (defined (turns ref dev A)) q.1 ∧ x < q.1 ∧ q.1 ≤ b := by
          intro q hq
          rcases List.mem_cons.1 hq with rfl | hq
          · exact ⟨rfl, by simp only; linarith, hpb⟩
          · obtain ⟨j1, j2, j3⟩ := i4 q hq
            exact ⟨j1, by linarith, j3⟩
        have hpw : (((p.1, valueAt .linear (defined (turns ref dev A)) p.1) : Pt ℚ) :: qs).Pairwise fun p q => p.1 < q.1 :=
          List.pairwise_cons.2 ⟨fun q hq => (i4 q hq).2.1, i5⟩
        refine ⟨_, _, h1, ?_, hput, hall, hpw⟩
        unfold walkLoop
        rw [if_pos hpb, hq]
        simp only [Pts.stepBin, if_neg hm.ne']
        -- the steps
        have hstep : ∀ z : ℚ, p.1 + m ≤ z → pyRound (p.1 / m) < pyRound (z / m) := fun z hz => bin_lt hm hnh hz
        by_cases hbin : pyRound (p.1 / m) = pyRound (b / m)
        · rw [if_pos hbin]
          have hqs : qs = [] := by
            have hnone : ∀ q ∈ A.src.points, p.1 + m ≤ q.1 → b < q.1 := by
              intro q hq hpq
              by_contra hc
              rw [not_lt] at hc
              have h7 := pyRound_mono (hh q hq hc) (div_le_div_of_nonneg_right hc hm.le)
              have h6 := hstep _ hpq
              omega
            rcases next_settled hd hm h p.1 with ⟨k1, _⟩ | ⟨q, hq, k1, k2, _⟩
            · rw [i1] at k1
              cases k1
              cases n with
              | zero => omega
              | succ n =>
                simp only [walkLoop, Option.some.injEq, Prod.mk.injEq, true_and, Except.ok.injEq] at i2
                exact i2.symm
            · rw [i1] at k1
              cases k1
              cases n with
              | zero => omega
              | succ n =>
                rw [walkLoop, if_neg (not_le.2 (hnone q hq k2))] at i2
                simp only [Option.some.injEq, Prod.mk.injEq, true_and, Except.ok.injEq] at i2
                exact i2.symm
          rw [hqs]
        · rw [if_neg hbin, i1]
          rcases next_settled hd hm h p.1 with ⟨k1, _⟩ | ⟨q, hq, k1, k2, _⟩
          · rw [i1] at k1
            cases k1
            cases n with
            | zero => omega
            | succ n =>
              simp only [walkLoop, Option.some.injEq, Prod.mk.injEq, true_and, Except.ok.injEq] at i2
              rw [← i2]
          · rw [i1] at k1
            cases k1
            simp only
            rw [if_neg (not_le.2 (hstep _ k2)), i2]
            rfl
      · refine ⟨_, [], h1, ?_, ?_, by simp, .nil⟩
        · rw [walkLoop, if_neg hpb]
        · rw [turnsIn_nil]
          · rfl
          · rcases h2 with ⟨_, h3⟩ | ⟨e, he, hep, hl⟩ | ⟨h3, h4⟩
            · exact h3
            · rintro f hf ⟨h5, h6⟩
              have := hl f hf h5
              exact hpb (by linarith)
            · rintro f hf ⟨h5, h6⟩
              have := h4 f hf h5
              exact hpb (by linarith)

/-! ### The domain -/

/-- The domain to sample is between two numbers. -/
structure Ranges (A : Extr) (domain : Option Iv) (d : Iv) (a b : ℚ) : Prop where
  dom : A.common domain = d
  some : d.isEmpty = false
  lo : d.lo = .fin a
  hi : d.hi = .fin b

theorem closed_contains {l r x : ℚ} : (Iv.closed l r).contains (.fin x) = true ↔ l ≤ x ∧ x ≤ r := by
  rw [Iv.contains_closed, Bool.and_eq_true, decide_eq_true_eq, decide_eq_true_eq]

theorem Ranges.le {domain : Option Iv} {d : Iv} {a b : ℚ} (h : Ranges A domain d a b) : a ≤ b := by
  obtain ⟨x, hx⟩ := Iv.exists_mem d h.some
  rw [Iv.contains_iff, Iv.geLo_iff, Iv.leHi_iff, h.lo, h.hi] at hx
  have h1 : Ext.fin a ≤ x := hx.1.elim le_of_lt fun h => h.1.le
  have h2 : x ≤ Ext.fin b := hx.2.elim le_of_lt fun h => h.1.le
  exact (Ext.fin_le_fin _ _).1 (h1.trans h2)

theorem Ranges.inside {domain : Option Iv} {d : Iv} {a b : ℚ} (hs : Honest A.src) (h : Ranges A domain d a b) {x : ℚ} (h1 : a ≤ x)
    (h2 : x ≤ b) : A.src.domVal.contains (.fin x) = true := by
  have hd := h.dom
  have hE : A.src.domVal.isEmpty = false := by
    by_contra hc
    rw [Bool.not_eq_false] at hc
    have := h.some
    rw [← hd] at this
    cases domain with
    | none => rw [common, hc] at this; cases this
    | some D =>
      rw [common, Iv.inter, hc] at this
      simp [Iv.empty, Iv.isEmpty] at this
  obtain ⟨p, ps, hp⟩ : ∃ p ps, A.src.points = p :: ps := by
    cases hp : A.src.points with
    | nil =>
      rw [hs.wf.domVal, hp] at hE
      cases hE
    | cons p ps => exact ⟨p, ps, rfl⟩
  have hdom : A.src.domVal = Iv.closed p.1 ((p :: ps).getLast (by simp)).1 := by
    rw [hs.wf.domVal, hp]; rfl
  rw [hdom] at hE ⊢
  rw [closed_contains]
  cases domain with
  | none =>
    rw [common, hdom] at hd
    have e1 := h.lo
    have e2 := h.hi
    rw [← hd] at e1 e2
    simp only [Iv.closed, Ext.fin.injEq] at e1 e2
    rw [e1, e2]
    exact ⟨h1, h2⟩
  | some D =>
    rw [common, hdom] at hd
    have hne := h.some
    rw [← hd] at hne
    have e0 : Iv.inter (Iv.closed p.1 ((p :: ps).getLast (by simp)).1) D =
        Iv.interRaw (Iv.closed p.1 ((p :: ps).getLast (by simp)).1) D := by
      unfold Iv.inter at hne ⊢
      split_ifs at hne ⊢
      · simp [Iv.empty, Iv.isEmpty] at hne
      · simp [Iv.empty, Iv.isEmpty] at hne
      · rfl
    rw [e0] at hd
    have e1 := h.lo
    have e2 := h.hi
    rw [← hd] at e1 e2
    simp only [Iv.interRaw] at e1 e2
    constructor
    · split_ifs at e1 with hl
      · simp only [Iv.loLe, Iv.closed, e1, Ext.fin_lt_fin, Ext.fin.injEq, Bool.or_eq_true, Bool.and_eq_true,
          decide_eq_true_eq] at hl
        rcases hl with hl | hl <;> linarith
      · simp only [Iv.closed, Ext.fin.injEq] at e1
        linarith
    · split_ifs at e2 with hl
      · simp only [Iv.hiGe, Iv.closed, e2, Ext.fin_lt_fin, Ext.fin.injEq, Bool.or_eq_true, Bool.and_eq_true,
          decide_eq_true_eq] at hl
        rcases hl with hl | hl <;> linarith
      · simp only [Iv.closed, Ext.fin.injEq] at e2
        linarith

theorem first_settled (hd : 0 ≤ dev) (hm : 0 < m) (h : Settled ref dev m b A pre rest) (d : Iv) {a : ℚ} (hab : a ≤ b)
    (ha : A.src.domVal.contains (.fin a) = true) :
    firstOf A d a = some (A, .ok (withValues .linear (defined (turns ref dev A)) (if d.loOpen then [] else [a]))) := by
  unfold firstOf
  rw [query_settled hd hm h hab ha]
  cases d.loOpen <;> rfl

theorem filter_last {l : List (Pt ℚ)} {p : Pt ℚ} (h : l.getLast? = some p) (hp : p.2.isSome = true) :
    (l.filter fun p => p.2.isSome).getLast? = some p := by
  obtain ⟨s, rfl⟩ : ∃ s, l = s ++ [p] := by
    have hne : l ≠ [] := by rintro rfl; cases h
    refine ⟨l.dropLast, ?_⟩
    rw [List.getLast?_eq_some_getLast hne] at h
    cases h
    exact (List.dropLast_append_getLast hne).symm
  simp [List.filter_append, hp]

/-- After the walk. -/
theorem closeWalk_spec (hd : 0 ≤ dev) (hm : 0 < m) (h : Settled ref dev m b A pre rest) (d : Iv) {a : ℚ} (hab : a ≤ b)
    {qs : List (Pt ℚ)} (hq1 : qs.filter (fun p => p.2.isSome) = defined (turnsIn (turns ref dev A) (a + m) b))
    (hq2 : ∀ q ∈ qs, q.2 = valueAt .linear (defined (turns ref dev A)) q.1 ∧ a < q.1 ∧ q.1 ≤ b)
    (hq3 : qs.Pairwise fun p q => p.1 < q.1)
    (hne : d.loOpen = false ∨ d.hiOpen = true ∨ ∃ e ∈ turns ref dev A, a + m ≤ e.1 ∧ e.1 ≤ b) :
    ∃ l, closeWalk A d b (withValues .linear (defined (turns ref dev A)) (if d.loOpen then [] else [a]) ++ qs) = some (A, .ok l) ∧
      l.filter (fun p => p.2.isSome) =
        onLines (turns ref dev A) (turningPositions m a b d.loOpen d.hiOpen (turns ref dev A)) := by
  obtain ⟨hsort, hpts⟩ := turns_points hd h.track
  set es := turns ref dev A with hes
  set ps := withValues .linear (defined es) (if d.loOpen then [] else [a]) with hps
  have hmap : (withValues .linear (defined es) ((turnsIn es (a + m) b).map Prod.fst)) = defined (turnsIn es (a + m) b) := by
    rw [withValues, List.map_map]
    refine List.map_congr_left fun e he => ?_
    simp only [Function.comp_apply]
    rw [knot_value hsort (List.mem_filter.1 he).1]
  have hon : ∀ l l', onLines es (l ++ l') = onLines es l ++ onLines es l' := by
    intro l l'
    simp [onLines, withValues]
  have hE : onLines es ((turnsIn es (a + m) b).map Prod.fst) = defined (turnsIn es (a + m) b) := by
    rw [onLines, hmap, List.filter_eq_self]
    intro p hp
    obtain ⟨e, _, rfl⟩ := List.mem_map.1 hp
    rfl
  have hbase : (ps ++ qs).filter (fun p => p.2.isSome) =
      onLines es ((if d.loOpen then [] else [a]) ++ (turnsIn es (a + m) b).map Prod.fst) := by
    rw [List.filter_append, hq1, hon, hE]
    rfl
  have hlast : ∀ x, ((if d.loOpen then [] else [a]) ++ (turnsIn es (a + m) b).map Prod.fst).getLast? = some x → x = b →
      ∃ p, (ps ++ qs).getLast? = some p ∧ p.1 = b := by
    rintro x hx rfl
    by_cases hT : turnsIn es (a + m) x = []
    · rw [hT] at hx
      have hox : d.loOpen = false ∧ a = x := by
        cases ho : d.loOpen
        · rw [ho] at hx; exact ⟨rfl, by simpa using hx⟩
        · rw [ho] at hx; simp at hx
      have hqs : qs = [] := by
        rw [List.eq_nil_iff_forall_not_mem]
        intro q hq
        have := hq2 q hq
        linarith [hox.2]
      refine ⟨(a, valueAt .linear (defined es) a), ?_, hox.2⟩
      rw [hqs, hps, hox.1]
      simp [withValues]
    · have hmem : x ∈ (turnsIn es (a + m) x).map Prod.fst := by
        rw [List.getLast?_append_of_ne_nil _ (by simpa using hT)] at hx
        exact List.mem_of_getLast? hx
      obtain ⟨e, he, hex⟩ := List.mem_map.1 hmem
      have he' : (e.1, some e.2) ∈ qs := by
        have : (e.1, some e.2) ∈ qs.filter fun p => p.2.isSome := by
          rw [hq1]; exact List.mem_map.2 ⟨e, he, rfl⟩
        exact (List.mem_filter.1 this).1
      have hqne : qs ≠ [] := List.ne_nil_of_mem he'
      refine ⟨qs.getLast hqne, ?_, ?_⟩
      · rw [List.getLast?_append_of_ne_nil _ hqne, List.getLast?_eq_some_getLast hqne]
      · refine le_antisymm (hq2 _ (List.getLast_mem hqne)).2.2 ?_
        rw [← hex]
        rw [← List.dropLast_append_getLast hqne] at he' hq3
        rcases List.mem_append.1 he' with h1 | h1
        · exact ((List.pairwise_append.1 hq3).2.2 _ h1 _ (by simp)).le
        · simp only [List.mem_singleton] at h1
          exact le_of_eq (by rw [← h1])
  unfold closeWalk
  cases ho : d.hiOpen with
  | true =>
    refine ⟨_, rfl, ?_⟩
    rw [hbase, turningPositions, withEnd, if_pos (Or.inl rfl)]
  | false =>
    simp only [Bool.false_eq_true, if_false]
    have hnil : ps ++ qs ≠ [] := by
      intro hc
      obtain ⟨c1, c2⟩ := List.append_eq_nil_iff.1 hc
      rcases hne with h1 | h1 | ⟨e, he, he'⟩
      · rw [hps, h1] at c1
        simp [withValues] at c1
      · rw [ho] at h1; cases h1
      · have : (e.1, some e.2) ∈ qs.filter fun p => p.2.isSome := by
          rw [hq1]
          exact List.mem_map.2 ⟨e, List.mem_filter.2 ⟨he, by simpa using he'⟩, rfl⟩
        rw [c2] at this
        cases this
    obtain ⟨p, hp⟩ : ∃ p, (ps ++ qs).getLast? = some p := ⟨_, List.getLast?_eq_some_getLast hnil⟩
    rw [hp]
    simp only
    by_cases hpb : p.1 = b
    · rw [if_pos hpb]
      refine ⟨_, rfl, ?_⟩
      rw [hbase, turningPositions, withEnd]
      by_cases hc : (false : Bool) = true ∨
          ((if d.loOpen then [] else [a]) ++ (turnsIn es (a + m) b).map Prod.fst).getLast? = some b
      · rw [if_pos hc]
      · rw [if_neg hc, hon (_ ++ _) [b]]
        suffices hv : onLines es [b] = [] by rw [hv, List.append_nil]
        -- no value at the end, otherwise it is there
        by_contra hv
        have hsome : p.2.isSome = true ∧ p.2 = valueAt .linear (defined es) p.1 := by
          have hpv : p.2 = valueAt .linear (defined es) p.1 := by
            rcases List.mem_append.1 (List.mem_of_getLast? hp) with h1 | h1
            · obtain ⟨x, _, rfl⟩ := List.mem_map.1 h1
              rfl
            · exact (hq2 p h1).1
          refine ⟨?_, hpv⟩
          by_contra h2
          apply hv
          rw [onLines, withValues, List.map_cons, List.map_nil, List.filter_cons_of_neg]
          · rfl
          · simp only
            rw [← hpb, ← hpv]
            exact h2
        have hfl := filter_last hp hsome.1
        rw [hbase] at hfl
        apply hc
        right
        have hkeep : ∀ l : List ℚ, (∀ x ∈ l.getLast?, (valueAt .linear (defined es) x).isSome = true) →
            ∀ q, (onLines es l).getLast? = some q → l.getLast? = some q.1 := by
          intro l hl q hq
          cases hll : l.getLast? with
          | none =>
            have : l = [] := by simpa using hll
            rw [this] at hq
            cases hq
          | some x =>
            have h3 : (withValues .linear (defined es) l).getLast? = some (x, valueAt .linear (defined es) x) := by
              simp [withValues, hll]
            have := filter_last h3 (hl x hll)
            rw [onLines] at hq
            rw [this] at hq
            cases hq
            rfl
        refine (hkeep _ ?_ p hfl).trans (by rw [hpb])
        intro x hx
        by_cases hT : turnsIn es (a + m) b = []
        · rw [hT] at hx hfl
          cases hlo : d.loOpen with
          | false =>
            rw [hlo] at hx hfl
            simp only [Bool.false_eq_true, if_false, List.map_nil, List.append_nil, List.getLast?_singleton, Option.mem_some_iff] at hx
            subst hx
            rw [List.map_nil, List.append_nil] at hfl
            simp only [Bool.false_eq_true, if_false] at hfl
            have hm2 := List.mem_of_getLast? hfl
            rw [onLines, List.mem_filter] at hm2
            obtain ⟨y, hy, hy2⟩ := List.mem_map.1 hm2.1
            simp only [List.mem_singleton] at hy
            subst hy
            have hv2 := hm2.2
            rw [← hy2] at hv2
            exact hv2
          | true =>
            rw [hlo] at hx
            simp at hx
        · rw [List.getLast?_append_of_ne_nil _ (by simpa using hT)] at hx
          obtain ⟨e, he, rfl⟩ := List.mem_map.1 (List.mem_of_getLast? hx)
          rw [knot_value hsort (List.mem_filter.1 he).1]
          rfl
    · rw [if_neg hpb, query_settled hd hm h le_rfl h.dom]
      refine ⟨_, rfl, ?_⟩
      have hnot : ¬ ((false : Bool) = true ∨
          ((if d.loOpen then [] else [a]) ++ (turnsIn es (a + m) b).map Prod.fst).getLast? = some b) := by
        rintro (hc | hc)
        · cases hc
        · obtain ⟨p', hp', hpb'⟩ := hlast b hc rfl
          rw [hp] at hp'
          cases hp'
          exact hpb hpb'
      rw [turningPositions, withEnd, if_neg hnot, hon, List.filter_append, hbase]
      rfl

theorem gridLoop_spec (hd : 0 ≤ dev) (hm : 0 < m) (h : Settled ref dev m b A pre rest) {st : ℚ} (hst : 0 < st) (K : ℕ) :
    ∀ (x : ℚ) (n : ℕ), K < n → (∀ y, x ≤ y → y ≤ b → A.src.domVal.contains (.fin y) = true) →
    (∀ k : ℕ, k < K → x + k * st ≤ b) → b < x + K * st →
    gridLoop b st n A x =
      some (A, .ok (withValues .linear (defined (turns ref dev A)) ((List.range K).map fun k : ℕ => x + k * st))) := by
  induction K with
  | zero =>
    intro x n hn _ _ hb
    obtain ⟨n, rfl⟩ : ∃ k, n = k + 1 := ⟨n - 1, by omega⟩
    rw [gridLoop, if_neg (by push_cast at hb; linarith)]
    rfl
  | succ K ih =>
    intro x n hn hx hk hb
    obtain ⟨n, rfl⟩ : ∃ k, n = k + 1 := ⟨n - 1, by omega⟩
    have h0 := hk 0 (by omega)
    have hxb : x ≤ b := by push_cast at h0; linarith
    rw [gridLoop, if_pos hxb, query_settled hd hm h hxb (hx x le_rfl hxb)]
    simp only
    rw [ih (x + st) n (by omega) (fun y hy => hx y (by linarith)) (fun k hk' => by
      have := hk (k + 1) (by omega)
      push_cast at this
      linarith) (by push_cast at hb; linarith)]
    have e : (List.range (K + 1)).map (fun k : ℕ => x + k * st) = x :: (List.range K).map fun k : ℕ => x + st + k * st := by
      rw [List.range_succ_eq_map, List.map_cons, List.map_map]
      congr 1
      · simp
      · refine List.map_congr_left fun k _ => ?_
        simp only [Function.comp_apply, Nat.succ_eq_add_one]
        push_cast
        ring
    rw [e]
    rfl

theorem grid_list {st a b : ℚ} (o : Bool) :
    gridPositions st a b o = (if o then [] else [a]) ++ (List.range ⌊(b - a) / st⌋₊).map fun k : ℕ => a + st + k * st := by
  unfold gridPositions
  set K := ⌊(b - a) / st⌋₊
  have e2 : ((List.range (K + 1)).filter fun k => decide (k ≠ 0 ∨ o = false)) =
      (if o then [] else [0]) ++ (List.range K).map Nat.succ := by
    rw [List.range_succ_eq_map]
    have h3 : ((List.range K).map Nat.succ).filter (fun k => decide (k ≠ 0 ∨ o = false)) = (List.range K).map Nat.succ := by
      rw [List.filter_eq_self]
      intro k hk
      obtain ⟨j, _, rfl⟩ := List.mem_map.1 hk
      simp
    cases o
    · rw [List.filter_cons_of_pos (by simp), h3]
      rfl
    · rw [List.filter_cons_of_neg (by simp), h3]
      rfl
  rw [e2, List.map_append, List.map_map]
  congr 1
  · cases o <;> simp
  · refine List.map_congr_left fun k _ => ?_
    simp only [Function.comp_apply, Nat.succ_eq_add_one]
    push_cast
    ring

/-- Both scans before sampling. -/
theorem scans_settle (hd : 0 ≤ dev) (hm : 0 < m) (h : Track ref dev m A pre rest) {domain : Option Iv} {d : Iv} {a b : ℚ}
    (hr : Ranges A domain d a b) : ∃ B pre' rest', B.src = A.src ∧ B.minStep = m ∧ Settled ref dev m b B pre' rest' ∧
      ∀ (M : ℚ) (st : Option ℚ) (fuel : ℕ), scanSample A (A.common domain) M st fuel = curveSample B d a b M st fuel := by
  obtain ⟨B, p1, r1, b1, b2, b3⟩ := scan_settles hd hm h (hr.inside h.src le_rfl hr.le)
  obtain ⟨C, p2, r2, c1, c2, c3⟩ := scan_settles hd hm b3.track (x := b) (by rw [b2]; exact hr.inside h.src hr.le le_rfl)
  refine ⟨C, p2, r2, c2.trans b2, c3.track.step, c3, fun M st fuel => ?_⟩
  unfold scanSample
  rw [hr.dom, hr.some, hr.lo, hr.hi]
  simp only [Bool.false_eq_true, if_false, b1, c1]

theorem same_answers (hd : 0 ≤ dev) (hm : 0 < m) {B : Extr} {p1 r1 p2 r2 : List (Pt ℚ)} (hA : Track ref dev m A p1 r1)
    (hB : Track ref dev m B p2 r2) (hs : B.src = A.src) (x : ℚ) :
    (B.query (.fin x)).map Prod.snd = (A.query (.fin x)).map Prod.snd := by
  obtain ⟨_, h1, _⟩ := hA.query hd hm x
  obtain ⟨_, h2, _⟩ := hB.query hd hm x
  rw [h1, h2, hs]
  rfl

theorem walk_track (hd : 0 ≤ dev) (hm : 0 < m) (h : Track ref dev m A pre rest) {domain : Option Iv} {d : Iv} {a b : ℚ}
    (hr : Ranges A domain d a b) {k : ℚ} (hk : k ≤ m) (hh : ∀ p ∈ A.src.points, p.1 ≤ b → NotHalfway m p.1) {fuel : ℕ}
    (hf : A.src.points.length < fuel)
    (hne : d.loOpen = false ∨ d.hiOpen = true ∨ ∃ e ∈ turns ref dev A, a + m ≤ e.1 ∧ e.1 ≤ b) :
    ∃ B, A.samplePoints domain k none fuel =
      some (B, .ok (onLines (turns ref dev A) (turningPositions m a b d.loOpen d.hiOpen (turns ref dev A)))) ∧
      ∀ x : ℚ, (B.query (.fin x)).map Prod.snd = (A.query (.fin x)).map Prod.snd := by
  obtain ⟨B, p1, r1, b1, b2, b3, b4⟩ := scans_settle hd hm h hr
  have hT : turns ref dev A = turns ref dev B := by rw [turns, turns, b1]
  refine ⟨B, ?_, same_answers hd hm h b3.track b1⟩
  unfold samplePoints
  rw [h.step, max_eq_right hk, b4]
  obtain ⟨r, qs, w1, w2, w3, w4, w5⟩ := walkLoop_spec hd hm b3 (by rw [b1]; exact hh) fuel a
    (lt_of_le_of_lt (List.length_filter_le _ _) (by rw [b1]; exact hf))
  rw [hT] at hne ⊢
  obtain ⟨l, l1, l2⟩ := closeWalk_spec hd hm b3 d hr.le w3 w4 w5 hne
  unfold curveSample
  rw [Pts.stepBin, if_neg hm.ne', first_settled hd hm b3 d hr.le (by rw [b1]; exact hr.inside h.src le_rfl hr.le)]
  simp only [hm, if_true, w1, w2, l1, Option.map_some, Except.map, l2]

/-- **C144** Sampling extremas gives, of the beginning of the domain, the extremas from a step after it on, and the end of the
domain, those where there is a value; the answers afterwards are what they were.  (Partial: points are only added at the end, at
distances of at least the step; none is at an odd multiple of half the step; a domain that is only open at its beginning has an
extremum a step after it.) -/
theorem C144_walk_partial (hm : 0 < m) (h : Scanned ref dev m A) {domain : Option Iv} {d : Iv} {a b : ℚ} (hr : Ranges A domain d a b)
    {k : ℚ} (hk : k ≤ m) (hh : ∀ p ∈ A.src.points, p.1 ≤ b → NotHalfway m p.1) {fuel : ℕ} (hf : A.src.points.length < fuel) :
    ∃ rs es, Excursions (deviating ref |dev| A.src.points) rs ∧ List.Forall₂ IsPeak rs.dropLast es ∧
      (d.loOpen = false ∨ d.hiOpen = true ∨ (∃ e ∈ es, a + m ≤ e.1 ∧ e.1 ≤ b) →
        ∃ B, A.samplePoints domain k none fuel =
          some (B, .ok (onLines es (turningPositions m a b d.loOpen d.hiOpen es))) ∧
        ∀ x : ℚ, (B.query (.fin x)).map Prod.snd = (A.query (.fin x)).map Prod.snd) := by
  obtain ⟨pre, rest, ht⟩ := scanned_track hm h
  obtain ⟨rs, h1, h2⟩ := C60_found (abs_nonneg dev) ht.fine
  exact ⟨rs, _, h1, h2, fun hne => walk_track (abs_nonneg dev) hm ht hr hk hh hf hne⟩

/-- **C144** On the whole domain precisely the extremas are given: one for each excursion of the points but the last. -/
theorem C144_all_partial (hm : 0 < m) (h : Scanned ref dev m A) {k : ℚ} (hk : k ≤ m) (hh : ∀ p ∈ A.src.points, NotHalfway m p.1)
    {fuel : ℕ} (hf : A.src.points.length < fuel) :
    ∃ rs es, Excursions (deviating ref |dev| A.src.points) rs ∧ List.Forall₂ IsPeak rs.dropLast es ∧
      ∃ B, A.samplePoints none k none fuel = some (B, .ok (defined es)) ∧
        ∀ x : ℚ, (B.query (.fin x)).map Prod.snd = (A.query (.fin x)).map Prod.snd := by
  obtain ⟨pre, rest, ht⟩ := scanned_track hm h
  obtain ⟨rs, h1, h2⟩ := C60_found (abs_nonneg dev) ht.fine
  refine ⟨rs, _, h1, h2, ?_⟩
  obtain ⟨hsort, hpts⟩ := turns_points (abs_nonneg dev) ht
  cases hp : A.src.points with
  | nil =>
    have hE : A.src.domVal.isEmpty = true := by rw [ht.src.wf.domVal, hp]; rfl
    refine ⟨A, ?_, fun _ => rfl⟩
    unfold samplePoints scanSample common
    rw [if_pos hE]
    rfl
  | cons p ps =>
    have hdom : A.src.domVal = Iv.closed p.1 ((p :: ps).getLast (by simp)).1 := by
      rw [ht.src.wf.domVal, hp]; rfl
    have hr : Ranges A none A.src.domVal p.1 ((p :: ps).getLast (by simp)).1 := by
      refine ⟨rfl, ?_, by rw [hdom]; rfl, by rw [hdom]; rfl⟩
      rw [ht.src.wf.domVal]; exact Pts.getDomain_not_isEmpty ht.src.wf.asc (by rw [hp]; simp)
    obtain ⟨B, b1, b2⟩ := walk_track (abs_nonneg dev) hm ht hr hk (fun q hq _ => hh q hq) hf
      (Or.inl (by rw [hdom]; rfl))
    refine ⟨B, ?_, b2⟩
    have hturn : (foundIn ref |dev| (p :: ps)).1 = turns ref |dev| A := by rw [turns, hp]
    rw [b1, hturn]
    congr 3
    have ho1 : A.src.domVal.loOpen = false := by rw [hdom]; rfl
    have ho2 : A.src.domVal.hiOpen = false := by rw [hdom]; rfl
    rw [ho1, ho2]
    have hasc := ht.src.wf.asc
    have hlo : ∀ q ∈ A.src.points, p.1 ≤ q.1 := by
      intro q hq
      rw [hp] at hq hasc
      rcases List.mem_cons.1 hq with rfl | hq
      · exact le_rfl
      · exact ((List.pairwise_cons.1 hasc).1 q hq).le
    have hhi : ∀ q ∈ A.src.points, q.1 ≤ ((p :: ps).getLast (by simp)).1 := by
      intro q hq
      rw [hp] at hq hasc
      exact Accum.le_getLast hasc (List.getLast?_eq_some_getLast (by simp)) hq
    have hpm : p ∈ A.src.points := by rw [hp]; simp
    set es := turns ref |dev| A with hes
    set b := ((p :: ps).getLast (by simp)).1 with hb
    have hon : ∀ l l', onLines es (l ++ l') = onLines es l ++ onLines es l' := by
      intro l l'
      simp [onLines, withValues]
    have hE : onLines es ((turnsIn es (p.1 + m) b).map Prod.fst) = defined (turnsIn es (p.1 + m) b) := by
      have : withValues .linear (defined es) ((turnsIn es (p.1 + m) b).map Prod.fst) = defined (turnsIn es (p.1 + m) b) := by
        rw [withValues, List.map_map]
        refine List.map_congr_left fun e he => ?_
        simp only [Function.comp_apply]
        rw [knot_value hsort (List.mem_filter.1 he).1]
      rw [onLines, this, List.filter_eq_self]
      intro q hq
      obtain ⟨e, _, rfl⟩ := List.mem_map.1 hq
      rfl
    -- the beginning and the extremas after it are all extremas
    have hfront : onLines es ([p.1] ++ (turnsIn es (p.1 + m) b).map Prod.fst) = defined es := by
      rw [hon, hE]
      have hrest : ∀ f ∈ es, p.1 < f.1 → p.1 + m ≤ f.1 := fun f hf hlt => gapped_pair ht.gapped hm hpm (hpts f hf) hlt
      by_cases hpe : ∃ e ∈ es, e.1 = p.1
      · obtain ⟨e, he, hep⟩ := hpe
        have e1 : turnsIn es p.1 b = es := by
          rw [turnsIn, List.filter_eq_self]
          intro f hf
          simpa using ⟨hlo _ (hpts f hf), hhi _ (hpts f hf)⟩
        have e2 := turnsIn_cons (m := m) (x := p.1) (b := b) hsort he hep.ge (hhi _ (hpts e he))
          (fun f hf _ => by rw [hep]; exact hlo _ (hpts f hf)) hm (fun f hf hlt => by
            rw [hep] at hlt ⊢
            exact hrest f hf hlt)
        rw [e1, hep] at e2
        have e3 : onLines es [p.1] = [(p.1, some e.2)] := by
          rw [onLines, withValues, List.map_singleton, ← hep, knot_value hsort he]
          rfl
        conv_rhs => rw [e2]
        rw [e3, ← hep]
        rfl
      · have hlt : ∀ f ∈ es, p.1 < f.1 := fun f hf =>
          lt_of_le_of_ne (hlo _ (hpts f hf)) fun hc => hpe ⟨f, hf, hc.symm⟩
        have e1 : turnsIn es (p.1 + m) b = es := by
          rw [turnsIn, List.filter_eq_self]
          intro f hf
          simpa using ⟨hrest f hf (hlt f hf), hhi _ (hpts f hf)⟩
        have e2 : onLines es [p.1] = [] := by
          rw [onLines, withValues, List.map_singleton, Pts.valueAt_before]
          · rfl
          · intro q hq
            obtain ⟨e, he, rfl⟩ := List.mem_map.1 hq
            exact hlt e he
        rw [e1, e2]
        rfl
    rw [turningPositions, withEnd]
    by_cases hc : (false : Bool) = true ∨
        ((if (false : Bool) = true then [] else [p.1]) ++ (turnsIn es (p.1 + m) b).map Prod.fst).getLast? = some b
    · rw [if_pos hc]
      exact hfront
    · rw [if_neg hc, hon (_ ++ _) [b]]
      have e4 : onLines es [b] = [] := by
        have hlt : ∀ f ∈ es, f.1 < b := by
          intro f hf
          refine lt_of_le_of_ne (hhi _ (hpts f hf)) ?_
          intro hfb
          apply hc
          right
          have hm1 : (f.1, some f.2) ∈ onLines es ([p.1] ++ (turnsIn es (p.1 + m) b).map Prod.fst) := by
            rw [hfront]; exact List.mem_map.2 ⟨f, hf, rfl⟩
          obtain ⟨y, hy, hy2⟩ := List.mem_map.1 (List.mem_filter.1 hm1).1
          have hyb : y = b := by rw [← hfb]; exact (Prod.mk.inj hy2).1
          rw [hyb] at hy
          have hpw : ([p.1] ++ (turnsIn es (p.1 + m) b).map Prod.fst).Pairwise (· < ·) := by
            rw [List.singleton_append, List.pairwise_cons]
            constructor
            · intro z hz
              obtain ⟨e, he, rfl⟩ := List.mem_map.1 hz
              have := (List.mem_filter.1 he).2
              simp only [decide_eq_true_eq] at this
              linarith [this.1]
            · rw [List.pairwise_map]
              exact hsort.sublist List.filter_sublist
          have hle : ∀ z ∈ [p.1] ++ (turnsIn es (p.1 + m) b).map Prod.fst, z ≤ b := by
            intro z hz
            rcases List.mem_append.1 hz with hz | hz
            · simp only [List.mem_singleton] at hz
              rw [hz]; exact hhi p hpm
            · obtain ⟨e, he, rfl⟩ := List.mem_map.1 hz
              exact hhi _ (hpts e (List.mem_filter.1 he).1)
          have hnl : [p.1] ++ (turnsIn es (p.1 + m) b).map Prod.fst ≠ [] := by simp
          change ([p.1] ++ (turnsIn es (p.1 + m) b).map Prod.fst).getLast? = some b
          rw [List.getLast?_eq_some_getLast hnl]
          congr 1
          refine le_antisymm (hle _ (List.getLast_mem hnl)) ?_
          rw [← List.dropLast_append_getLast hnl] at hy hpw
          rcases List.mem_append.1 hy with h3 | h3
          · exact ((List.pairwise_append.1 hpw).2.2 _ h3 _ (by simp)).le
          · simp only [List.mem_singleton] at h3
            exact h3.le
        rw [onLines, withValues, List.map_singleton, Pts.valueAt_after]
        · rfl
        · intro q hq
          obtain ⟨e, he, rfl⟩ := List.mem_map.1 hq
          exact hlt e he
      rw [e4, List.append_nil]
      exact hfront

/-- **C144** With a step: the grid from the beginning of the domain, where there are values. -/
theorem C144_grid_partial (hm : 0 < m) (h : Scanned ref dev m A) {domain : Option Iv} {d : Iv} {a b : ℚ} (hr : Ranges A domain d a b)
    (k : ℚ) {st : ℚ} (hst : 0 < st) {fuel : ℕ} (hf : ⌊(b - a) / st⌋₊ < fuel) :
    ∃ rs es, Excursions (deviating ref |dev| A.src.points) rs ∧ List.Forall₂ IsPeak rs.dropLast es ∧
      ∃ B, A.samplePoints domain k (some st) fuel = some (B, .ok (onLines es (gridPositions st a b d.loOpen))) ∧
        ∀ x : ℚ, (B.query (.fin x)).map Prod.snd = (A.query (.fin x)).map Prod.snd := by
  obtain ⟨pre, rest, ht⟩ := scanned_track hm h
  obtain ⟨rs, h1, h2⟩ := C60_found (abs_nonneg dev) ht.fine
  refine ⟨rs, _, h1, h2, ?_⟩
  obtain ⟨B, p1, r1, b1, b2, b3, b4⟩ := scans_settle (abs_nonneg dev) hm ht hr
  refine ⟨B, ?_, same_answers (abs_nonneg dev) hm ht b3.track b1⟩
  unfold samplePoints
  rw [b4]
  have hM : 0 < max k A.minStep := lt_of_lt_of_le hm (by rw [ht.step]; exact le_max_right _ _)
  have hq : 0 ≤ (b - a) / st := div_nonneg (by linarith [hr.le]) hst.le
  have hle : (⌊(b - a) / st⌋₊ : ℚ) * st ≤ b - a := by
    have := Nat.floor_le hq
    rwa [le_div_iff₀ hst] at this
  have hlt : b - a < (⌊(b - a) / st⌋₊ + 1 : ℚ) * st := by
    have := Nat.lt_floor_add_one ((b - a) / st)
    rwa [div_lt_iff₀ hst] at this
  unfold curveSample
  rw [Pts.stepBin, if_neg hM.ne',
    first_settled (abs_nonneg dev) hm b3 d hr.le (by rw [b1]; exact hr.inside ht.src le_rfl hr.le)]
  simp only
  rw [gridLoop_spec (abs_nonneg dev) hm b3 hst _ (a + st) fuel hf (fun y hy hyb => by
      rw [b1]; exact hr.inside ht.src (by linarith) hyb) (fun k hk => by
    have : (k + 1 : ℚ) ≤ ⌊(b - a) / st⌋₊ := by exact_mod_cast hk
    have := mul_le_mul_of_nonneg_right this hst.le
    linarith) (by linarith)]
  have hT : turns ref |dev| B = (foundIn ref |dev| A.src.points).1 := by rw [turns, b1]
  simp only [Option.map_some, Except.map, hT]
  rw [onLines, grid_list]
  simp only [withValues, List.map_append]

/-! ## Examples -/

theorem wave_ranges (a b : ℚ) (h0 : 0 ≤ a) (hab : a < b) (h3 : b ≤ 3) (lo hi : Bool) :
    Ranges (Extr.new (loose wavePts) ten 0 1) (some ⟨.fin a, .fin b, lo, hi⟩) ⟨.fin a, .fin b, lo, hi⟩ a b := by
  have hH : Honest (loose wavePts) :=
    loose_honest (by norm_num [Ascending, wavePts]) ⟨1, by norm_num [wavePts]⟩ (by decide +kernel)
  have he : (⟨.fin a, .fin b, lo, hi⟩ : Iv).isEmpty = false := by
    simp [Iv.isEmpty, hab, not_lt.2 hab.le, hab.ne]
  have := between_some (loose wavePts) hH (p := (0, some 8)) (ps := [(1, some 12), (2, some 8), (3, some 12)])
    (by decide +kernel) he rfl rfl h0 (by simpa using h3)
  exact ⟨this.dom, he, rfl, rfl⟩

/-- Three of the four points are extremas. -/
example : Scanned ten 0 1 (Extr.new (loose wavePts) ten 0 1) ∧
    ((Extr.new (loose wavePts) ten 0 1).samplePoints none 1 none 5).map Prod.snd =
      some (.ok [(0, some 8), (1, some 12), (2, some 8)]) := ⟨wave_scanned, by decide +kernel⟩
/-- No value from the last of them on. -/
example : Ranges (Extr.new (loose wavePts) ten 0 1) (some ⟨.fin (1/2), .fin 3, true, false⟩) ⟨.fin (1/2), .fin 3, true, false⟩ (1/2) 3 ∧
    ((Extr.new (loose wavePts) ten 0 1).samplePoints (some ⟨.fin (1/2), .fin 3, true, false⟩) 1 (some (1/2)) 9).map Prod.snd =
      some (.ok [(1, some 12), (3/2, some 10), (2, some 8)]) :=
  ⟨wave_ranges _ _ (by norm_num) (by norm_num) (by norm_num) _ _, by decide +kernel⟩

/-- **C144** does not hold for every extremum in the domain: one less than a step after the beginning is left out, although it is in
the domain. -/
theorem C144_negation : Scanned ten 0 1 (Extr.new (loose wavePts) ten 0 1) ∧
    Ranges (Extr.new (loose wavePts) ten 0 1) (some (Iv.closed (1/4) (7/4))) (Iv.closed (1/4) (7/4)) (1/4) (7/4) ∧
    ((Extr.new (loose wavePts) ten 0 1).samplePoints (some (Iv.closed (1/4) (7/4))) 1 none 5).map Prod.snd =
      some (.ok [(1/4, some 9), (7/4, some 9)]) ∧
    ((Extr.new (loose wavePts) ten 0 1).query (.fin 1)).map Prod.snd = some (.ok (some 12)) ∧
    ((Extr.new (loose wavePts) ten 0 1).samplePoints (some ⟨.fin (1/4), .fin (3/4), true, false⟩) 1 none 5).map Prod.snd =
      some (.error .index) :=
  ⟨wave_scanned, wave_ranges _ _ (by norm_num) (by norm_num) (by norm_num) _ _, by decide +kernel, by decide +kernel,
    by decide +kernel⟩

end Props
end Curvepy
