import Verif.Spec.PastHistory
import Verif.Props.MetHistory
import Verif.Props.ExtremasScan

/-!
# Property C141: averages with a period and windows over points at any distances, after any history
-/

namespace Curvepy
namespace Props
open Spec Pts Accum

variable {P : List (Pt ℚ) → Prop} {t : Tfm} {h : PastRule} {m : ℚ} {i : Interp} {u : Bool} {A : Accum}

theorem through_split {pre rest : List (Pt ℚ)} {p : Pt ℚ} (ha : Ascending (pre ++ p :: rest)) :
    through (pre ++ p :: rest) p.1 = pre ++ [p] := by
  obtain ⟨_, h2, h3⟩ := List.pairwise_append.1 ha
  unfold through
  rw [List.filter_append, List.filter_cons_of_pos (by simp)]
  congr 1
  · rw [List.filter_eq_self]
    intro q hq
    simpa using (h3 q hq p (by simp)).le
  · congr 1
    rw [List.filter_eq_nil_iff]
    intro q hq
    have := (List.pairwise_cons.1 h2).1 q hq
    simpa using this

theorem through_same {a b : List (Pt ℚ)} (ha : Ascending a) (hb : Ascending b) {x : ℚ}
    (hs : ∀ p : Pt ℚ, p.1 ≤ x → (p ∈ a ↔ p ∈ b)) : through a x = through b x := by
  refine ascending_ext (ha.filter _) (hb.filter _) fun p => ?_
  simp only [through, List.mem_filter, decide_eq_true_eq]
  constructor
  · rintro ⟨h1, h2⟩; exact ⟨(hs p h2).1 h1, h2⟩
  · rintro ⟨h1, h2⟩; exact ⟨(hs p h2).2 h1, h2⟩

theorem runRule_past (h : PastRule) {a b : List (Pt ℚ)} : ∀ (todo seen out : List (Pt ℚ)),
    (∀ q ∈ todo, through a q.1 = through b q.1) →
    runRule (pastRule h a) seen out todo = runRule (pastRule h b) seen out todo
  | [], _, _, _ => rfl
  | p :: ps, seen, out, hs => by
    have h1 : pastRule h a (seen ++ [p]) out = pastRule h b (seen ++ [p]) out := by
      simp [pastRule, hs p (by simp)]
    unfold runRule
    rw [h1]
    cases pastRule h b (seen ++ [p]) out with
    | error e => rfl
    | ok v => exact runRule_past h ps _ _ fun q hq => hs q (by simp [hq])

theorem followsPast_in (hf : FollowsPast P m t h) {pts : List (Pt ℚ)} (hP : P pts) :
    FollowsIn pts m t (pastRule h pts) := by
  intro src acc seen rest p hp h1 h2 h3 h4
  subst hp
  rw [hf src acc seen rest p h1 h2 hP h3 h4]
  simp [pastRule]

theorem Roamed.treading (hf : FollowsPast P m t h) (hm : 0 < m) (hA : Roamed P t m i u A) :
    P A.src.points ∧ ∃ seen todo, Treading (pastRule h A.src.points) m i u A seen todo := by
  induction hA with
  | new hs hfit hP => exact ⟨hP, _, _, Treading.new hs hfit⟩
  | query _ ho ih =>
    obtain ⟨hP, _, _, ih⟩ := ih
    obtain ⟨o', h1, h0, _, h2⟩ := ih.query (followsPast_in hf hP) hm _
    rw [ho] at h1
    cases h1
    rw [h0]
    exact ⟨hP, h2⟩
  | @edit A op r _ hl he ht hfit hP' ih =>
    obtain ⟨hP, _, _, ih⟩ := ih
    obtain ⟨_, hsrc, s, td, k, hs⟩ := ih.edit hl _ he ht hfit
    refine ⟨by rw [hsrc]; exact hP', s, td, ?_⟩
    refine { k with run := ?_ }
    rw [hsrc, ← k.run]
    refine runRule_past h _ _ _ fun q hq => ?_
    have hw := k.src.wf.asc
    rw [hsrc] at hw
    exact through_same hw ih.src.wf.asc (hs q hq)
  | read _ ih =>
    obtain ⟨hP, _, _, ih⟩ := ih
    rw [touch_points]
    exact ⟨hP, _, _, ih.touch⟩
  | readSource _ ih =>
    obtain ⟨hP, _, _, ih⟩ := ih
    exact ⟨hP, _, _, ih.touchSrc⟩

/-- C141: what an accumulator answers, after any history of queries and edits, is the fold over the points that are met
now in its source, with a view of all points so far. -/
theorem C141_fold_partial (hf : FollowsPast P m t h) (hm : 0 < m) (hA : Roamed P t m i u A) (x : Ext) :
    ∃ o, A.query t x = some o ∧ o.res = walkedAt (pastRule h A.src.points) i m A.src.points x ∧
      o.st.src.points = A.src.points := by
  obtain ⟨hP, _, _, hs⟩ := Roamed.treading hf hm hA
  obtain ⟨o, h1, h2, h3, _⟩ := hs.query (followsPast_in hf hP) hm x
  exact ⟨o, h1, h3, h2⟩

/-- C141: two accumulators over sources with the same points answer the same. -/
theorem C141_same_partial (hf : FollowsPast P m t h) (hm : 0 < m) (hA : Roamed P t m i u A) {B : Accum}
    (hB : Roamed P t m i u B) (hp : A.src.points = B.src.points) (x : Ext) :
    (A.query t x).map Out.res = (B.query t x).map Out.res := by
  obtain ⟨a, h1, h2, _⟩ := C141_fold_partial hf hm hA x
  obtain ⟨b, h3, h4, _⟩ := C141_fold_partial hf hm hB x
  rw [h1, h3, Option.map_some, Option.map_some, h2, h4, hp]

/-- C141: an edit of the source never makes an accumulator raise. -/
theorem C141_edit_partial (hf : FollowsPast P m t h) (hm : 0 < m) (hA : Roamed P t m i u A) {op : Op ℚ}
    (hl : op.Legal) (r : Reads) (he : lateError (op.run A.src r).err = false)
    (ht : Truthful (op.run A.src r).st) (hfit : Paced m u (op.run A.src r).st.points) :
    (A.edit op r).2 = none ∧ (A.edit op r).1.src = (op.run A.src r).st := by
  obtain ⟨_, _, _, hs⟩ := Roamed.treading hf hm hA
  exact ⟨(hs.edit hl r he ht hfit).1, (hs.edit hl r he ht hfit).2.1⟩

/-! ### The rules -/

theorem metBack_head (m a : ℚ) (l : List (Pt ℚ)) : (metBack m a l).head? = l.find? fun p => decide (p.1 + m ≤ a) := by
  induction l with
  | nil => rfl
  | cons p ps ih =>
    unfold metBack
    by_cases hp : p.1 + m ≤ a
    · simp [hp]
    · simp [hp, ih]

/-- A step back from a stored point goes to the last one far enough before. -/
theorem back_spec {s : Pts ℚ} (hs : Honest s) (hm : 0 < m) {pre rest : List (Pt ℚ)} {p : Pt ℚ}
    (hp : s.points = pre ++ p :: rest) :
    (metBack m p.1 pre.reverse = [] ∧ s.xPrevious (.fin p.1) (some m) = .ok none) ∨
    ∃ pre' q mid, pre = pre' ++ q :: mid ∧ metBack m p.1 pre.reverse = q :: metBack m q.1 pre'.reverse ∧
      s.xPrevious (.fin p.1) (some m) = .ok (some (.fin q.1)) ∧ q.1 + m ≤ p.1 := by
  have hasc := hs.wf.asc
  rw [hp] at hasc
  obtain ⟨ha1, ha2, ha3⟩ := List.pairwise_append.1 hasc
  have hrest : ∀ q ∈ p :: rest, p.1 - m < q.1 := by
    intro q hq
    rcases List.mem_cons.1 hq with rfl | hq
    · linarith
    · have := (List.pairwise_cons.1 ha2).1 q hq; linarith
  have key : ∀ pre : List (Pt ℚ), Ascending pre → metBack m p.1 pre.reverse = [] ∧ (∀ q ∈ pre, p.1 < q.1 + m) ∨
      ∃ pre' q mid, pre = pre' ++ q :: mid ∧ metBack m p.1 pre.reverse = q :: metBack m q.1 pre'.reverse ∧
        q.1 + m ≤ p.1 ∧ ∀ r ∈ mid, p.1 < r.1 + m := by
    intro pre
    induction pre using List.reverseRecOn with
    | nil => intro _; exact Or.inl ⟨rfl, by simp⟩
    | append_singleton l q ih =>
      intro hl
      rw [List.reverse_append, List.reverse_singleton, List.singleton_append,
        show metBack m p.1 (q :: l.reverse) = if q.1 + m ≤ p.1 then q :: metBack m q.1 l.reverse else metBack m p.1 l.reverse
          from rfl]
      by_cases hq : q.1 + m ≤ p.1
      · right
        exact ⟨l, q, [], by simp, by rw [if_pos hq], hq, by simp⟩
      · rw [if_neg hq]
        rcases ih (List.pairwise_append.1 hl).1 with ⟨h1, h2⟩ | ⟨a, b, c, h1, h2, h3, h4⟩
        · left
          refine ⟨h1, ?_⟩
          intro r hr
          rcases List.mem_append.1 hr with hr | hr
          · exact h2 r hr
          · obtain rfl := List.mem_singleton.1 hr
            exact not_le.1 hq
        · right
          refine ⟨a, b, c ++ [q], by rw [h1]; simp, h2, h3, ?_⟩
          intro r hr
          rcases List.mem_append.1 hr with hr | hr
          · exact h4 r hr
          · obtain rfl := List.mem_singleton.1 hr
            exact not_le.1 hq
  rcases key pre ha1 with ⟨h1, h2⟩ | ⟨a, b, c, h1, h2, h3, h4⟩
  · left
    refine ⟨h1, ?_⟩
    rcases C07_x_previous hs p.1 m with ⟨z, _, ⟨r, hr, rfl, hle⟩, _⟩ | ⟨h, _⟩
    · exfalso
      rw [hp] at hr
      rcases List.mem_append.1 hr with hr | hr
      · have := h2 r hr; linarith
      · have := hrest r hr; linarith
    · exact h
  · right
    refine ⟨a, b, c, h1, h2, ?_, h3⟩
    have hb : b ∈ s.points := by rw [hp, h1]; simp
    rcases C07_x_previous hs p.1 m with ⟨z, hz, ⟨r, hr, rfl, hle⟩, hg⟩ | ⟨_, h5⟩
    · rw [hz]
      have h6 : b.1 ≤ r.1 := hg ⟨b, hb, rfl, by linarith⟩
      have h7 : r.1 ≤ b.1 := by
        rw [hp] at hr
        rcases List.mem_append.1 hr with hr | hr
        · rw [h1] at hr ha1
          obtain ⟨_, _, g3⟩ := List.pairwise_append.1 ha1
          rcases List.mem_append.1 hr with hr | hr
          · exact (g3 r hr b (by simp)).le
          · rcases List.mem_cons.1 hr with rfl | hr
            · exact le_rfl
            · have := h4 r hr; linarith
        · have := hrest r hr; linarith
      rw [le_antisymm h7 h6]
    · have := h5 b hb; linarith

/-- A point met splits the source. -/
theorem met_splits {pts seen rest : List (Pt ℚ)} {p : Pt ℚ} (h : met m pts = seen ++ p :: rest) :
    ∃ a b, pts = a ++ p :: b :=
  List.append_of_mem ((met_sublist m _).subset (by rw [h]; simp))

/-- C141: a moving average with a period. -/
theorem C141_ema (hm : 0 < m) {per : ℚ} (hp : per ≠ 0) (init : Option (ℚ → Option ℚ)) :
    FollowsPast P m (emaTfm none (some per) init m) (emaPast m per init) := by
  intro src acc seen rest p h1 _ _ hs hx
  obtain ⟨a, b, hab⟩ := met_splits hs
  have hth : through src.points p.1 = a ++ [p] := by
    have := h1.wf.asc
    rw [hab] at this ⊢
    exact through_split this
  simp only [emaPast, hth, List.reverse_append, List.reverse_singleton, List.singleton_append, emaTfm, emaStep]
  cases hy : p.2 with
  | none => rfl
  | some y =>
    cases he : lastOut acc.points with
    | none => cases init <;> rfl
    | some e =>
      obtain ⟨q, hq⟩ := lastOut_none hx he
      have hg := met_gapped m src.points
      rw [hs] at hg
      have hgap := gapped_pair hg hq
      rcases back_spec h1 hm hab with ⟨e1, _⟩ | ⟨a', r, mid, e1, e2, e3, e4⟩
      · exfalso
        have hqs : q ∈ src.points := (met_sublist m _).subset (by rw [hs]; simp [List.mem_of_getLast? hq])
        have hqa : q ∈ a := by
          have hasc := h1.wf.asc
          rw [hab] at hasc hqs
          rcases List.mem_append.1 hqs with hqs | hqs
          · exact hqs
          · exfalso
            have := (List.pairwise_append.1 hasc).2.1
            rcases List.mem_cons.1 hqs with rfl | hqs
            · linarith
            · have := (List.pairwise_cons.1 this).1 q hqs; linarith
        have h0 := metBack_head m p.1 a.reverse
        rw [e1] at h0
        have := List.find?_eq_none.1 h0.symm q (by simpa using hqa)
        simp only [decide_eq_true_eq] at this
        exact this hgap
      · rw [e3, e2]
        simp only [if_neg hp, List.head?_cons]
        rw [abs_div, abs_of_nonneg (by linarith : 0 ≤ p.1 - r.1)]

theorem backLoop_any {s : Pts ℚ} (hs : Honest s) (hm : 0 < m) (n : ℕ) :
    ∀ {pre rest : List (Pt ℚ)} {p : Pt ℚ}, s.points = pre ++ p :: rest →
    backLoop s m n (.fin p.1) = .ok ((((metBack m p.1 pre.reverse).take n).map Prod.snd).takeWhile Option.isSome) := by
  induction n with
  | zero => intro _ _ _ _; simp [backLoop]
  | succ n ih =>
    intro pre rest p hp
    unfold backLoop
    rcases back_spec hs hm hp with ⟨e1, e2⟩ | ⟨a, q, mid, e1, e2, e3, _⟩
    · rw [e2, e1]; rfl
    · have hs' : s.points = a ++ q :: (mid ++ p :: rest) := by rw [hp, e1]; simp
      have hq : s.y (.fin q.1) = .ok q.2 := C01_stored_value hs (by rw [hs']; simp)
      simp only [e3, e2, hq, ih hs', List.take_succ_cons, List.map_cons]
      cases hv : q.2 with
      | none => simp
      | some v => simp

/-- C141: a window of several points. -/
theorem C141_degree (hm : 0 < m) (f : List (Option ℚ) → Except Err (Option ℚ)) (n : ℕ) (per : Option ℚ) :
    FollowsPast P m (mapTfm f (some n) per m) (fewPast m n f) := by
  intro src acc seen rest p h1 _ _ hs _
  obtain ⟨a, b, hab⟩ := met_splits hs
  have hth : through src.points p.1 = a ++ [p] := by
    have := h1.wf.asc
    rw [hab] at this ⊢
    exact through_split this
  simp only [fewPast, hth, List.reverse_append, List.reverse_singleton, List.singleton_append, mapTfm, windowBefore]
  by_cases hn : n = 1
  · subst hn; simp
  · rw [if_neg hn, backLoop_any h1 hm (n - 1) hab]

theorem interval_loose {pts : List (Pt ℚ)} (h : Loose m pts) :
    (intervalOf pts).any (fun d => decide (d < m)) = false := by
  cases pts with
  | nil => rfl
  | cons p ps =>
    cases ps with
    | nil => rfl
    | cons q qs =>
      have := h p ((p :: q :: qs).getLast (by simp)) rfl (List.getLast?_eq_some_getLast _)
      rw [List.getLast_cons (by simp)] at this
      simp only [intervalOf, Option.any_some, decide_eq_false_iff_not, not_lt]
      have hpos : (0 : ℚ) < ((q :: qs).length : ℕ) := by
        rw [List.length_cons]; positivity
      rw [le_div_iff₀ hpos]
      simp only [List.length_cons, Nat.add_sub_cancel] at this ⊢
      linarith

/-- C141: a window of a period, as long as the gaps are not less than the step on average. -/
theorem C141_period (f : List (Option ℚ) → Except Err (Option ℚ)) (per : ℚ) :
    FollowsPast (Loose m) m (mapTfm f none (some per) m) (recentPast per f) := by
  intro src acc seen rest p h1 _ hP hs _
  obtain ⟨a, b, hab⟩ := met_splits hs
  have hasc := h1.wf.asc
  rw [hab] at hasc
  have hth : through src.points p.1 = a ++ [p] := by
    rw [hab]; exact through_split hasc
  have hi : src.interval = intervalOf src.points := h1.wf.intv
  obtain ⟨ha1, ha2, ha3⟩ := List.pairwise_append.1 hasc
  simp only [mapTfm, recentPast, hth, List.reverse_append, List.reverse_singleton, List.singleton_append]
  rw [window_plain h1 (by rw [hi]; exact interval_loose hP)]
  simp only
  congr 2
  rw [← List.map_reverse]
  congr 1
  rw [hab, List.filter_append]
  have hr : (p :: b).filter (fun q => (Iv.closedOpen (p.1 - per) p.1).contains (.fin q.1)) = [] := by
    rw [List.filter_eq_nil_iff]
    intro q hq
    have : p.1 ≤ q.1 := by
      rcases List.mem_cons.1 hq with rfl | hq
      · exact le_rfl
      · exact ((List.pairwise_cons.1 ha2).1 q hq).le
    rw [Iv.contains_iff]
    rintro ⟨-, h⟩
    rw [Iv.leHi_iff] at h
    simp only [Iv.closedOpen, Ext.fin_lt_fin] at h
    rcases h with h | ⟨-, h⟩
    · linarith
    · simp at h
  rw [hr, List.append_nil, ← List.filter_reverse]
  refine List.filter_congr fun q hq => ?_
  have hlt : q.1 < p.1 := ha3 q (List.mem_reverse.1 hq) p (by simp)
  rw [Bool.eq_iff_iff, Iv.contains_iff, Iv.geLo_iff, Iv.leHi_iff]
  simp only [Iv.closedOpen, Ext.fin_lt_fin, Ext.fin.injEq, and_true, Bool.true_eq_false, and_false,
    or_false, hlt, decide_eq_true_eq]
  exact le_iff_lt_or_eq.symm

/-! ### Values at points met -/

theorem runRule_memoryless {pts a : List (Pt ℚ)} (hh : ∀ past out out', h past out = h past out')
    (hok : ∀ q ∈ a, ∃ v, h (through pts q.1) [] = .ok v) :
    ∃ out, runRule (pastRule h pts) [] [] a = (out, none) ∧
      ∀ b p, a = b ++ [p] → h (through pts p.1) [] = .ok (lastOut out) := by
  induction a using List.reverseRecOn with
  | nil => exact ⟨[], rfl, by simp⟩
  | append_singleton a p ih =>
    obtain ⟨out, h1, _⟩ := ih fun q hq => hok q (by simp [hq])
    obtain ⟨v, hv⟩ := hok p (by simp)
    refine ⟨out ++ [(p.1, v)], runRule_snoc_ok h1 ?_, ?_⟩
    · simp only [pastRule, List.getLast?_append, List.getLast?_singleton, Option.some_or]
      rw [hh _ out []]; exact hv
    · intro b q hb
      obtain ⟨rfl, hb2⟩ := List.append_inj' hb rfl
      cases hb2
      rw [hv, lastOut_snoc]

/-- C141: if what is written does not depend on what was written before, it is written at each point met, as long as nothing
raises. -/
theorem C141_value_partial (hf : FollowsPast P m t h) (hm : 0 < m) (hA : Roamed P t m i u A)
    (hh : ∀ past out out', h past out = h past out')
    (hok : ∀ q ∈ met m A.src.points, ∃ v, h (through A.src.points q.1) [] = .ok v) {p : Pt ℚ}
    (hp : p ∈ met m A.src.points) :
    (A.query t (.fin p.1)).map Out.res = some (h (through A.src.points p.1) []) := by
  obtain ⟨_, _, _, hs⟩ := Roamed.treading hf hm hA
  obtain ⟨o, h1, h2, _⟩ := C141_fold_partial hf hm hA (.fin p.1)
  obtain ⟨k, hk⟩ := List.mem_iff_getElem?.1 hp
  obtain ⟨out, r1, r2⟩ := runRule_memoryless (pts := A.src.points) (a := (met m A.src.points).take (k + 1)) hh
    fun q hq => hok q (List.mem_of_mem_take hq)
  rw [h1, Option.map_some, h2, walkedAt_met hs.src.wf.asc hk, accumulatedAt_knot i (met_asc hs.src.wf.asc) hk r1,
    r2 _ p (take_succ_of_getElem? hk)]

/-- The window has values. -/
theorem walkBack_met {pts : List (Pt ℚ)} (hasc : Ascending pts) {p : Pt ℚ} (hp : p ∈ pts) :
    ∃ before : List (Pt ℚ), (through pts p.1).reverse = p :: before ∧ ∀ q, q ∈ before ↔ q ∈ pts ∧ q.1 < p.1 := by
  obtain ⟨a, b, rfl⟩ := List.append_of_mem hp
  refine ⟨a.reverse, by rw [through_split hasc]; simp, ?_⟩
  intro q
  obtain ⟨_, h2, h3⟩ := List.pairwise_append.1 hasc
  constructor
  · intro hq
    have hq : q ∈ a := by simpa using hq
    exact ⟨by simp [hq], h3 q hq p (by simp)⟩
  · rintro ⟨hq, hlt⟩
    rcases List.mem_append.1 hq with hq | hq
    · simpa using hq
    · exfalso
      rcases List.mem_cons.1 hq with rfl | hq
      · exact lt_irrefl _ hlt
      · have := (List.pairwise_cons.1 h2).1 q hq
        linarith

theorem metBack_sublist (m a : ℚ) (l : List (Pt ℚ)) : (metBack m a l).Sublist l := by
  induction l generalizing a with
  | nil => exact List.Sublist.refl _
  | cons p ps ih =>
    unfold metBack
    split_ifs
    · exact (ih _).cons_cons _
    · exact (ih _).cons _

/-- Values of points that all have one. -/
theorem somes {l : List (Pt ℚ)} (hl : ∀ q ∈ l, q.2 ≠ none) :
    ∃ vs : List ℚ, l.map Prod.snd = vs.map some ∧ ∀ v, v ∈ vs ↔ ∃ q ∈ l, q.2 = some v := by
  induction l with
  | nil => exact ⟨[], rfl, by simp⟩
  | cons p ps ih =>
    obtain ⟨vs, h1, h2⟩ := ih fun q hq => hl q (by simp [hq])
    cases hp : p.2 with
    | none => exact absurd hp (hl p (by simp))
    | some y =>
      refine ⟨y :: vs, by simp [hp, h1], ?_⟩
      intro v
      simp only [List.mem_cons, h2, exists_eq_or_imp, hp, Option.some.injEq]
      exact or_congr_left eq_comm

/-- What a window rule of several points applies its function to. -/
theorem fewPast_somes {pts : List (Pt ℚ)} (hasc : Ascending pts) (hv : ∀ q ∈ pts, q.2 ≠ none) {n : ℕ} (hn : 1 ≤ n)
    (f : List (Option ℚ) → Except Err (Option ℚ)) {p : Pt ℚ} (hp : p ∈ pts) :
    ∃ (a : ℚ) (vs : List ℚ), fewPast m n f (through pts p.1) [] = f ((a :: vs).map some) ∧
      ∀ v, v ∈ a :: vs ↔ ∃ q ∈ (walkBack m pts p.1).take n, q.2 = some v := by
  obtain ⟨before, h1, h2⟩ := walkBack_met hasc hp
  have hsub : ∀ q ∈ (metBack m p.1 before).take (n - 1), q.2 ≠ none := fun q hq =>
    hv q ((h2 q).1 ((metBack_sublist m _ _).subset (List.mem_of_mem_take hq))).1
  obtain ⟨vs, h3, h4⟩ := somes hsub
  cases hy : p.2 with
  | none => exact absurd hy (hv p hp)
  | some a =>
    refine ⟨a, vs, ?_, ?_⟩
    · simp only [fewPast, h1, hy, h3, takeWhile_somes, List.map_cons]
    · intro v
      obtain ⟨k, rfl⟩ : ∃ k, n = k + 1 := ⟨n - 1, by omega⟩
      simp only [walkBack, h1, List.take_succ_cons, List.mem_cons, h4, exists_eq_or_imp, hy, Option.some.injEq,
        Nat.add_sub_cancel]
      exact or_congr_left eq_comm

theorem recentPast_somes {pts : List (Pt ℚ)} (hasc : Ascending pts) (hv : ∀ q ∈ pts, q.2 ≠ none) {per : ℚ} (hper : 0 ≤ per)
    (f : List (Option ℚ) → Except Err (Option ℚ)) {p : Pt ℚ} (hp : p ∈ pts) :
    ∃ (a : ℚ) (vs : List ℚ), recentPast per f (through pts p.1) [] = f ((a :: vs).map some) ∧
      ∀ v, v ∈ a :: vs ↔ ∃ q ∈ pts, p.1 - per ≤ q.1 ∧ q.1 ≤ p.1 ∧ q.2 = some v := by
  obtain ⟨before, h1, h2⟩ := walkBack_met hasc hp
  have hsub : ∀ q ∈ before.filter (fun q => decide (p.1 - per ≤ q.1)), q.2 ≠ none := fun q hq =>
    hv q ((h2 q).1 (List.mem_filter.1 hq).1).1
  obtain ⟨vs, h3, h4⟩ := somes hsub
  cases hy : p.2 with
  | none => exact absurd hy (hv p hp)
  | some a =>
    refine ⟨a, vs, ?_, ?_⟩
    · simp only [recentPast, h1, hy, h3, List.map_cons]
    · intro v
      rw [List.mem_cons, h4]
      constructor
      · rintro (rfl | ⟨q, hq, rfl'⟩)
        · exact ⟨p, hp, by linarith, le_rfl, hy⟩
        · obtain ⟨hq1, hq2⟩ := List.mem_filter.1 hq
          obtain ⟨hq3, hq4⟩ := (h2 q).1 hq1
          exact ⟨q, hq3, by simpa using hq2, hq4.le, rfl'⟩
      · rintro ⟨q, hq1, hq2, hq3, hq4⟩
        rcases hq3.lt_or_eq with hlt | heq
        · exact Or.inr ⟨q, List.mem_filter.2 ⟨(h2 q).2 ⟨hq1, hlt⟩, by simpa using hq2⟩, hq4⟩
        · left
          have : q = p := by
            obtain ⟨a', b', rfl⟩ := List.append_of_mem hp
            obtain ⟨_, g2, g3⟩ := List.pairwise_append.1 hasc
            rcases List.mem_append.1 hq1 with hq1 | hq1
            · exact absurd heq (ne_of_lt (g3 q hq1 p (by simp)))
            · rcases List.mem_cons.1 hq1 with h | hq1
              · exact h
              · exact absurd heq (ne_of_gt ((List.pairwise_cons.1 g2).1 q hq1))
          rw [this, hy] at hq4
          exact (Option.some.inj hq4).symm

/-- C141: the trailing minimum over several points, at a point met, is the least of the values that someone meets who walks
back. -/
theorem C141_least_partial (hm : 0 < m) {n : ℕ} (hn : 1 ≤ n) (hA : Roamed P (mapTfm pyMin (some n) none m) m i u A)
    (hv : ∀ q ∈ A.src.points, q.2 ≠ none) {p : Pt ℚ} (hp : p ∈ met m A.src.points) :
    ∃ v, (A.query (mapTfm pyMin (some n) none m) (.fin p.1)).map Out.res = some (.ok (some v)) ∧
      IsLeast {y | ∃ q ∈ (walkBack m A.src.points p.1).take n, q.2 = some y} v := by
  have hf := C141_degree (P := P) hm pyMin n none
  obtain ⟨_, _, _, hs⟩ := Roamed.treading hf hm hA
  have hmem : ∀ q ∈ met m A.src.points, q ∈ A.src.points := fun q hq => (met_sublist m _).subset hq
  rw [C141_value_partial hf hm hA (fun _ _ _ => rfl) (fun q hq => by
    obtain ⟨a, vs, e, _⟩ := fewPast_somes (m := m) hs.src.wf.asc hv hn pyMin (hmem q hq)
    obtain ⟨v, h1, _⟩ := pyMin_somes a vs
    exact ⟨_, e.trans h1⟩) hp]
  obtain ⟨a, vs, e, hmm⟩ := fewPast_somes (m := m) hs.src.wf.asc hv hn pyMin (hmem p hp)
  obtain ⟨v, h1, h2⟩ := pyMin_somes a vs
  refine ⟨v, by rw [e, h1], ?_⟩
  have : {y | y ∈ a :: vs} = {y | ∃ q ∈ (walkBack m A.src.points p.1).take n, q.2 = some y} := Set.ext hmm
  rwa [this] at h2

/-- C141: the trailing maximum over several points. -/
theorem C141_greatest_partial (hm : 0 < m) {n : ℕ} (hn : 1 ≤ n) (hA : Roamed P (mapTfm pyMax (some n) none m) m i u A)
    (hv : ∀ q ∈ A.src.points, q.2 ≠ none) {p : Pt ℚ} (hp : p ∈ met m A.src.points) :
    ∃ v, (A.query (mapTfm pyMax (some n) none m) (.fin p.1)).map Out.res = some (.ok (some v)) ∧
      IsGreatest {y | ∃ q ∈ (walkBack m A.src.points p.1).take n, q.2 = some y} v := by
  have hf := C141_degree (P := P) hm pyMax n none
  obtain ⟨_, _, _, hs⟩ := Roamed.treading hf hm hA
  have hmem : ∀ q ∈ met m A.src.points, q ∈ A.src.points := fun q hq => (met_sublist m _).subset hq
  rw [C141_value_partial hf hm hA (fun _ _ _ => rfl) (fun q hq => by
    obtain ⟨a, vs, e, _⟩ := fewPast_somes (m := m) hs.src.wf.asc hv hn pyMax (hmem q hq)
    obtain ⟨v, h1, _⟩ := pyMax_somes a vs
    exact ⟨_, e.trans h1⟩) hp]
  obtain ⟨a, vs, e, hmm⟩ := fewPast_somes (m := m) hs.src.wf.asc hv hn pyMax (hmem p hp)
  obtain ⟨v, h1, h2⟩ := pyMax_somes a vs
  refine ⟨v, by rw [e, h1], ?_⟩
  have : {y | y ∈ a :: vs} = {y | ∃ q ∈ (walkBack m A.src.points p.1).take n, q.2 = some y} := Set.ext hmm
  rwa [this] at h2

/-- C141: the trailing minimum over a period, at a point met, is the least of the values at all points of the period. -/
theorem C141_least_period_partial (hm : 0 < m) {per : ℚ} (hper : 0 ≤ per)
    (hA : Roamed (Loose m) (mapTfm pyMin none (some per) m) m i u A)
    (hv : ∀ q ∈ A.src.points, q.2 ≠ none) {p : Pt ℚ} (hp : p ∈ met m A.src.points) :
    ∃ v, (A.query (mapTfm pyMin none (some per) m) (.fin p.1)).map Out.res = some (.ok (some v)) ∧
      IsLeast {y | ∃ q ∈ A.src.points, p.1 - per ≤ q.1 ∧ q.1 ≤ p.1 ∧ q.2 = some y} v := by
  have hf := C141_period (m := m) pyMin per
  obtain ⟨_, _, _, hs⟩ := Roamed.treading hf hm hA
  have hmem : ∀ q ∈ met m A.src.points, q ∈ A.src.points := fun q hq => (met_sublist m _).subset hq
  rw [C141_value_partial hf hm hA (fun _ _ _ => rfl) (fun q hq => by
    obtain ⟨a, vs, e, _⟩ := recentPast_somes hs.src.wf.asc hv hper pyMin (hmem q hq)
    obtain ⟨v, h1, _⟩ := pyMin_somes a vs
    exact ⟨_, e.trans h1⟩) hp]
  obtain ⟨a, vs, e, hmm⟩ := recentPast_somes hs.src.wf.asc hv hper pyMin (hmem p hp)
  obtain ⟨v, h1, h2⟩ := pyMin_somes a vs
  refine ⟨v, by rw [e, h1], ?_⟩
  have : {y | y ∈ a :: vs} = {y | ∃ q ∈ A.src.points, p.1 - per ≤ q.1 ∧ q.1 ≤ p.1 ∧ q.2 = some y} := Set.ext hmm
  rwa [this] at h2

/-- C141: the trailing maximum over a period. -/
theorem C141_greatest_period_partial (hm : 0 < m) {per : ℚ} (hper : 0 ≤ per)
    (hA : Roamed (Loose m) (mapTfm pyMax none (some per) m) m i u A)
    (hv : ∀ q ∈ A.src.points, q.2 ≠ none) {p : Pt ℚ} (hp : p ∈ met m A.src.points) :
    ∃ v, (A.query (mapTfm pyMax none (some per) m) (.fin p.1)).map Out.res = some (.ok (some v)) ∧
      IsGreatest {y | ∃ q ∈ A.src.points, p.1 - per ≤ q.1 ∧ q.1 ≤ p.1 ∧ q.2 = some y} v := by
  have hf := C141_period (m := m) pyMax per
  obtain ⟨_, _, _, hs⟩ := Roamed.treading hf hm hA
  have hmem : ∀ q ∈ met m A.src.points, q ∈ A.src.points := fun q hq => (met_sublist m _).subset hq
  rw [C141_value_partial hf hm hA (fun _ _ _ => rfl) (fun q hq => by
    obtain ⟨a, vs, e, _⟩ := recentPast_somes hs.src.wf.asc hv hper pyMax (hmem q hq)
    obtain ⟨v, h1, _⟩ := pyMax_somes a vs
    exact ⟨_, e.trans h1⟩) hp]
  obtain ⟨a, vs, e, hmm⟩ := recentPast_somes hs.src.wf.asc hv hper pyMax (hmem p hp)
  obtain ⟨v, h1, h2⟩ := pyMax_somes a vs
  refine ⟨v, by rw [e, h1], ?_⟩
  have : {y | y ∈ a :: vs} = {y | ∃ q ∈ A.src.points, p.1 - per ≤ q.1 ∧ q.1 ≤ p.1 ∧ q.2 = some y} := Set.ext hmm
  rwa [this] at h2

/-! ### Concrete cases -/

/-- The least of two points sees a point that the walk passes over, if the walk back meets it. -/
example :
    let t := mapTfm pyMin (some 3) none (1/2)
    let s := loose [(0, some 5), (1/10, some 1), (1, some 4), (2, some 8)]
    met (1/2) s.points = [(0, some 5), (1, some 4), (2, some 8)] ∧
    walkBack (1/2) s.points 2 = [(2, some 8), (1, some 4), (1/10, some 1)] ∧
    answerAfter t (Accum.new s (1/2) .linear true) [] (.fin 2) = some (.ok (some 1)) :=
  ⟨by decide +kernel, by decide +kernel, by decide +kernel⟩

/-- So does the least over a period. -/
example :
    let t := mapTfm pyMin none (some 1) (1/2)
    let s := loose [(0, some 5), (1, some 6), (11/10, some 1), (2, some 8), (3, some 7)]
    answerAfter t (Accum.new s (1/2) .linear true) [] (.fin 2) = some (.ok (some 1)) ∧
    met (1/2) s.points = [(0, some 5), (1, some 6), (2, some 8), (3, some 7)] :=
  ⟨by decide +kernel, by decide +kernel⟩

/-- Three points, and three more that bring the average gap below `1/2`. -/
def slowPts : List (Pt ℚ) := [(0, some 0), (1, some 4), (2, some 8)]
def burstPts : List (Pt ℚ) := [(21/10, some 8), (22/10, some 8), (23/10, some 8)]

/-- C141 does not hold for a window of a period if the gaps become less than the step on average: then the window is sampled
in another way, also at its beginning.  What was asked before the edit decides about the answer after it. -/
theorem C141_negation :
    let t := mapTfm pyMin none (some (3/2)) (1/2)
    let A := Accum.new (loose slowPts) (1/2) .linear true
    let op : Op ℚ := .appendList burstPts
    Roamed (Loose (1/2)) t (1/2) .linear true A ∧ op.Legal ∧ (op.run (loose slowPts) quiet).err = none ∧
    (op.run (loose slowPts) quiet).st.points = slowPts ++ burstPts ∧ met (1/2) (slowPts ++ burstPts) = slowPts ∧
    answerAfter t (A.edit op quiet).1 [] (.fin 2) = some (.ok (some 2)) ∧
    (queries t A [.fin 2]).bind (fun r => answerAfter t (r.1.edit op quiet).1 [] (.fin 2)) = some (.ok (some 4)) := by
  have he : EquallySpaced slowPts := ⟨1, by norm_num [slowPts]⟩
  have hh : Honest (loose slowPts) := loose_honest (by norm_num [Ascending, slowPts]) he (by decide +kernel)
  have hp : (loose slowPts).points = slowPts := by decide +kernel
  have hm : met (1/2) slowPts = slowPts := by decide +kernel
  refine ⟨.new hh ?_ ?_, ?_, by decide +kernel, by decide +kernel, by decide +kernel, by decide +kernel, by decide +kernel⟩
  · rw [hp]
    refine ⟨?_, fun _ => by rw [hm]; exact he⟩
    rw [hm]
    exact fun _ _ _ _ hp _ => EquallySpaced.prefix hp he
  · rw [hp]
    intro p q h1 h2
    simp only [slowPts, List.head?_cons, Option.some.injEq] at h1
    simp only [slowPts, List.getLast?_cons_cons, List.getLast?_singleton, Option.some.injEq] at h2
    subst h1 h2
    norm_num [slowPts]
  · norm_num [Op.Legal, Ascending, burstPts]

/-! ## Further examples -/

theorem slow_roamed (t : Tfm) : Roamed (fun _ => True) t (1 / 2) .linear true (Accum.new (loose slowPts) (1 / 2) .linear true) := by
  have he : EquallySpaced slowPts := ⟨1, by norm_num [slowPts]⟩
  have hp : (loose slowPts).points = slowPts := by decide +kernel
  have hm : met (1/2) slowPts = slowPts := by decide +kernel
  refine .new (loose_honest (by norm_num [Ascending, slowPts]) he (by decide +kernel)) ?_ trivial
  rw [hp]
  exact ⟨by rw [hm]; exact fun _ _ _ _ hp _ => EquallySpaced.prefix hp he, fun _ => by rw [hm]; exact he⟩

/-- C141: there is a least and a greatest of the last two values at the last point. -/
example : ∃ v, ((Accum.new (loose slowPts) (1 / 2) .linear true).query (mapTfm pyMin (some 2) none (1 / 2)) (.fin 2)).map Out.res =
    some (.ok (some v)) :=
  (C141_least_partial (by norm_num) (by norm_num) (slow_roamed _) (by decide +kernel) (p := (2, some 8)) (by decide +kernel)).imp
    fun _ h => h.1

example : answerAfter (mapTfm pyMin (some 2) none (1 / 2)) (Accum.new (loose slowPts) (1 / 2) .linear true) [] (.fin 2) = some (.ok (some 4)) ∧
    answerAfter (mapTfm pyMax (some 2) none (1 / 2)) (Accum.new (loose slowPts) (1 / 2) .linear true) [.fin 1] (.fin 2) =
      some (.ok (some 8)) ∧
    answerAfter (mapTfm pyMax none (some 1) (1 / 2)) (Accum.new (loose slowPts) (1 / 2) .linear true) [.fin 1] (.fin 1) =
      some (.ok (some 4)) := by
  refine ⟨?_, ?_, ?_⟩ <;> decide +kernel

/-- The average by a period meets every point here. -/
example : ∃ o, (Accum.new (loose slowPts) (1 / 2) .linear true).query (emaTfm none (some 2) none (1 / 2)) (.fin 2) = some o ∧
    o.st.src.points = slowPts := by
  obtain ⟨o, h1, _, h2⟩ := C141_fold_partial (C141_ema (by norm_num) (by norm_num : (2 : ℚ) ≠ 0) none) (by norm_num)
    (slow_roamed (emaTfm none (some 2) none (1 / 2))) (.fin 2)
  exact ⟨o, h1, h2.trans (by decide +kernel)⟩
/-! ## More instances -/

theorem slow_loose (t : Tfm) : Roamed (Loose (1/2)) t (1 / 2) .linear true (Accum.new (loose slowPts) (1 / 2) .linear true) := by
  have he : EquallySpaced slowPts := ⟨1, by norm_num [slowPts]⟩
  have hp : (loose slowPts).points = slowPts := by decide +kernel
  have hm : met (1/2) slowPts = slowPts := by decide +kernel
  refine .new (loose_honest (by norm_num [Ascending, slowPts]) he (by decide +kernel)) ?_ ?_
  · rw [hp]
    exact ⟨by rw [hm]; exact fun _ _ _ _ hp _ => EquallySpaced.prefix hp he, fun _ => by rw [hm]; exact he⟩
  · rw [hp]
    intro p q h1 h2
    simp [slowPts] at h1 h2
    subst h1 h2
    norm_num [slowPts]

example : ∃ v, ((Accum.new (loose slowPts) (1 / 2) .linear true).query (mapTfm pyMax (some 2) none (1 / 2)) (.fin 1)).map Out.res =
      some (.ok (some v)) ∧ IsGreatest {y | ∃ q ∈ (walkBack (1/2) slowPts 1).take 2, q.2 = some y} v :=
  C141_greatest_partial (by norm_num) (by norm_num) (slow_roamed _) (by decide +kernel) (p := (1, some 4)) (by decide +kernel)

example : ∃ v, ((Accum.new (loose slowPts) (1 / 2) .linear true).query (mapTfm pyMin none (some 1) (1 / 2)) (.fin 2)).map Out.res =
      some (.ok (some v)) ∧ IsLeast {y | ∃ q ∈ slowPts, (2 : ℚ) - 1 ≤ q.1 ∧ q.1 ≤ 2 ∧ q.2 = some y} v :=
  C141_least_period_partial (by norm_num) (by norm_num) (slow_loose _) (by decide +kernel) (p := (2, some 8)) (by decide +kernel)

example : ∃ v, ((Accum.new (loose slowPts) (1 / 2) .linear true).query (mapTfm pyMax none (some 1) (1 / 2)) (.fin 2)).map Out.res =
      some (.ok (some v)) ∧ IsGreatest {y | ∃ q ∈ slowPts, (2 : ℚ) - 1 ≤ q.1 ∧ q.1 ≤ 2 ∧ q.2 = some y} v :=
  C141_greatest_period_partial (by norm_num) (by norm_num) (slow_loose _) (by decide +kernel) (p := (2, some 8)) (by decide +kernel)

end Props
end Curvepy
