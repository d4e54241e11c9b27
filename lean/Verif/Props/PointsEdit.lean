import Verif.Props.PointsQuery

/-!
# Points: edits (C09-C16)
-/

namespace Curvepy
namespace Props
open Spec Pts
variable {V : Type}

/-! ## C09 -/

/-- C09: a successful `append_list` concatenates. -/
theorem C09_concat {s : Pts V} (b : s.Base) {ps : List (Pt V)} (hl : Ascending ps) (r : Reads)
    (he : (s.appendList ps r).err = none) : (s.appendList ps r).st.points = s.points ++ ps := by
  cases outcome_appendList b hl r (.appendList ps) (fun _ => rfl) with
  | idle hs hev hp _ =>
    have h1 := hp he
    simp only [Op.target] at h1
    rw [h1]
    rcases hs with hs | hs <;> rw [hs] <;> rfl
  | stuck iv e _ _ h => rw [h.err] at he; cases he
  | edited iv h => exact h.points

/-- C09: a batch that does not start after the last stored position is refused; the curve is
literally unchanged and nobody is notified.  (No hypothesis on the state.) -/
theorem C09_refuse {s : Pts V} {o p : Pt V} (ps : List (Pt V)) (r : Reads)
    (ho : s.points.getLast? = some o) (hle : p.1 ≤ o.1) :
    s.appendList (p :: ps) r = ⟨s, [], some .nonAscending⟩ := by
  cases hs : s.points with
  | nil => simp [hs] at ho
  | cons q qs =>
    refine appendList_nonAscending r hs ?_
    rw [hs, List.getLast?_eq_some_getLast (by simp)] at ho
    cases ho
    exact hle

/-- C09: appending an empty list is a no-op. -/
theorem C09_empty {s : Pts V} (b : s.Base) (r : Reads) :
    (s.appendList [] r).err = none ∧ (s.appendList [] r).ev = [] ∧
      (s.appendList [] r).st.points = s.points ∧
      (s.appendList [] r).st.domVal = s.domVal := by
  cases hs : s.points with
  | nil =>
    have h : s.appendList [] r = s.set [] none r := by
      unfold appendList
      split
      · rfl
      · rename_i h; rw [hs] at h; cases h
    rw [h]
    rcases set_none b (pts := []) List.Pairwise.nil r with ⟨_, h, _⟩ | ⟨_, h, _⟩
    · simp [setCheck] at h
    · refine ⟨h.err, ?_, h.points, ?_⟩
      · rcases h.ev with h' | h'
        · exact h'.2.1
        · have : (s.setIv []).isEmpty = true := by
            rw [setIv, b.domVal, hs]; rfl
          rw [this] at h'; cases h'.1
      · rw [h.base.domVal, h.points, b.domVal, hs]
  | cons o os =>
    have h : s.appendList [] r = ⟨s, [], none⟩ := by
      unfold appendList
      split
      · rename_i h; rw [hs] at h; cases h
      · rfl
    rw [h]
    exact ⟨rfl, rfl, hs, rfl⟩

example : ((even .linear).appendList [(6, some 0), (8, none)] ⟨true, false⟩).st.points =
    [(0, some 1), (2, some 5), (4, some 4), (6, some 0), (8, none)] := by
  rw [C09_concat (even_honest _).base (by norm_num [Ascending]) _ (by decide +kernel), even_points]
  rfl
example : ((even .linear).appendList [(3, some 0)] ⟨true, true⟩) =
    ⟨even .linear, [], some .nonAscending⟩ :=
  C09_refuse (o := (4, some 4)) (p := (3, some 0)) [] _ (by rw [even_points]; rfl) (by norm_num)

/-! ## C10 -/

/-- C10: a successful `replace` (with or without `or_append`) leaves an ascending list with the
point in it and every other knot untouched. -/
theorem C10_replace [Lerp V] {s : Pts V} (h : Honest s) (p : Pt V) (oa : Bool) (r : Reads)
    (he : (s.replace p oa r).err = none) :
    Ascending (s.replace p oa r).st.points ∧
    (∀ m, m ∈ (s.replace p oa r).st.points ↔ m = p ∨ (m ∈ s.points ∧ m.1 ≠ p.1)) ∧
    (s.replace p oa r).st.points = putPoint s.points p := by
  have hpts : (s.replace p oa r).st.points = putPoint s.points p := by
    cases outcome h.base h.wf (op := .replace p oa) trivial r with
    | idle hs hev hp _ =>
      have h1 := hp he
      simp only [Op.target] at h1
      simp only [Op.run] at hs
      rcases hs with hs | hs <;> rw [hs]
      · exact h1.symm
      · exact h1.symm
    | stuck iv e _ _ h => simp only [Op.run] at h; rw [h.err] at he; cases he
    | edited iv h => exact h.points
  rw [hpts]
  exact ⟨putPoint_asc h.base.asc p, mem_putPoint h.base.asc p, rfl⟩

/-- C10: when `replace` succeeds and when it raises. -/
theorem C10_when [Lerp V] {s : Pts V} (h : Honest s) (p : Pt V) (oa : Bool) (r : Reads) :
    (s.domVal.contains (.fin p.1) = false → oa = false →
      (s.replace p oa r).err = some .outOfBounds ∧ (s.replace p oa r).ev = [] ∧
      (s.replace p oa r).st.points = s.points) ∧
    (s.domVal.contains (.fin p.1) = true → (s.force = false ∨ ∃ q ∈ s.points, q.1 = p.1) →
      (s.replace p oa r).err = none) ∧
    (s.domVal.contains (.fin p.1) = true → s.force = true → (∀ q ∈ s.points, q.1 ≠ p.1) →
      (s.replace p oa r).err = some .betweenPoints ∧
      (s.replace p oa r).st.points = s.points) := by
  rw [h.base.domVal]
  refine ⟨fun h1 h2 => ?_, fun h1 h2 => ?_, fun h1 h2 h3 => ?_⟩
  · rw [replace_outside h.base p oa r h1, h2]
    exact ⟨rfl, rfl, rfl⟩
  · rcases replace_inside h.base h.wf p oa r h1 with ⟨h3, h4, _⟩ | ⟨_, h3, _⟩
    · rcases h2 with h2 | ⟨q, hq, he⟩
      · rw [h2] at h3; cases h3
      · exact absurd he (h4 q hq)
    · exact h3.err
  · rcases replace_inside h.base h.wf p oa r h1 with ⟨_, _, h4⟩ | ⟨h4, _⟩
    · exact ⟨h4.err, h4.points⟩
    · exact absurd ⟨h2, h3⟩ h4

/-- C10: the list grows by one exactly if the position was not a knot. -/
theorem C10_length [Lerp V] {s : Pts V} (h : Honest s) (p : Pt V) (oa : Bool) (r : Reads)
    (he : (s.replace p oa r).err = none) :
    ((∃ q ∈ s.points, q.1 = p.1) → (s.replace p oa r).st.points.length = s.points.length) ∧
    ((∀ q ∈ s.points, q.1 ≠ p.1) → (s.replace p oa r).st.points.length = s.points.length + 1) := by
  rw [(C10_replace h p oa r he).2.2]
  have key : ∀ l : List (Pt V), Ascending l →
      ((∃ q ∈ l, q.1 = p.1) → (putPoint l p).length = l.length) ∧
      ((∀ q ∈ l, q.1 ≠ p.1) → (putPoint l p).length = l.length + 1) := by
    intro l
    induction l with
    | nil => intro _; simp [putPoint]
    | cons a as ih =>
      intro ha
      have hgt := (List.pairwise_cons.1 ha).1
      obtain ⟨i1, i2⟩ := ih ha.tail
      unfold putPoint
      constructor
      · rintro ⟨q, hq, he⟩
        rcases List.mem_cons.1 hq with rfl | hq
        · simp [he]
        · have h1 := hgt q hq
          rw [he] at h1
          rw [if_neg (not_lt.2 h1.le), if_neg h1.ne', List.length_cons, i1 ⟨q, hq, he⟩]
          rfl
      · intro hq
        split
        · rfl
        · rw [if_neg (fun hc => hq a (by simp) hc.symm)]
          rw [List.length_cons, i2 (fun q hq' => hq q (by simp [hq']))]
          rfl
  exact key _ h.base.asc

example : ((demo .linear).replace (2, some 7) false ⟨false, true⟩).st.points =
    [(0, some 1), (1, some 3), (2, some 7), (3, none), (4, some 2)] := by
  rw [(C10_replace (demo_honest _) (2, some 7) false _ (by decide +kernel)).2.2, demo_points]
  decide +kernel
example : ((even .linear).replace (2, some 7) false ⟨false, true⟩).st.points =
    [(0, some 1), (2, some 7), (4, some 4)] := by
  rw [(C10_replace (even_honest _) (2, some 7) false _ (by decide +kernel)).2.2, even_points]
  decide +kernel
example : ((even .linear).replace (6, some 7) true ⟨false, true⟩).st.points =
    [(0, some 1), (2, some 5), (4, some 4), (6, some 7)] := by
  rw [(C10_replace (even_honest _) (6, some 7) true _ (by decide +kernel)).2.2, even_points]
  decide +kernel
example : ((even .linear).replace (3, some 7) false ⟨false, true⟩).err = some .betweenPoints :=
  ((C10_when (even_honest _) (3, some 7) false _).2.2 (by decide +kernel) (by decide +kernel)
    (by rw [even_points]; norm_num [evenPts])).1

/-! ## C11 -/

/-- C11: a successful `reset(domain)` leaves exactly the stored points outside the domain. -/
theorem C11_reset [Lerp V] {s : Pts V} (h : Honest s) (d : Iv) (r : Reads)
    (he : (s.reset (some d) r).err = none) :
    (s.reset (some d) r).st.points = s.points.filter fun p => !d.contains (.fin p.1) := by
  cases outcome h.base h.wf (op := .reset (some d)) trivial r with
  | idle hs hev hp _ =>
    have h1 := hp he
    simp only [Op.target, dropInside] at h1
    simp only [Op.run] at hs
    rw [h1]
    rcases hs with hs | hs <;> rw [hs] <;> rfl
  | stuck iv e _ _ h => simp only [Op.run] at h; rw [h.err] at he; cases he
  | edited iv h => exact h.points

/-- C11: `reset()` removes everything and never fails. -/
theorem C11_reset_all {s : Pts V} (b : s.Base) (r : Reads) :
    (s.reset none r).err = none ∧ (s.reset none r).st.points = [] := by
  by_cases hp : s.points.length = 0
  · have : s.reset none r = ⟨s, [], none⟩ := by simp only [reset, hp, if_true]
    rw [this]
    exact ⟨rfl, List.length_eq_zero_iff.1 hp⟩
  · have : s.reset none r = s.set [] none r := by simp only [reset, hp, if_false]
    rw [this]
    rcases set_none b (pts := []) List.Pairwise.nil r with ⟨_, h, _⟩ | ⟨_, h, _⟩
    · simp [setCheck] at h
    · exact ⟨h.err, h.points⟩

/-- C11: on a curve that is not forced to be uniform, `reset(domain)` always succeeds. -/
theorem C11_reset_succeeds [Lerp V] {s : Pts V} (h : Honest s) (hf : s.force = false) (d : Iv)
    (r : Reads) : (s.reset (some d) r).err = none := by
  rcases reset_some h.base h.wf d r with ⟨_, h2 | h2⟩ | ⟨iv, _, h1, _⟩ | ⟨iv, _, h1, _⟩
  · rw [h2]
  · rw [h2]
  · rw [hf] at h1; cases h1
  · exact h1.err

example : ((demo .linear).reset (some (Iv.openClosed 0 3)) ⟨true, true⟩).st.points =
    [(0, some 1), (4, some 2)] := by
  rw [C11_reset (demo_honest _) _ _ (C11_reset_succeeds (demo_honest _) (by decide +kernel) _ _),
    demo_points]
  decide +kernel

/-! ## C13, C12: the order and the spacing of the points over histories -/

/-- Edits that a user of a uniform curve is entitled to: single points, batches that go on in
equal steps from the last stored point, replacements, resets. -/
def Fair (old : List (Pt V)) : Op V → Prop
  | .set pts => EquallySpaced pts
  | .appendList pts => EquallySpaced (old.getLast?.toList ++ pts)
  | _ => True

/-- Histories of a curve created with `uniform=True` made of fair edits and reads. -/
inductive FairUniform : Pts V → Prop where
  | new {pts : List (Pt V)} {i : Interp} {s : Pts V} (h : Ascending pts) (he : EquallySpaced pts)
      (hs : Pts.new pts i true = .ok s) : FairUniform s
  | edit {s : Pts V} {op : Op V} {r : Reads} (hs : FairUniform s) (hl : op.Legal)
      (hf : Fair s.points op) (he : lateError (op.run s r).err = false) :
      FairUniform (op.run s r).st
  | read {s : Pts V} (hs : FairUniform s) : FairUniform s.touch

theorem appendList_equal {s : Pts V} (b : s.Base) (hes : EquallySpaced s.points)
    (hforce : s.force = true) {ps : List (Pt V)} (hl : Ascending ps)
    (hf : EquallySpaced (s.points.getLast?.toList ++ ps)) (r : Reads)
    (he : lateError (s.appendList ps r).err = false) :
    EquallySpaced (s.appendList ps r).st.points := by
  cases hs : s.points with
  | nil =>
    have h : s.appendList ps r = s.set ps none r := by
      unfold appendList
      split
      · rfl
      · rename_i h; rw [hs] at h; cases h
    rw [h] at he ⊢
    rcases set_none b hl r with ⟨_, _, h⟩ | ⟨_, h, _⟩
    · rw [h.err] at he; cases he
    · rw [h.points]
      simpa [hs] using hf
  | cons o os =>
    cases ps with
    | nil =>
      rw [(C09_empty b r).2.2.1]; exact hes
    | cons p ps =>
      by_cases hle : p.1 ≤ ((o :: os).getLast (by simp)).1
      · rw [appendList_nonAscending r hs hle]; exact hes
      · rcases appendList_cons b r hs hl (not_le.1 hle) with ⟨_, _, h⟩ | ⟨hc, h, _⟩
        · rw [h.err] at he; cases he
        · rw [h.points]
          have hne : s.points ≠ [] := by rw [hs]; simp
          refine EquallySpaced.append_check b.intv hes hne ?_ ?_
          · rw [List.getLast?_eq_some_getLast hne] at hf
            simpa using hf
          · by_contra hcc
            exact hc ⟨hforce, by simpa using hcc⟩

theorem FairUniform.inv [Lerp V] {s : Pts V} (h : FairUniform s) :
    Honest s ∧ EquallySpaced s.points ∧ s.force = true := by
  induction h with
  | new h he hs =>
    obtain ⟨b, hp, _, hf, _⟩ := new_ok h hs
    rw [hp]
    exact ⟨.new h hs (fun _ => by rw [hp]; exact he), he, hf⟩
  | @edit s op r _ hl hf he ih =>
    obtain ⟨hh, hes, hfo⟩ := ih
    have b := hh.base
    have w := hh.wf
    have hforce : (op.run s r).st.force = true := by
      cases outcome b w hl r with
      | idle hs _ _ _ => rcases hs with hs | hs <;> rw [hs] <;> exact hfo
      | stuck iv e he' _ h => rw [h.force]; exact hfo
      | edited iv h => rw [h.force]; exact hfo
    have heq : EquallySpaced (op.run s r).st.points := by
      cases op with
      | set pts =>
        simp only [Op.run] at he ⊢
        rcases set_none b hl r with ⟨_, _, h⟩ | ⟨_, h, _⟩
        · rw [h.err] at he; cases he
        · rw [h.points]; exact hf
      | append p =>
        refine appendList_equal b hes hfo (by simp [Ascending]) ?_ r he
        refine equallySpaced_of_length_le_two ?_
        cases s.points.getLast? <;> simp
      | appendList ps => exact appendList_equal b hes hfo hl hf r he
      | replace p oa =>
        simp only [Op.run] at he ⊢
        by_cases hin : (getDomain s.points).contains (.fin p.1) = true
        · rcases replace_inside b w p oa r hin with ⟨_, _, h⟩ | ⟨hc, h, hk, _⟩
          · rw [h.err] at he; cases he
          · rw [h.points]
            refine EquallySpaced.of_xs ((hk ?_).2) hes
            by_contra hcc
            push Not at hcc
            exact hc ⟨hfo, hcc⟩
        · rw [replace_outside b p oa r (by simpa using hin)] at he ⊢
          cases oa with
          | false => exact hes
          | true =>
            rw [if_pos rfl] at he ⊢
            refine appendList_equal b.touch hes hfo (by simp [Ascending]) ?_ r he
            refine equallySpaced_of_length_le_two ?_
            cases s.touch.points.getLast? <;> simp
      | reset d =>
        simp only [Op.run] at he ⊢
        cases d with
        | none => rw [(C11_reset_all b r).2]; exact ⟨0, by simp⟩
        | some d =>
          rcases reset_some b w d r with ⟨_, h2 | h2⟩ | ⟨iv, _, h1, _, h2⟩ | ⟨iv, _, h1, _, h2, _⟩
          · rw [h2]; exact hes
          · rw [h2]; exact hes
          · rw [h2.err] at he; cases he
          · rw [h1.points]
            refine EquallySpaced.sublist_check b.asc b.intv hes (List.filter_sublist) ?_
            by_contra hcc
            exact h2 ⟨hfo, by simpa using hcc⟩
    exact ⟨.edit hh hl he (fun _ => heq), heq, hforce⟩
  | read _ ih => exact ⟨.read ih.1, ih.2⟩

/-- C13, for fair histories: a curve created with `uniform=True` stays truly equally spaced.
Missing: batches whose points only end at the right place are accepted, see `C13_negation`. -/
theorem C13_uniform_partial [Lerp V] {s : Pts V} (h : FairUniform s) :
    s.isUniform = true ∧ EquallySpaced s.points :=
  ⟨by simp [Pts.isUniform, h.inv.2.2], h.inv.2.1⟩

/-- C13 fails in general: the constructor with `uniform=True` accepts `x = 0, 1, 1.5, 3`. -/
theorem C13_negation :
    ∃ (pts : List (Pt ℚ)) (s : Pts ℚ), Ascending pts ∧ Pts.new pts .linear true = .ok s ∧
      s.points = pts ∧ ¬ EquallySpaced s.points := by
  refine ⟨[(0, some 0), (1, some 1), (3 / 2, some 10), (3, some 3)],
    ((blank .linear true).set [(0, some 0), (1, some 1), (3 / 2, some 10), (3, some 3)] none
      ⟨false, false⟩).st, by norm_num [Ascending], ?_, by decide +kernel, ?_⟩
  · have h : ((blank .linear true).set [(0, some 0), (1, some 1), (3 / 2, some 10), (3, some 3)]
      none ⟨false, false⟩ : Res ℚ).err = none := by decide +kernel
    simp [Pts.new, h]
  · have hp : ((blank .linear true).set [(0, some 0), (1, some 1), (3 / 2, some 10), (3, some 3)]
      none ⟨false, false⟩ : Res ℚ).st.points =
        [(0, some 0), (1, some 1), (3 / 2, some 10), (3, some 3)] := by decide +kernel
    rw [hp]
    rintro ⟨d, hd⟩
    simp only [List.isChain_cons_cons] at hd
    have h1 := hd.1
    have h2 := hd.2.1
    norm_num at h1 h2
    rw [← h1] at h2
    norm_num at h2

/-- C12, for curves whose uniformity report is right and whose edits did not raise late: the
stored points are strictly ascending over every history.  Missing: see `C12_negation`. -/
theorem C12_ascending_partial [Lerp V] {s : Pts V} (h : Honest s) : Ascending s.points :=
  h.base.asc

/-- C12 for uniform curves, without assuming anything about the report: fair histories. -/
theorem C12_ascending_uniform_partial [Lerp V] {s : Pts V} (h : FairUniform s) :
    Ascending s.points := h.inv.1.base.asc

/-- One edit, also if it raises late, keeps the points of an honest curve ascending. -/
theorem C12_step [Lerp V] {s : Pts V} (h : Honest s) {op : Op V} (hl : op.Legal) (r : Reads) :
    Ascending (op.run s r).st.points := by
  cases outcome h.base h.wf hl r with
  | idle hs _ _ _ => rcases hs with hs | hs <;> rw [hs] <;> exact h.base.asc
  | stuck iv e _ _ hst => rw [hst.points]; exact h.base.asc
  | edited iv he => exact he.base.asc

/-- C12 fails in general: `Points([(0,0),(1,1),(1.5,10),(3,3)], uniform=False)` followed by
`replace((1.7, 5))` stores `x = 0, 1, 1.7, 1.5, 3`. -/
theorem C12_negation :
    ∃ (pts : List (Pt ℚ)) (s : Pts ℚ) (p : Pt ℚ) (r : Reads), Ascending pts ∧
      Pts.new pts .linear false = .ok s ∧ (s.replace p false r).err = none ∧
      ¬ Ascending (s.replace p false r).st.points := by
  refine ⟨[(0, some 0), (1, some 1), (3 / 2, some 10), (3, some 3)],
    ((blank .linear false).set [(0, some 0), (1, some 1), (3 / 2, some 10), (3, some 3)] none
      ⟨false, false⟩).st, (17 / 10, some 5), ⟨false, false⟩, by norm_num [Ascending], ?_,
      by decide +kernel, ?_⟩
  · have h : ((blank .linear false).set [(0, some 0), (1, some 1), (3 / 2, some 10), (3, some 3)]
      none ⟨false, false⟩ : Res ℚ).err = none := by decide +kernel
    simp [Pts.new, h]
  · have hp : ((((blank .linear false).set [(0, some 0), (1, some 1), (3 / 2, some 10),
      (3, some 3)] none ⟨false, false⟩ : Res ℚ).st.replace (17 / 10, some 5) false
      ⟨false, false⟩).st.points) = [(0, some 0), (1, some 1), (17 / 10, some 5), (3 / 2, some 10),
      (3, some 3)] := by decide +kernel
    rw [hp]
    norm_num [Ascending]

theorem even_fair (i : Interp) : FairUniform (even i) :=
  .new (by norm_num [Ascending, evenPts]) ⟨2, by norm_num [evenPts]⟩ (even_new i)

/-- A fair history: `append_list`, `replace`, `reset` of the front. -/
example : ∃ s : Pts ℚ, FairUniform s ∧ s.points = [(2, some 9), (4, some 4), (6, some 0)] := by
  have h1 : FairUniform _ := .edit (op := .appendList [((6 : ℚ), some (0 : ℚ))]) (r := ⟨true, true⟩)
    (even_fair .linear) (by simp [Op.Legal, Ascending])
    (by rw [even_points]; exact ⟨2, by norm_num [evenPts]⟩) (by decide +kernel)
  have h2 : FairUniform _ := .edit (op := .replace ((2 : ℚ), some (9 : ℚ)) false) (r := ⟨false, true⟩) h1
    trivial trivial (by decide +kernel)
  have h3 : FairUniform _ := .edit (op := .reset (some (Iv.closed (-1) 1))) (r := ⟨true, false⟩) h2
    trivial trivial (by decide +kernel)
  exact ⟨_, h3, by decide +kernel⟩

/-! ## C14 -/

/-- C14: a successful edit either changed nothing and told nobody, or announced exactly one
begin, at which every query still answers from the old data, and exactly one end, with the
same interval, at which every query answers from the new data; it leaves nothing pending. -/
theorem C14_announced [Lerp V] {s : Pts V} (h : Honest s) {op : Op V} (hl : op.Legal) (r : Reads)
    (he : (op.run s r).err = none) :
    (((op.run s r).ev = [] ∧ (op.run s r).st.points = s.points) ∨
     ∃ iv a b, (op.run s r).ev = [.begin iv a, .fin iv b] ∧ iv.isEmpty = false ∧
      a.points = s.points ∧ a.domVal = span s.points ∧ (∀ x, a.y x = s.y x) ∧
      (∀ d, a.samplePlain d = s.samplePlain d) ∧ a.isUpdating = true ∧
      b.points = (op.run s r).st.points ∧ b.domVal = span (op.run s r).st.points ∧
      (∀ x, b.y x = (op.run s r).st.y x) ∧
      (∀ d, b.samplePlain d = (op.run s r).st.samplePlain d) ∧ b.isUpdating = false) ∧
    (op.run s r).st.isUpdating = false := by
  have hidle : ∀ t : Pts V, t.Base → t.isUpdating = false := by
    intro t ht; simp [Pts.isUpdating, ht.idleB]
  cases outcome h.base h.wf hl r with
  | idle hs hev hp _ =>
    refine ⟨Or.inl ⟨hev, ?_⟩, ?_⟩
    · rcases hs with hs | hs <;> rw [hs] <;> rfl
    · rcases hs with hs | hs <;> rw [hs]
      · exact hidle _ h.base
      · exact hidle _ h.base.touch
  | stuck iv e _ _ hst => rw [hst.err] at he; cases he
  | edited iv hed =>
    refine ⟨?_, hidle _ hed.base⟩
    rcases hed.ev with ⟨h1, h2⟩ | ⟨h1, a, b, h2, h3, h4, h5, h6⟩
    · left
      refine ⟨h2.1, ?_⟩
      rw [hed.points, h2.2]
    · right
      refine ⟨iv, a, b, h2, h1, h3.points, ?_, h3.y, h3.samplePlain, h4, h5.points, ?_, h5.y,
        h5.samplePlain, h6⟩
      · rw [h3.dom, h.base.domVal, getDomain_eq_span]
      · rw [h5.dom, hed.base.domVal, getDomain_eq_span]

/-- C14: requests that concern no stored point announce nothing and change nothing. -/
theorem C14_noop [Lerp V] {s : Pts V} (h : Honest s) (r : Reads) :
    (s.appendList [] r).ev = [] ∧
    (∀ d, (∀ p ∈ s.points, d.contains (.fin p.1) = false) →
      (s.reset (some d) r).err = none ∧ (s.reset (some d) r).ev = [] ∧
      (s.reset (some d) r).st.points = s.points) := by
  refine ⟨(C09_empty h.base r).2.1, fun d hd => ?_⟩
  have hdrop : dropInside s.points d = s.points := by
    unfold dropInside
    rw [List.filter_eq_self]
    intro p hp
    simp [hd p hp]
  by_cases hpts : s.points = []
  · have : s.reset (some d) r = ⟨s, [], none⟩ := by simp [reset, hpts]
    rw [this]; exact ⟨rfl, rfl, rfl⟩
  rcases reset_some h.base h.wf d r with ⟨_, h2 | h2⟩ | ⟨iv, hne, h1, h2, h3⟩ | ⟨iv, hne, h1, h2, _⟩
  · rw [h2]; exact ⟨rfl, rfl, rfl⟩
  · rw [h2]; exact ⟨rfl, rfl, rfl⟩
  · exact absurd hdrop hne
  · exact absurd hdrop hne

/-- An append announces `(last, new last]`; see the events. -/
example : ((Op.append ((6 : ℚ), some (0 : ℚ))).run (even .linear) ⟨true, true⟩).ev.map
    (fun e => match e with
      | .begin iv t => (true, iv, t.y (.fin 6))
      | .fin iv t => (false, iv, t.y (.fin 6))) =
    [(true, Iv.openClosed 4 6, .ok none), (false, Iv.openClosed 4 6, .ok (some 0))] := by
  decide +kernel
example : ((Op.append ((6 : ℚ), some (0 : ℚ))).run (even .linear) ⟨true, true⟩).err = none := by
  decide +kernel

/-! ## C15 -/

/-- Not a `replace`. -/
def notReplace : Op V → Prop
  | .replace _ _ => False
  | _ => True

theorem valueAt_append_span [Lerp V] (mode : Interp) {old new : List (Pt V)} {o p : Pt V}
    {os ps : List (Pt V)} (ho : old = o :: os) (hn : new = p :: ps)
    (ha : Ascending (old ++ new)) {x : Ext}
    (hx : (Iv.openClosed ((o :: os).getLast (by simp)).1
      ((p :: ps).getLast (by simp)).1).contains x = false) :
    valueAtE mode (old ++ new) x = valueAtE mode old x := by
  cases x with
  | ninf => rfl
  | pinf => rfl
  | fin q =>
    simp only [valueAtE]
    have hx' : ¬ (((o :: os).getLast (by simp)).1 < q ∧ q ≤ ((p :: ps).getLast (by simp)).1) := by
      intro hc
      have : (Iv.openClosed ((o :: os).getLast (by simp)).1
        ((p :: ps).getLast (by simp)).1).contains (.fin q) = true := by
        rw [Iv.contains_iff, Iv.geLo_iff, Iv.leHi_iff]
        refine ⟨Or.inl (by simpa [Iv.openClosed] using hc.1), ?_⟩
        rcases hc.2.lt_or_eq with h | h
        · exact Or.inl (by simpa [Iv.openClosed] using h)
        · exact Or.inr ⟨by simp [Iv.openClosed, h], rfl⟩
      rw [this] at hx; cases hx
    by_cases hq : q ≤ ((o :: os).getLast (by simp)).1
    · refine valueAt_append_left mode ha ⟨(o :: os).getLast (by simp), ?_, hq⟩
      rw [ho]; exact List.getLast_mem _
    · have hq1 := not_le.1 hq
      have hq2 : ((p :: ps).getLast (by simp)).1 < q := by
        by_contra hc; exact hx' ⟨hq1, not_lt.1 hc⟩
      have hall : ∀ m ∈ old ++ new, m.1 < q := by
        intro m hm
        have hnn : new ≠ [] := by rw [hn]; simp
        have hlast : (old ++ new).getLast (by simp [hnn]) = (p :: ps).getLast (by simp) := by
          rw [List.getLast_append_of_ne_nil _ hnn]
          subst hn; rfl
        obtain ⟨i, hi⟩ := List.getElem?_of_mem hm
        have := ha.le hi (getLast_mem_idx (by simp [hnn]))
          (by have := (List.getElem?_eq_some_iff.1 hi).1; omega)
        rw [hlast] at this
        linarith
      rw [valueAt_after mode hall, valueAt_after mode (fun m hm => hall m (by simp [hm]))]

theorem set_local [Lerp V] {s : Pts V} (b : s.Base) {pts : List (Pt V)} (hl : Ascending pts)
    (mode : Interp) {x : Ext} (hx : (s.setIv pts).contains x = false) :
    valueAtE mode pts x = valueAtE mode s.points x := by
  have h1 : (getDomain s.points).contains x = false := by
    by_contra hc
    have hc : (getDomain s.points).contains x = true := by simpa using hc
    rw [← b.domVal] at hc
    have : (s.setIv pts).contains x = true := by
      cases pts with
      | nil => exact hc
      | cons p ps => exact (Iv.superset_iff _ _).1 (Iv.union_left _ _) x hc
    rw [hx] at this; cases this
  have h2 : (getDomain pts).contains x = false := by
    by_contra hc
    have hc : (getDomain pts).contains x = true := by simpa using hc
    have : (s.setIv pts).contains x = true := by
      cases pts with
      | nil => exact absurd (Iv.not_isEmpty_of_mem hc) (by simp [getDomain])
      | cons p ps => exact (Iv.superset_iff _ _).1 (Iv.union_right _ _) x hc
    rw [hx] at this; cases this
  rw [valueAtE_outside mode b.asc h1, valueAtE_outside mode hl h2]

theorem edited_local {s : Pts V} {new : List (Pt V)} {iv : Iv} {res : Res V}
    (h : Edited s new iv res) {x : Ext} (hx : ∀ e ∈ res.ev, (evIv e).contains x = false) :
    iv.contains x = false := by
  rcases h.ev with ⟨h1, _⟩ | ⟨_, a, b, h2, _⟩
  · exact (Iv.isEmpty_iff_forall _).1 h1 x
  · exact hx (.begin iv a) (by rw [h2]; simp)

theorem appendList_local [Lerp V] {s : Pts V} (b : s.Base) {ps : List (Pt V)} (hl : Ascending ps)
    (r : Reads) (he : (s.appendList ps r).err = none) {x : Ext}
    (hx : ∀ e ∈ (s.appendList ps r).ev, (evIv e).contains x = false) (mode : Interp) :
    valueAtE mode (s.appendList ps r).st.points x = valueAtE mode s.points x := by
  cases hs : s.points with
  | nil =>
    have h : s.appendList ps r = s.set ps none r := by
      unfold appendList
      split
      · rfl
      · rename_i h; rw [hs] at h; cases h
    rw [h] at he hx ⊢
    rcases set_none b hl r with ⟨_, _, h⟩ | ⟨_, h, _⟩
    · rw [h.err] at he; cases he
    · rw [h.points, ← hs]
      exact set_local b hl mode (edited_local h hx)
  | cons o os =>
    cases ps with
    | nil => rw [(C09_empty b r).2.2.1, hs]
    | cons p ps =>
      by_cases hle : p.1 ≤ ((o :: os).getLast (by simp)).1
      · rw [appendList_nonAscending r hs hle, hs]
      · rcases appendList_cons b r hs hl (not_le.1 hle) with ⟨_, _, h⟩ | ⟨hc, h, _⟩
        · rw [h.err] at he; cases he
        · rw [h.points, ← hs]
          refine valueAt_append_span mode hs rfl ?_ (edited_local h hx)
          rw [← h.points]; exact h.base.asc

/-- C15 for `set`, `append`, `append_list`, `reset`: outside the announced interval no value
changes.  Missing: `replace`, see `C15_negation`. -/
theorem C15_local_partial [Lerp V] {s : Pts V} (h : Honest s) {op : Op V} (hl : op.Legal)
    (hnr : notReplace op) (r : Reads) (he : (op.run s r).err = none)
    (ht : Truthful (op.run s r).st) (x : Ext)
    (hx : ∀ e ∈ (op.run s r).ev, (evIv e).contains x = false) :
    (op.run s r).st.y x = s.y x := by
  have hh : Honest (op.run s r).st := .edit h hl (by rw [he]; rfl) ht
  have hi : (op.run s r).st.interp = s.interp := by
    cases outcome h.base h.wf hl r with
    | idle hs _ _ _ => rcases hs with hs | hs <;> rw [hs] <;> rfl
    | stuck iv e _ _ h => exact h.interp
    | edited iv h => exact h.interp
  rw [y_eq hh.wf, y_eq h.wf, hi]
  congr 1
  cases op with
  | set pts =>
    rcases set_none h.base hl r with ⟨_, _, hst⟩ | ⟨_, hed, _⟩
    · simp only [Op.run] at he; rw [hst.err] at he; cases he
    · simp only [Op.run] at hx ⊢
      rw [hed.points]
      exact set_local h.base hl _ (edited_local hed hx)
  | append p => exact appendList_local h.base (by simp [Ascending]) r he hx _
  | appendList ps => exact appendList_local h.base hl r he hx _
  | replace p oa => exact absurd hnr (by simp [notReplace])
  | reset d =>
    cases d with
    | none =>
      simp only [Op.run] at he hx ⊢
      by_cases hp : s.points.length = 0
      · have : s.reset none r = ⟨s, [], none⟩ := by simp only [reset, hp, if_true]
        rw [this]
      · have : s.reset none r = s.set [] none r := by simp only [reset, hp, if_false]
        rw [this] at hx ⊢
        rcases set_none h.base (pts := []) List.Pairwise.nil r with ⟨_, hc, _⟩ | ⟨_, hed, _⟩
        · simp [setCheck] at hc
        · rw [hed.points]
          exact set_local h.base List.Pairwise.nil _ (edited_local hed hx)
    | some d =>
      simp only [Op.run] at he hx ⊢
      rcases reset_some h.base h.wf d r with ⟨_, h2 | h2⟩ | ⟨iv, _, _, _, h3⟩ | ⟨iv, _, h1, _, _, h3, _⟩
      · rw [h2]
      · rw [h2]; rfl
      · rw [h3.err] at he; cases he
      · rw [h1.points]
        exact h3 _ x (edited_local h1 hx)

example : ((Op.reset (some (Iv.closed 1 3))).run (demo .linear) ⟨true, false⟩).st.y (.fin 0) =
    (demo .linear).y (.fin 0) := by
  refine C15_local_partial (op := .reset (some (Iv.closed 1 3))) (demo_honest _) trivial trivial _ (by decide +kernel) ?_ _ ?_
  · intro _
    have : ((Op.reset (some (Iv.closed 1 3))).run (demo .linear) ⟨true, false⟩).st.points =
      [(0, some 1), (4, some 2)] := by decide +kernel
    rw [this]; exact equallySpaced_of_length_le_two (by simp)
  · have : ((Op.reset (some (Iv.closed 1 3))).run (demo .linear) ⟨true, false⟩).ev.map evIv =
      [Iv.opened 0 4, Iv.opened 0 4] := by decide +kernel
    intro e hm
    have hm' := List.mem_map_of_mem (f := evIv) hm
    rw [this] at hm'
    simp only [List.mem_cons, List.not_mem_nil, or_false, or_self] at hm'
    rw [hm']; decide +kernel

/-- C15 fails for `replace`: it announces only the point, but with linear interpolation the
values between the neighbouring knots change too (here at `x = 1`). -/
theorem C15_negation :
    ∃ (s : Pts ℚ) (p : Pt ℚ) (r : Reads) (x : ℚ), Honest s ∧ (s.replace p false r).err = none ∧
      Honest (s.replace p false r).st ∧ (s.replace p false r).ev ≠ [] ∧
      (∀ e ∈ (s.replace p false r).ev, (evIv e).contains (.fin x) = false) ∧
      (s.replace p false r).st.y (.fin x) ≠ s.y (.fin x) := by
  refine ⟨even .linear, (2, some 9), ⟨false, false⟩, 1, even_honest _, by decide +kernel, ?_, ?_,
    ?_, by decide +kernel⟩
  · refine (FairUniform.inv (.edit (op := .replace (2, some 9) false) (even_fair .linear) trivial
      trivial (by decide +kernel))).1
  · have : ((even .linear).replace (2, some 9) false ⟨false, false⟩).ev.length = 2 := by
      decide +kernel
    intro hc; rw [hc] at this; cases this
  · have : ((even .linear).replace (2, some 9) false ⟨false, false⟩).ev.map evIv =
      [Iv.point 2, Iv.point 2] := by decide +kernel
    intro e hm
    have hm' := List.mem_map_of_mem (f := evIv) hm
    rw [this] at hm'
    simp only [List.mem_cons, List.not_mem_nil, or_false, or_self] at hm'
    rw [hm']; decide +kernel

/-! ## C16 -/

/-- C16, early errors: an edit refused before its update began leaves every query as it was,
notifies nobody and leaves nothing pending; right after a late error the stored points, the
domain and all values are still the old ones.  Missing: after a late error the curve stays
updating for ever, see `C16_negation`. -/
theorem C16_failed_partial [Lerp V] {s : Pts V} (h : Honest s) {op : Op V} (hl : op.Legal)
    (r : Reads) (he : (op.run s r).err ≠ none) :
    (op.run s r).st.points = s.points ∧ (op.run s r).st.domVal = s.domVal ∧
    (∀ x, (op.run s r).st.y x = s.y x) ∧
    (lateError (op.run s r).err = false → (op.run s r).ev = [] ∧
      (op.run s r).st.isUpdating = false ∧ Looks (op.run s r).st s) := by
  cases outcome h.base h.wf hl r with
  | idle hs hev _ _ =>
    have hlk : Looks (op.run s r).st s := by
      rcases hs with hs | hs <;> rw [hs]
      · exact Looks.rfl' s
      · exact touch_looks s
    refine ⟨hlk.points, hlk.dom, hlk.y, fun _ => ⟨hev, ?_, hlk⟩⟩
    rcases hs with hs | hs <;> rw [hs] <;> simp [Pts.isUpdating, Pts.touch, h.base.idleB]
  | stuck iv e hle hf hst =>
    refine ⟨hst.points, hst.dom, ?_, fun hc => ?_⟩
    · intro x
      have hu : (op.run s r).st.isUniform = s.isUniform := by
        simp [Pts.isUniform, hst.force, hf]
      have hxi : ∀ q, (op.run s r).st.xIndex q = s.xIndex q := by
        intro q; simp only [Pts.xIndex, hu, hst.interval, hst.points]
      cases x <;> simp only [Pts.y, hst.dom, hxi, hst.points, hst.interp]
    · rw [hst.err, hle] at hc; cases hc
  | edited iv hed => exact absurd hed.err he

/-- An early error in the concrete: replacing outside the domain. -/
example : ((Op.replace ((9 : ℚ), some (1 : ℚ)) false).run (even .linear) ⟨true, true⟩).err =
    some .outOfBounds ∧
    ((Op.replace ((9 : ℚ), some (1 : ℚ)) false).run (even .linear) ⟨true, true⟩).ev = [] := by
  have he : ((Op.replace ((9 : ℚ), some (1 : ℚ)) false).run (even .linear) ⟨true, true⟩).err =
    some .outOfBounds := by decide +kernel
  exact ⟨he, ((C16_failed_partial (even_honest .linear) (op := .replace (9, some 1) false) trivial
    ⟨true, true⟩ (by rw [he]; simp)).2.2.2 (by rw [he]; rfl)).1⟩

/-- C16 fails for late errors: on `Points([(0,1),(2,5),(4,4)])` the refused `append((7,0))`
leaves the curve updating, and a following successful `append((6,0))` announces nothing and
leaves the old domain in place, so the appended point cannot be read. -/
theorem C16_negation :
    ∃ (s : Pts ℚ) (bad good : Pt ℚ) (r : Reads), Honest s ∧
      (s.append bad r).err = some .nonRegular ∧ (s.append bad r).st.isUpdating = true ∧
      ((s.append bad r).st.append good r).err = none ∧
      good ∈ ((s.append bad r).st.append good r).st.points ∧
      ((s.append bad r).st.append good r).ev.length = 0 ∧
      ((s.append bad r).st.append good r).st.y (.fin good.1) = .ok none ∧
      (s.append good r).st.y (.fin good.1) = .ok good.2 ∧ good.2 = some 0 := by
  refine ⟨even .linear, (7, some 0), (6, some 0), ⟨false, false⟩, even_honest _, ?_⟩
  decide +kernel

/-! ## C70 -/

/-- C70: a point that is new, gone or has another value after an edit lies in the interval that was
announced; so a curve with no announced interval has the same points. -/
theorem C70_points_local [Lerp V] {s : Pts V} (h : Honest s) {op : Op V} (hl : op.Legal) (r : Reads)
    {p : Pt V} (hp : ¬ (p ∈ (op.run s r).st.points ↔ p ∈ s.points)) :
    ∃ iv a b, (op.run s r).ev = [.begin iv a, .fin iv b] ∧ iv.contains (.fin p.1) = true := by
  cases outcome h.base h.wf hl r with
  | idle hs hev _ _ =>
    exfalso
    apply hp
    rcases hs with hs | hs <;> rw [hs] <;> rfl
  | stuck iv e _ _ hst => rw [hst.points] at hp; exact absurd Iff.rfl hp
  | edited iv hed hk =>
    rw [hed.points] at hp
    rcases hed.ev with ⟨_, _, h3⟩ | ⟨_, a, b, h2, _⟩
    · rw [h3] at hp; exact absurd Iff.rfl hp
    · refine ⟨iv, a, b, h2, ?_⟩
      by_contra hc
      exact hp (hk p (by simpa using hc))

/-- Replacing `(2,5)` by `(2,7)`: both differ, and `[2,2]` is announced. -/
example : ¬ ((((2 : ℚ), some (5 : ℚ)) : Pt ℚ) ∈
    ((Op.replace ((2 : ℚ), some (7 : ℚ)) false).run (even .linear) ⟨true, true⟩).st.points ↔
    (((2 : ℚ), some (5 : ℚ)) : Pt ℚ) ∈ (even .linear).points) ∧
    ((Op.replace ((2 : ℚ), some (7 : ℚ)) false).run (even .linear) ⟨true, true⟩).ev.map evIv =
      [Iv.point 2, Iv.point 2] := by
  constructor <;> decide +kernel

/-! ## C68 -/

/-- C68: on a curve created with `uniform=True`, `set` to equally spaced points succeeds exactly if the
spacing is that of the old points, or there are fewer than two old or new points. -/
theorem C68_set_partial [Lerp V] {s : Pts V} (h : Honest s) (hf : s.force = true) {pts : List (Pt V)}
    (hl : Ascending pts) {d : ℚ} (hd : pts.IsChain (fun p q => q.1 - p.1 = d)) (r : Reads) :
    (s.set pts none r).err = none ↔ pts.length < 2 ∨ s.points.length < 2 ∨ s.interval = some d := by
  have key : (s.set pts none r).err = none ↔ s.setCheck pts = true := by
    rcases set_none h.base hl r with ⟨_, h2, h3⟩ | ⟨h1, h2, _⟩
    · rw [h3.err, h2]; simp
    · rw [h2.err]
      simp only [hf, true_and, Bool.not_eq_false] at h1
      simp [h1]
  rw [key]
  cases pts with
  | nil => simp [setCheck]
  | cons p ps =>
    cases ps with
    | nil => simp [setCheck, spacing]
    | cons q qs =>
      have ht := chain_eq_total p (q :: qs) hd
      have hpq : q.1 - p.1 = d := (List.isChain_cons_cons.1 hd).1
      have hpos : (0 : ℚ) < (q :: qs).length := by rw [List.length_cons]; positivity
      have hi := h.base.intv
      by_cases hlen : s.points.length < 2
      · rw [intervalOf_none hlen] at hi
        simp only [setCheck, hi, spacing, List.getLast?_nil, hlen, true_or, or_true, iff_true,
          decide_eq_true_eq]
        rw [ht, hpq]
      · have : ∃ c, s.interval = some c := by
          rw [hi]
          rcases hsp : s.points with _ | ⟨a, _ | ⟨b, l⟩⟩
          · simp [hsp] at hlen
          · simp [hsp] at hlen
          · exact ⟨_, rfl⟩
        obtain ⟨c, hc⟩ := this
        simp only [setCheck, hc, spacing, List.getLast?_nil, decide_eq_true_eq, ht,
          Option.some.injEq, hlen, false_or]
        constructor
        · intro h
          have h : d * ((q :: qs).length : ℚ) = c * ((q :: qs).length : ℚ) := by linarith
          exact Or.inr (mul_right_cancel₀ hpos.ne' h).symm
        · rintro (h | rfl)
          · simp only [List.length_cons] at h; omega
          · rfl

/-- C68 does not hold in general: `Points([(0,1),(2,5),(4,4)])` refuses to be set to
`[(0,1),(1,2),(2,3)]`, although a new curve accepts it. -/
theorem C68_negation :
    ∃ (s : Pts ℚ) (pts : List (Pt ℚ)) (r : Reads), Honest s ∧ Ascending pts ∧ EquallySpaced pts ∧
      (s.set pts none r).err = some .nonRegular ∧ (s.set pts none r).st.isUpdating = true ∧
      ((blank .linear true).set pts none r).err = none := by
  refine ⟨even .linear, [(0, some 1), (1, some 2), (2, some 3)], ⟨false, false⟩, even_honest _,
    by norm_num [Ascending], ⟨1, by norm_num⟩, ?_, ?_, ?_⟩ <;> decide +kernel

example : ((even .linear).set [(7, some 0), (9, some 1)] none ⟨true, true⟩).err = none := by
  decide +kernel

end Props
end Curvepy
