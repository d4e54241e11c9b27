import Verif.Lemmas.PointsSpacing
import Verif.Spec.History

namespace Curvepy
open Spec Pts
variable {V : Type}

namespace Pts

theorem appendList_nonAscending {s : Pts V} {ps : List (Pt V)} {o p : Pt V} {os : List (Pt V)}
    (r : Reads) (ho : s.points = o :: os) (hle : p.1 ≤ ((o :: os).getLast (by simp)).1) :
    s.appendList (p :: ps) r = ⟨s, [], some .nonAscending⟩ := by
  unfold appendList
  split
  · rename_i h; rw [ho] at h; cases h
  · rename_i o' os' h
    rw [ho] at h; cases h
    simp only
    rw [if_pos hle]

theorem replace_outside {s : Pts V} (b : s.Base) (p : Pt V) (oa : Bool) (r : Reads)
    (hout : (getDomain s.points).contains (.fin p.1) = false) :
    s.replace p oa r = if oa then s.touch.append p r else ⟨s.touch, [], some .outOfBounds⟩ := by
  unfold replace
  simp only [b.touch.domVal]
  rw [if_pos (by simpa [Pts.touch] using hout)]

theorem putPoint_after {pts : List (Pt V)} {p : Pt V} (h : ∀ q ∈ pts, q.1 < p.1) :
    putPoint pts p = pts ++ [p] := by
  induction pts with
  | nil => rfl
  | cons a as ih =>
    have := h a (by simp)
    simp only [putPoint, if_neg (not_lt.2 this.le), if_neg this.ne', List.cons_append]
    rw [ih (fun q hq => h q (by simp [hq]))]

/-- Outside the interval both lists have the same points. -/
def Keeps (iv : Iv) (old new : List (Pt V)) : Prop :=
  ∀ p : Pt V, iv.contains (.fin p.1) = false → (p ∈ new ↔ p ∈ old)

/-- What an edit does to a resting curve whose spacing report is right. -/
inductive Outcome (s : Pts V) (op : Op V) (res : Res V) : Prop where
  /-- nothing happened (an empty or out of range request, or an early exception) -/
  | idle (hs : res.st = s ∨ res.st = s.touch) (hev : res.ev = [])
      (hp : res.err = none → op.target s.points = s.points)
      (he : res.err = none ∨ res.err = some .nonAscending ∨ res.err = some .outOfBounds)
  | stuck (iv : Iv) (e : Err) (he : lateError (some e) = true)
      (hf : s.force = true) (h : Stuck s iv e res)
  | edited (iv : Iv) (h : Edited s (op.target s.points) iv res)
      (hk : Keeps iv s.points (op.target s.points))

theorem Looks.symm {a b : Pts V} (h : Looks a b) : Looks b a :=
  ⟨h.points.symm, h.interp.symm, h.force.symm, h.equal.symm, h.interval.symm, h.minStep.symm,
    h.dom.symm⟩

theorem Outcome.of_touch {s : Pts V} {op : Op V} {res : Res V} (h : Outcome s.touch op res) :
    Outcome s op res := by
  cases h with
  | idle hs hev hp he =>
    refine .idle (Or.inr ?_) hev hp he
    rcases hs with h | h
    · exact h
    · rw [h]; rfl
  | stuck iv e he hf h => exact .stuck iv e he hf (h.looks (touch_looks s))
  | edited iv h hk => exact .edited iv (h.looks (touch_looks s)) hk

theorem keeps_set {s : Pts V} (b : s.Base) {pts : List (Pt V)} (hl : Ascending pts) :
    Keeps (s.setIv pts) s.points pts := by
  intro p hp
  constructor
  · intro hm
    exfalso
    have hc := getDomain_contains_mem hl hm
    have : (s.setIv pts).contains (.fin p.1) = true := by
      cases pts with
      | nil => cases hm
      | cons q qs => exact (Iv.superset_iff _ _).1 (Iv.union_right _ _) _ hc
    rw [hp] at this; cases this
  · intro hm
    exfalso
    have hc := getDomain_contains_mem b.asc hm
    rw [← b.domVal] at hc
    have : (s.setIv pts).contains (.fin p.1) = true := by
      cases pts with
      | nil => exact hc
      | cons q qs => exact (Iv.superset_iff _ _).1 (Iv.union_left _ _) _ hc
    rw [hp] at this; cases this

theorem keeps_append {o p : Pt V} {os ps : List (Pt V)} (hp : Ascending (p :: ps))
    (hlt : ((o :: os).getLast (by simp)).1 < p.1) :
    Keeps (appendIv o os p ps) (o :: os) (o :: os ++ p :: ps) := by
  intro q hq
  rw [List.mem_append]
  refine ⟨fun h => h.resolve_right fun hm => ?_, Or.inl⟩
  have hc : (appendIv o os p ps).contains (.fin q.1) = true := by
    obtain ⟨i, hi⟩ := List.getElem?_of_mem hm
    have hil := (List.getElem?_eq_some_iff.1 hi).1
    have h1 : p.1 ≤ q.1 := hp.le (i := 0) rfl hi (by omega)
    have h2 := hp.le hi (getLast_mem_idx (pts := p :: ps) (by simp)) (by omega)
    rw [Iv.contains_iff, Iv.geLo_iff, Iv.leHi_iff]
    simp only [appendIv, Iv.openClosed, Ext.fin_lt_fin]
    refine ⟨Or.inl (by linarith), ?_⟩
    rcases h2.lt_or_eq with h | h
    · exact Or.inl h
    · exact Or.inr ⟨by rw [h], trivial⟩
  rw [hq] at hc; cases hc

theorem outcome_set {s : Pts V} (b : s.Base) {pts : List (Pt V)} (hl : Ascending pts) (r : Reads)
    (op : Op V) (hop : op.target s.points = pts) : Outcome s op (s.set pts none r) := by
  rcases set_none b hl r with ⟨h1, h2, h3⟩ | ⟨_, h, _⟩
  · exact .stuck _ _ rfl h1 h3
  · exact .edited _ (by rw [hop]; exact h) (by rw [hop]; exact keeps_set b hl)

theorem outcome_appendList {s : Pts V} (b : s.Base) {pts : List (Pt V)} (hl : Ascending pts)
    (r : Reads) (op : Op V) (hop : (∀ o ∈ s.points.getLast?, ∀ p ∈ pts.head?, o.1 < p.1) →
      op.target s.points = s.points ++ pts) : Outcome s op (s.appendList pts r) := by
  cases ho : s.points with
  | nil =>
    have : s.appendList pts r = s.set pts none r := by
      unfold appendList
      split
      · rfl
      · rename_i h; rw [ho] at h; cases h
    rw [this]
    exact outcome_set b hl r op (by rw [hop (by simp [ho])]; simp [ho])
  | cons o os =>
    cases pts with
    | nil =>
      have : s.appendList [] r = ⟨s, [], none⟩ := by
        unfold appendList
        split
        · rename_i h; rw [ho] at h; cases h
        · rfl
      rw [this]
      exact .idle (Or.inl rfl) rfl (fun _ => by rw [hop (by simp)]; simp) (Or.inl rfl)
    | cons p ps =>
      by_cases hle : p.1 ≤ ((o :: os).getLast (by simp)).1
      · rw [appendList_nonAscending r ho hle]
        exact .idle (Or.inl rfl) rfl (fun h => by cases h) (Or.inr (Or.inl rfl))
      · rcases appendList_cons b r ho hl (not_le.1 hle) with ⟨h1, h2, h3⟩ | ⟨_, h, _⟩
        · exact .stuck _ _ rfl h1 h3
        · have ht : op.target s.points = s.points ++ p :: ps := by
            refine hop ?_
            intro x hx y hy
            rw [ho, List.getLast?_eq_some_getLast (by simp)] at hx
            simp only [Option.mem_def, Option.some.injEq, List.head?_cons] at hx hy
            rw [← hx, ← hy]; exact not_le.1 hle
          refine .edited (appendIv o os p ps) (by rw [ht]; exact h) ?_
          rw [ht, ho]
          exact keeps_append hl (not_le.1 hle)

theorem outcome [Lerp V] {s : Pts V} (b : s.Base) (w : s.Wf) {op : Op V} (hl : op.Legal)
    (r : Reads) : Outcome s op (op.run s r) := by
  cases op with
  | set pts => exact outcome_set b hl r _ rfl
  | append p => exact outcome_appendList b (pts := [p]) (by simp [Ascending]) r _ (fun _ => rfl)
  | appendList pts => exact outcome_appendList b hl r _ (fun _ => rfl)
  | replace p oa =>
    by_cases hin : (getDomain s.points).contains (.fin p.1) = true
    · rcases replace_inside b w p oa r hin with ⟨h1, _, h3⟩ | ⟨_, h, _⟩
      · exact .stuck _ _ rfl h1 h3
      · refine .edited _ h ?_
        intro q hq
        rw [Op.target, mem_putPoint b.asc]
        have hne : q.1 ≠ p.1 := by
          intro hc
          rw [hc] at hq
          have : (Iv.point p.1).contains (.fin p.1) = true := by simp [Iv.point, Iv.contains_closed]
          rw [hq] at this; cases this
        constructor
        · rintro (rfl | h)
          · exact absurd rfl hne
          · exact h.1
        · exact fun h => Or.inr ⟨h, hne⟩
    · simp only [Op.run]
      rw [replace_outside b p oa r (by simpa using hin)]
      cases oa with
      | false =>
        exact .idle (Or.inr rfl) rfl (fun h => by simp at h) (Or.inr (Or.inr rfl))
      | true =>
        rw [if_pos rfl]
        refine Outcome.of_touch ?_
        refine outcome_appendList b.touch (pts := [p]) (by simp [Ascending]) r _ ?_
        intro h
        refine putPoint_after ?_
        intro q hq
        have hne : s.points ≠ [] := List.ne_nil_of_mem hq
        have h1 := h (s.points.getLast hne) (List.getLast?_eq_some_getLast hne) p rfl
        obtain ⟨i, hi⟩ := List.getElem?_of_mem hq
        have hi' : s.points[i]? = some q := hi
        have := b.asc.le hi' (getLast_mem_idx hne)
          (by have := (List.getElem?_eq_some_iff.1 hi').1; omega)
        linarith
  | reset d =>
    cases d with
    | none =>
      by_cases hp : s.points.length = 0
      · have : s.reset none r = ⟨s, [], none⟩ := by simp only [reset, hp, if_true]
        simp only [Op.run, this]
        refine .idle (Or.inl rfl) rfl (fun _ => ?_) (Or.inl rfl)
        simp only [Op.target]
        exact (List.length_eq_zero_iff.1 hp).symm
      · have : s.reset none r = s.set [] none r := by simp only [reset, hp, if_false]
        simp only [Op.run, this]
        exact outcome_set b List.Pairwise.nil r _ rfl
    | some d =>
      simp only [Op.run]
      rcases reset_some b w d r with ⟨h1, h2⟩ | ⟨iv, h0, h1, _, h3⟩ | ⟨iv, h0, h1, _, _, _, hrem, _⟩
      · rcases h2 with h2 | h2
        · rw [h2]; exact .idle (Or.inl rfl) rfl (fun _ => h1) (Or.inl rfl)
        · rw [h2]; exact .idle (Or.inr rfl) rfl (fun _ => h1) (Or.inl rfl)
      · exact .stuck _ _ rfl h1 h3
      · refine .edited _ h1 ?_
        intro q hq
        simp only [Op.target, dropInside, List.mem_filter]
        refine ⟨fun h => h.1, fun h => ⟨h, ?_⟩⟩
        by_contra hc
        have := hrem q h (by simpa using hc)
        rw [hq] at this; cases this

theorem blank_base (i : Interp) (u : Bool) : (blank i u : Pts V).Base :=
  ⟨List.Pairwise.nil, rfl, Or.inl rfl, rfl, rfl⟩

theorem new_ok {pts : List (Pt V)} {i : Interp} {u : Bool} {s : Pts V} (h : Ascending pts)
    (hs : Pts.new pts i u = .ok s) :
    s.Base ∧ s.points = pts ∧ s.interp = i ∧ s.force = u ∧ s.minStep = none := by
  unfold Pts.new at hs
  rcases set_none (blank_base i u) h ⟨false, false⟩ with ⟨_, _, h3⟩ | ⟨_, h1, h2⟩
  · simp [h3.err] at hs
  · simp only [h1.err, Except.ok.injEq] at hs
    subst hs
    exact ⟨h1.base, h1.points, h1.interp, h1.force, h1.minStep⟩

theorem _root_.Curvepy.Spec.Honest.inv [Lerp V] {s : Pts V} (h : Honest s) : s.Base ∧ s.Wf := by
  induction h with
  | new h hs ht =>
    have b := (new_ok h hs).1
    exact ⟨b, b.wf ht⟩
  | @edit s op r _ hl he ht ih =>
    obtain ⟨b, w⟩ := ih
    cases outcome b w hl r with
    | idle hs _ _ _ =>
      rcases hs with hs | hs <;> rw [hs]
      · exact ⟨b, w⟩
      · exact ⟨b.touch, w.touch⟩
    | stuck iv e he' _ h => rw [h.err, he'] at he; cases he
    | edited iv h => exact ⟨h.base, h.base.wf ht⟩
  | read _ ih => exact ⟨ih.1.touch, ih.2.touch⟩

theorem _root_.Curvepy.Spec.Honest.base [Lerp V] {s : Pts V} (h : Honest s) : s.Base := h.inv.1
theorem _root_.Curvepy.Spec.Honest.wf [Lerp V] {s : Pts V} (h : Honest s) : s.Wf := h.inv.2

end Pts
end Curvepy
