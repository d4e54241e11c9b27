import Verif.Props.Observer2
import Verif.Model.Net
import Verif.Props.Accumulator

/-!
# Property C164: one update protocol in every kind of curve
-/

namespace Curvepy
namespace Props
open Spec

/-- The pending updates of a combination, a list of points and an accumulator. -/
def jointGate (J : Joint) : Gate := ⟨J.bIv, J.eIv⟩
def pointsGate {V : Type} (s : Pts V) : Gate := ⟨s.bIv, s.eIv⟩
def accumGate (A : Accum) : Gate := ⟨A.bIv, A.eIv⟩

/-- A call of `begin_update` or `end_update` of a combination. -/
def jointAct (J : Joint) : Gate.Act → Joint × List Iv
  | .begin d => J.onBegin d
  | .finish d => J.onEnd d

/-- Calls, and what each of them announces. -/
def jointRun (J : Joint) : List Gate.Act → Joint × List (Gate.Act × List Iv)
  | [] => (J, [])
  | a :: as => ((jointRun (jointAct J a).1 as).1, (a, (jointAct J a).2) :: (jointRun (jointAct J a).1 as).2)

/-- A call of `begin_update` or `end_update` of a list of points, and what observers may read. -/
def pointsAct {V : Type} (s : Pts V) (r : Pts.Reads) : Gate.Act → Pts V × List (Pts.Ev V)
  | .begin d => s.beginUpdate d r
  | .finish d => s.endUpdate d r

def pointsRun {V : Type} (s : Pts V) : List (Gate.Act × Pts.Reads) → Pts V × List (Gate.Act × List (Pts.Ev V))
  | [] => (s, [])
  | (a, r) :: as => ((pointsRun (pointsAct s r a).1 as).1, (a, (pointsAct s r a).2) :: (pointsRun (pointsAct s r a).1 as).2)

/-- The interval of an announcement. -/
def evIv {V : Type} : Pts.Ev V → Iv
  | .begin d _ => d
  | .fin d _ => d

/-- A call of the `begin_update` or `end_update` that an accumulator inherits. -/
def accumAct (A : Accum) : Gate.Act → Accum × List Iv
  | .begin d => A.gateBegin d
  | .finish d => A.gateEnd d

def accumRun (A : Accum) : List Gate.Act → Accum × List (Gate.Act × List Iv)
  | [] => (A, [])
  | a :: as => ((accumRun (accumAct A a).1 as).1, (a, (accumAct A a).2) :: (accumRun (accumAct A a).1 as).2)

theorem joint_act (J : Joint) (a : Gate.Act) :
    jointGate (jointAct J a).1 = ((jointGate J).act a).1 ∧ (jointAct J a).2 = ((jointGate J).act a).2.toList := by
  cases a with
  | begin d =>
    simp only [jointAct, Joint.onBegin, Gate.act, Gate.begin]
    by_cases h : (d.isEmpty || J.bIv.superset d) = true
    · rw [if_pos h, if_pos (show (d.isEmpty || (jointGate J).bIv.superset d) = true from h)]; exact ⟨rfl, rfl⟩
    · rw [if_neg h, if_neg (show ¬ (d.isEmpty || (jointGate J).bIv.superset d) = true from h)]; exact ⟨rfl, rfl⟩
  | finish d =>
    simp only [jointAct, Joint.onEnd, Gate.act, Gate.finish]
    by_cases h : (d.isEmpty || J.eIv.superset d) = true
    · rw [if_pos h, if_pos (show (d.isEmpty || (jointGate J).eIv.superset d) = true from h)]; exact ⟨rfl, rfl⟩
    · rw [if_neg h, if_neg (show ¬ (d.isEmpty || (jointGate J).eIv.superset d) = true from h)]
      by_cases h2 : (!(Iv.union J.eIv d).superset J.bIv) = true
      · rw [if_pos h2, if_pos (show (!(Iv.union (jointGate J).eIv d).superset (jointGate J).bIv) = true from h2)]; exact ⟨rfl, rfl⟩
      · rw [if_neg h2, if_neg (show ¬ (!(Iv.union (jointGate J).eIv d).superset (jointGate J).bIv) = true from h2)]; exact ⟨rfl, rfl⟩

theorem accum_act (A : Accum) (a : Gate.Act) :
    accumGate (accumAct A a).1 = ((accumGate A).act a).1 ∧ (accumAct A a).2 = ((accumGate A).act a).2.toList := by
  cases a with
  | begin d =>
    simp only [accumAct, Accum.gateBegin, Gate.act, Gate.begin]
    by_cases h : (d.isEmpty || A.bIv.superset d) = true
    · rw [if_pos h, if_pos (show (d.isEmpty || (accumGate A).bIv.superset d) = true from h)]; exact ⟨rfl, rfl⟩
    · rw [if_neg h, if_neg (show ¬ (d.isEmpty || (accumGate A).bIv.superset d) = true from h)]; exact ⟨rfl, rfl⟩
  | finish d =>
    simp only [accumAct, Accum.gateEnd, Gate.act, Gate.finish]
    by_cases h : (d.isEmpty || A.eIv.superset d) = true
    · rw [if_pos h, if_pos (show (d.isEmpty || (accumGate A).eIv.superset d) = true from h)]; exact ⟨rfl, rfl⟩
    · rw [if_neg h, if_neg (show ¬ (d.isEmpty || (accumGate A).eIv.superset d) = true from h)]
      by_cases h2 : (!(Iv.union A.eIv d).superset A.bIv) = true
      · rw [if_pos h2, if_pos (show (!(Iv.union (accumGate A).eIv d).superset (accumGate A).bIv) = true from h2)]; exact ⟨rfl, rfl⟩
      · rw [if_neg h2, if_neg (show ¬ (!(Iv.union (accumGate A).eIv d).superset (accumGate A).bIv) = true from h2)]; exact ⟨rfl, rfl⟩

theorem points_act {V : Type} (s : Pts V) (r : Pts.Reads) (a : Gate.Act) :
    pointsGate (pointsAct s r a).1 = ((pointsGate s).act a).1 ∧
      (pointsAct s r a).2.map evIv = ((pointsGate s).act a).2.toList := by
  have ht : ∀ (b : Bool) (s : Pts V), pointsGate (if b then s.touch else s) = pointsGate s := by
    intro b s; cases b <;> rfl
  cases a with
  | begin d =>
    simp only [pointsAct, Pts.beginUpdate, Gate.act, Gate.begin]
    by_cases h : (d.isEmpty || s.bIv.superset d) = true
    · rw [if_pos h, if_pos (show (d.isEmpty || (pointsGate s).bIv.superset d) = true from h)]; exact ⟨rfl, rfl⟩
    · rw [if_neg h, if_neg (show ¬ (d.isEmpty || (pointsGate s).bIv.superset d) = true from h)]; simp only [ht]; exact ⟨rfl, rfl⟩
  | finish d =>
    simp only [pointsAct, Pts.endUpdate, Gate.act, Gate.finish]
    by_cases h : (d.isEmpty || s.eIv.superset d) = true
    · rw [if_pos h, if_pos (show (d.isEmpty || (pointsGate s).eIv.superset d) = true from h)]; exact ⟨rfl, rfl⟩
    · rw [if_neg h, if_neg (show ¬ (d.isEmpty || (pointsGate s).eIv.superset d) = true from h)]
      by_cases h2 : (!(Iv.union s.eIv d).superset s.bIv) = true
      · rw [if_pos h2, if_pos (show (!(Iv.union (pointsGate s).eIv d).superset (pointsGate s).bIv) = true from h2)]; exact ⟨rfl, rfl⟩
      · rw [if_neg h2, if_neg (show ¬ (!(Iv.union (pointsGate s).eIv d).superset (pointsGate s).bIv) = true from h2)]
        simp only [ht]
        exact ⟨rfl, rfl⟩

/-- C164: after any calls of `begin_update` and `end_update` a combination has the pending updates of the protocol, and has
announced what the protocol says. -/
theorem C164_joint (J : Joint) (as : List Gate.Act) :
    jointGate (jointRun J as).1 = ((jointGate J).run as).1 ∧
      (jointRun J as).2 = ((jointGate J).run as).2.map fun r => (r.1, r.2.toList) := by
  induction as generalizing J with
  | nil => exact ⟨rfl, rfl⟩
  | cons a as ih =>
    obtain ⟨h1, h2⟩ := joint_act J a
    obtain ⟨i1, i2⟩ := ih (jointAct J a).1
    rw [h1] at i1 i2
    simp only [jointRun, Gate.run, i1, i2, h2, List.map_cons, and_self]

/-- C164: and so has an accumulator. -/
theorem C164_accum (A : Accum) (as : List Gate.Act) :
    accumGate (accumRun A as).1 = ((accumGate A).run as).1 ∧
      (accumRun A as).2 = ((accumGate A).run as).2.map fun r => (r.1, r.2.toList) := by
  induction as generalizing A with
  | nil => exact ⟨rfl, rfl⟩
  | cons a as ih =>
    obtain ⟨h1, h2⟩ := accum_act A a
    obtain ⟨i1, i2⟩ := ih (accumAct A a).1
    rw [h1] at i1 i2
    simp only [accumRun, Gate.run, i1, i2, h2, List.map_cons, and_self]

/-- C164: and so has a list of points, whatever observers read in between. -/
theorem C164_points {V : Type} (s : Pts V) (as : List (Gate.Act × Pts.Reads)) :
    pointsGate (pointsRun s as).1 = ((pointsGate s).run (as.map Prod.fst)).1 ∧
      (pointsRun s as).2.map (fun r => (r.1, r.2.map evIv)) =
        ((pointsGate s).run (as.map Prod.fst)).2.map fun r => (r.1, r.2.toList) := by
  induction as generalizing s with
  | nil => exact ⟨rfl, rfl⟩
  | cons a as ih =>
    obtain ⟨a, r⟩ := a
    obtain ⟨h1, h2⟩ := points_act s r a
    obtain ⟨i1, i2⟩ := ih (pointsAct s r a).1
    rw [h1] at i1 i2
    simp only [pointsRun, Gate.run, i1, i2, h2, List.map_cons, and_self]

/-- C164: the rest of an accumulator and of a list of points is not touched, but for the cached domain. -/
theorem C164_rest (A : Accum) (as : List Gate.Act) {V : Type} (s : Pts V) (bs : List (Gate.Act × Pts.Reads)) :
    ((accumRun A as).1.src = A.src ∧ (accumRun A as).1.acc = A.acc ∧ (accumRun A as).1.current = A.current) ∧
      (pointsRun s bs).1.points = s.points ∧ (pointsRun s bs).1.interp = s.interp := by
  refine ⟨?_, ?_⟩
  · induction as generalizing A with
    | nil => exact ⟨rfl, rfl, rfl⟩
    | cons a as ih =>
      have h : (accumAct A a).1.src = A.src ∧ (accumAct A a).1.acc = A.acc ∧ (accumAct A a).1.current = A.current := by
        cases a with
        | begin d => simp only [accumAct, Accum.gateBegin]; split <;> simp
        | finish d =>
          simp only [accumAct, Accum.gateEnd]
          split
          · simp
          · split <;> simp
      have := ih (accumAct A a).1
      rw [h.1, h.2.1, h.2.2] at this
      exact this
  · induction bs generalizing s with
    | nil => exact ⟨rfl, rfl⟩
    | cons a as ih =>
      obtain ⟨a, r⟩ := a
      have ht : ∀ (b : Bool) (s : Pts V), (if b then s.touch else s).points = s.points ∧ (if b then s.touch else s).interp = s.interp := by
        intro b s; cases b <;> exact ⟨rfl, rfl⟩
      have h : (pointsAct s r a).1.points = s.points ∧ (pointsAct s r a).1.interp = s.interp := by
        cases a with
        | begin d => simp only [pointsAct, Pts.beginUpdate]; split <;> simp [ht]
        | finish d =>
          simp only [pointsAct, Pts.endUpdate]
          split
          · simp
          · split <;> simp [ht]
      have := ih (pointsAct s r a).1
      rw [h.1, h.2] at this
      exact this

/-- C164: a combination drops its domain whenever an end is announced, and only then. -/
theorem C164_cache (J : Joint) (a : Gate.Act) :
    (jointAct J a).1.cache = match a with
      | .begin _ => J.cache
      | .finish _ => if (jointAct J a).2 = [] then J.cache else none := by
  cases a with
  | begin d => simp only [jointAct, Joint.onBegin]; split <;> simp
  | finish d =>
    simp only [jointAct, Joint.onEnd]
    split
    · simp
    · split <;> simp

/-- C164: whatever overlaps, once every update that was begun has ended no new combination, accumulator or list of points is
updating. -/
theorem C164_quiescent (J : Joint) (A : Accum) {V : Type} (s : Pts V) (rs : Gate.Act → Pts.Reads)
    (hJ : jointGate J = .init) (hA : accumGate A = .init) (hs : pointsGate s = .init) (as : List Gate.Act)
    (hm : ∀ pre I post, as = pre ++ .begin I :: post → .finish I ∈ post) :
    (jointRun J as).1.bIv.isEmpty = true ∧ (accumRun A as).1.bIv.isEmpty = true ∧
      (pointsRun s (as.map fun a => (a, rs a))).1.isUpdating = false := by
  have hq := C21_quiescent as hm
  have h1 := (C164_joint J as).1
  have h2 := (C164_accum A as).1
  have h3 := (C164_points s (as.map fun a => (a, rs a))).1
  rw [hJ] at h1; rw [hA] at h2; rw [hs] at h3
  rw [List.map_map, show (Prod.fst ∘ fun a => (a, rs a)) = id from rfl, List.map_id] at h3
  rw [Gate.isUpdating, Bool.not_eq_false'] at hq
  refine ⟨?_, ?_, ?_⟩
  · rw [← h1] at hq; exact hq
  · rw [← h2] at hq; exact hq
  · rw [← h3] at hq; simp only [Pts.isUpdating, Bool.not_eq_false']; exact hq

/-- Two updates that overlap and end in the opposite order: nothing ends before both have. -/
example :
    let J : Joint := ⟨some Iv.empty, Iv.empty, Iv.empty⟩
    let as : List Gate.Act := [.begin (Iv.closed 0 1), .begin (Iv.closed 3 4), .finish (Iv.closed 3 4), .finish (Iv.closed 0 1)]
    (jointRun J as).2.map Prod.snd = [[Iv.closed 0 1], [Iv.closed 3 4], [], [Iv.closed 0 4]] ∧
    (jointRun J as).1.cache = none ∧ (jointRun J (as.take 3)).1.cache = some Iv.empty := by decide +kernel
example :
    let A := Accum.new (even .linear) 1
    let as : List Gate.Act := [.begin (Iv.closed 0 1), .begin (Iv.closed 3 4), .finish (Iv.closed 3 4), .finish (Iv.closed 0 1)]
    accumGate A = .init ∧ (accumRun A as).2.map Prod.snd = [[Iv.closed 0 1], [Iv.closed 3 4], [], [Iv.closed 0 4]] := by
  decide +kernel
/-! ## An instance of each theorem -/

/-- Two updates, one within the other. -/
def nestedActs : List Gate.Act :=
  [.begin (Iv.closed 0 1), .begin (Iv.closed 3 4), .finish (Iv.closed 3 4), .finish (Iv.closed 0 1)]

/-- Three kinds of curves announce the same. -/
example (r : Pts.Reads) :
    (jointRun ⟨none, Iv.empty, Iv.empty⟩ nestedActs).2.map Prod.snd = (accumRun (Accum.new (even .linear) 1) nestedActs).2.map Prod.snd ∧
    (pointsRun (even .linear) (nestedActs.map fun a => (a, r))).2.map (fun q => q.2.map evIv) =
      (accumRun (Accum.new (even .linear) 1) nestedActs).2.map Prod.snd := by
  have hg : accumGate (Accum.new (even .linear) 1) = .init := rfl
  have hj : jointGate ⟨none, Iv.empty, Iv.empty⟩ = .init := rfl
  have hp : pointsGate (even .linear) = .init := by decide +kernel
  have e : (nestedActs.map fun a => (a, r)).map Prod.fst = nestedActs := rfl
  have h3 := congrArg (List.map Prod.snd) (C164_points (even .linear) (nestedActs.map fun a => (a, r))).2
  rw [List.map_map, hp, e] at h3
  refine ⟨?_, ?_⟩
  · rw [(C164_joint _ _).2, (C164_accum _ _).2, hg, hj]
  · rw [(C164_accum _ _).2, hg]
    exact h3

example : (accumRun (Accum.new (even .linear) 1) nestedActs).1.src = even .linear :=
  (C164_rest (Accum.new (even .linear) 1) nestedActs (even .linear) []).1.1

/-- The domain is forgotten with the last end only. -/
example : (jointAct ⟨some (Iv.closed 0 4), Iv.empty, Iv.empty⟩ (.begin (Iv.closed 0 1))).1.cache = some (Iv.closed 0 4) := by
  rw [C164_cache]

example : (jointRun ⟨none, Iv.empty, Iv.empty⟩ [.begin (Iv.closed 0 1), .finish (Iv.closed 0 1)]).1.bIv.isEmpty = true := by
  refine (C164_quiescent _ (Accum.new (even .linear) 1) (even .linear) (fun _ => ⟨false, false⟩) rfl rfl (by decide +kernel) _ ?_).1
  intro pre I post h
  match pre with
  | [] => simp at h; obtain ⟨rfl, rfl⟩ := h; simp
  | [a] => simp at h
  | a :: b :: pre => simp at h

end Props
end Curvepy
