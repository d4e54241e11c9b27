import Verif.Model.Curve
import Verif.Spec.Update

/-!
# What combined curves may be expected to be
-/

namespace Curvepy.Spec

/-- The curves denoted by `args` have the values `vals` at `x` (and none of them raises). -/
def ValuesAt (args : List Crv.Arg) (x : Ext) (vals : List (Option Num)) : Prop :=
  args.map (fun a => (Crv.parse a).y x) = vals.map .ok

/-- `x` is in the domain of all curves denoted by `args`. -/
def InAll (args : List Crv.Arg) (x : Ext) : Prop :=
  ∀ a ∈ args, (Crv.parse a).dom.contains x = true

/-- The curve is `None` outside its domain. -/
def Respects (c : Crv) : Prop := ∀ x, c.dom.contains x = false → c.y x = .ok none

/-- `m` is a value in the list and no value in the list is smaller. -/
def IsLeastValue (vals : List (Option Num)) (m : Num) : Prop :=
  some m ∈ vals ∧ ∀ v, some v ∈ vals → Num.le m v = true

/-- `m` is a value in the list and no value in the list is greater. -/
def IsGreatestValue (vals : List (Option Num)) (m : Num) : Prop :=
  some m ∈ vals ∧ ∀ v, some v ∈ vals → Num.le v m = true

/-- The `r` is the first value that is not `None`. -/
def FirstDefined (vals : List (Option Num)) (r : Option Num) : Prop :=
  (r = none ∧ ∀ o ∈ vals, o = none) ∨
  ∃ v l1 l2, r = some v ∧ vals = l1 ++ some v :: l2 ∧ ∀ o ∈ l1, o = none

/-- The pieces are disjoint and ascending. -/
def AscendingPieces (ds : List Iv) : Prop :=
  ds.Pairwise fun d e => ∀ x y, d.contains x = true → e.contains y = true → x < y

/-- Two curves with the same domain and values. -/
def SameValues (c d : Crv) : Prop := (∀ x, c.dom.contains x = d.dom.contains x) ∧ ∀ x, c.y x = d.y x

/-- Contract of `Interval.partition([s, t])` (package intervalpy) for `s`, `t` that leave three
parts: consecutive parts that make up the interval; which part gets `s` and `t` is left open. -/
structure Partition (dom : Iv) (s t : ℚ) (p q r : Iv) : Prop where
  cover : ∀ x, dom.contains x = true ↔
    p.contains x = true ∨ q.contains x = true ∨ r.contains x = true
  left : ∀ x, p.contains x = true → x ≤ .fin s
  middle : ∀ x, q.contains x = true → .fin s ≤ x ∧ x ≤ .fin t
  right : ∀ x, r.contains x = true → .fin t ≤ x
  asc : AscendingPieces [p, q, r]

/-- The linear crossfade from `f` to `g` between `s` and `t`: weight 0 for `g` up to `s`, 1 from `t`. -/
def crossfade (s t : ℚ) (f g : ℚ → ℚ) (x : ℚ) : ℚ :=
  let u := max 0 (min 1 ((x - s) / (t - s)))
  (1 - u) * f x + u * g x

/-- Its next/previous positions depend on the caller's minimum step only through the resolved one,
as in every class of the library that does not merely pass it on. -/
def Resolves (c : Crv) : Prop :=
  ∀ x m l, c.xNext x m l = c.xNext x (Crv.resolve c.minStep m) l ∧
    c.xPrevious x m l = c.xPrevious x (Crv.resolve c.minStep m) l

end Curvepy.Spec
