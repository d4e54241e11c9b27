import Verif.Spec.Interp

/-!
# What accumulating over a list of knots means

A fold over the knots, written without any state: no positions, no caches, no updates.
-/

namespace Curvepy
namespace Spec

/-- What to write at the last of the given knots, knowing what was written at those before. -/
abbrev Rule := List (Pt ℚ) → List (Pt ℚ) → Except Err (Option ℚ)

/-- Go through `todo`, after `seen` led to `out`; stop at the first exception. -/
def runRule (g : Rule) (seen out : List (Pt ℚ)) : List (Pt ℚ) → List (Pt ℚ) × Option Err
  | [] => (out, none)
  | p :: ps =>
    match g (seen ++ [p]) out with
    | .error e => (out, some e)
    | .ok v => runRule g (seen ++ [p]) (out ++ [(p.1, v)]) ps

/-- The result at the last knot written so far. -/
def lastOut (out : List (Pt ℚ)) : Option ℚ := (out.getLast?.map Prod.snd).getD none

/-- The calls of the transform that this takes: position, value, previous result. -/
def ruleCalls (g : Rule) (seen out : List (Pt ℚ)) : List (Pt ℚ) → List (ℚ × Option ℚ × Option ℚ)
  | [] => []
  | p :: ps =>
    (p.1, p.2, lastOut out) ::
      match g (seen ++ [p]) out with
      | .error _ => []
      | .ok v => ruleCalls g (seen ++ [p]) (out ++ [(p.1, v)]) ps

/-- The knots up to and including the first one at or after `x`. -/
def upTo (x : ℚ) : List (Pt ℚ) → List (Pt ℚ)
  | [] => []
  | p :: ps => if p.1 < x then p :: upTo x ps else [p]

/-- The value at `x` of the curve accumulated over the knots. -/
def accumulatedAt (g : Rule) (mode : Interp) (pts : List (Pt ℚ)) (x : Ext) :
    Except Err (Option ℚ) :=
  match x with
  | .fin q =>
    if (span pts).contains (.fin q) then
      match runRule g [] [] (upTo q pts) with
      | (out, none) => .ok (valueAt mode out q)
      | (_, some e) => .error e
    else .ok none
  | _ => .ok none

/-- Neighbours are at least `m` apart. -/
def Gapped (m : ℚ) (pts : List (Pt ℚ)) : Prop := pts.IsChain (fun p q => p.1 + m ≤ q.1)

/-- No knot lies, by accident, one average gap after its predecessor: whenever the last gap of
a beginning of the list equals the average of the earlier gaps, that beginning is equally
spaced. -/
def NoFluke (pts : List (Pt ℚ)) : Prop :=
  ∀ (pre : List (Pt ℚ)) (p q r : Pt ℚ), (p :: (pre ++ [q, r])) <+: pts →
    r.1 - q.1 = (q.1 - p.1) / (pre.length + 1) → EquallySpaced (p :: (pre ++ [q, r]))

/-- Sources that can be accumulated: gaps of at least `m`, no accidents, and equally spaced if
`uniform` was demanded. -/
structure Fit (m : ℚ) (u : Bool) (pts : List (Pt ℚ)) : Prop where
  gapped : Gapped m pts
  noFluke : NoFluke pts
  uniform : u = true → EquallySpaced pts

/-- A rule that needs only the previous knot, the previous result and the knot. -/
def stepRule (f : Option (Pt ℚ) → Option ℚ → Pt ℚ → Option ℚ) : Rule := fun knots out =>
  match knots.getLast? with
  | none => .ok none
  | some p => .ok (f knots.dropLast.getLast? (lastOut out) p)

/-- Its result after all knots. -/
def stepFold (f : Option (Pt ℚ) → Option ℚ → Pt ℚ → Option ℚ) :
    Option (Pt ℚ) → Option ℚ → List (Pt ℚ) → Option ℚ
  | _, r, [] => r
  | prev, r, p :: ps => stepFold f (some p) (f prev r p) ps

/-- Exponential moving average: the first value, or `init` there; then a fraction of the way to
each further value.  Missing values are skipped. -/
def emaStep (fraction : ℚ → ℚ → ℚ) (init : Option (ℚ → Option ℚ)) (prev : Option (Pt ℚ))
    (e : Option ℚ) (p : Pt ℚ) : Option ℚ :=
  match p.2, e with
  | none, e => e
  | some y, none => match init with | none => some y | some f => f p.1
  | some y, some e => some (e + (match prev with | some q => fraction q.1 p.1 | none => 0) * (y - e))

/-- Area between two knots: trapezoid, or rectangle with the left or right height. -/
def areaBetween (mode : Interp) (x0 y0 x y : ℚ) : ℚ :=
  match mode with
  | .linear => (x - x0) * ((y0 + y) / 2)
  | .previous => (x - x0) * y0
  | .next => (x - x0) * y

/-- Running area: starts at `0` with the first value, grows where both ends are defined. -/
def areaStep (mode : Interp) (prev : Option (Pt ℚ)) (s : Option ℚ) (p : Pt ℚ) : Option ℚ :=
  match p.2 with
  | none => s
  | some y =>
    match prev with
    | some (x0, some y0) => some (s.getD 0 + areaBetween mode x0 y0 p.1 y)
    | _ => some (s.getD 0)

/-- Sum of the areas between neighbours. -/
def totalArea (mode : Interp) : List (ℚ × ℚ) → ℚ
  | p :: q :: ps => areaBetween mode p.1 p.2 q.1 q.2 + totalArea mode (q :: ps)
  | _ => 0

/-- Points that all have values. -/
def defined (l : List (ℚ × ℚ)) : List (Pt ℚ) := l.map fun p => (p.1, some p.2)

end Spec
end Curvepy
