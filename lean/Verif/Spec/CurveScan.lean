import Verif.Model.CurveScan
import Verif.Spec.Accumulator

/-!
# Histories of accumulators over any curve, and RSI
-/

namespace Curvepy
namespace Spec

/-- The curve has the knots `pts`: it is defined from the first to the last of them, has their values, and whoever
steps along the curve towards a position in `Q`, in steps of at least `m`, meets them one after another. -/
structure Stepped (Q : ℚ → Prop) (m : ℚ) (c : Crv) (pts : List (Pt ℚ)) : Prop where
  ne : pts ≠ []
  dom : ∀ x, c.dom.contains x = (span pts).contains x
  lo : c.dom.lo = (span pts).lo
  val : ∀ p ∈ pts, c.y (.fin p.1) = .ok (p.2.map .fin)
  next : ∀ pre p q rest, pts = pre ++ p :: q :: rest → ∀ x, Q x → p.1 < x →
    c.xNext (.fin p.1) (some (.fin m)) (some (.fin x)) = .ok (some (.fin q.1))

/-- The curve shows the knots `pts` to whoever steps along it towards a position in `Q`, in steps of at least `m`: its
domain begins with the first of them, they have their values there, and after the last one nothing comes. -/
structure Shown (Q : ℚ → Prop) (m : ℚ) (c : Crv) (pts : List (Pt ℚ)) : Prop where
  ne : pts ≠ []
  dom : ∀ p ∈ pts, c.dom.contains (.fin p.1) = true
  lo : c.dom.lo = (span pts).lo
  val : ∀ p ∈ pts, c.y (.fin p.1) = .ok (p.2.map .fin)
  next : ∀ pre p q rest, pts = pre ++ p :: q :: rest → ∀ x, Q x → p.1 < x →
    c.xNext (.fin p.1) (some (.fin m)) (some (.fin x)) = .ok (some (.fin q.1))
  last : ∀ pre p, pts = pre ++ [p] → ∀ x, Q x → c.dom.contains (.fin x) = true → p.1 < x →
    c.xNext (.fin p.1) (some (.fin m)) (some (.fin x)) = .ok none

/-- The value at `x` of the curve accumulated over the knots, for a curve with the domain `dom`: after the last knot
there is none, but an exception on the way is still raised. -/
def accumulatedIn (dom : Iv) (g : Rule) (mode : Interp) (pts : List (Pt ℚ)) (x : ℚ) : Except Err (Option ℚ) :=
  if dom.contains (.fin x) then
    match runRule g [] [] (upTo x pts) with
    | (out, none) => .ok (valueAt mode out x)
    | (_, some e) => .error e
  else .ok none

/-- The points that someone meets who walks from `a` in steps of at least `m`. -/
def metFrom (m : ℚ) : ℚ → List (Pt ℚ) → List (Pt ℚ)
  | _, [] => []
  | a, p :: ps => if a + m ≤ p.1 then p :: metFrom m p.1 ps else metFrom m a ps

/-- The points that someone meets who begins with the first and walks in steps of at least `m`. -/
def met (m : ℚ) : List (Pt ℚ) → List (Pt ℚ)
  | [] => []
  | p :: ps => p :: metFrom m p.1 ps

/-- What a transform that looks at its arguments only writes at the last knot. -/
def plainRule (t : ℚ → Option ℚ → Option ℚ → Except Err (Option ℚ)) : Rule := fun knots out =>
  match knots.getLast? with
  | none => .ok none
  | some p => t p.1 p.2 (lastOut out)

/-- Accumulators over `c` after queries at positions in `Q` that did not raise. -/
inductive Asked (Q : ℚ → Prop) (c : Crv) (t : PTfm) (m : ℚ) (i : Interp) (u : Bool) : CScan → Prop where
  | new : Asked Q c t m i u (CScan.new m i u)
  | query {A B : CScan} {n : ℕ} {x : ℚ} {v : Option ℚ} (h : Asked Q c t m i u A) (hx : Q x)
      (e : A.query c t n (.fin x) = some (.ok (B, v))) : Asked Q c t m i u B

/-- An RSI after queries at positions in `Q` that did not raise. -/
inductive RsiAsked (Q : ℚ → Prop) (c : Crv) (degree m : ℚ) (u : Bool) : Rsi → Prop where
  | new {R : Rsi} (e : Rsi.new c degree m u = .ok R) : RsiAsked Q c degree m u R
  | query {R S : Rsi} {n : ℕ} {x : ℚ} {v : Option Num} (h : RsiAsked Q c degree m u R) (hx : Q x)
      (e : R.query n (.fin x) = some (.ok (S, v))) : RsiAsked Q c degree m u S

/-- Slope from each point to the one before it, where both have a value. -/
def slopes : Option (Pt ℚ) → List (Pt ℚ) → List (Option ℚ)
  | _, [] => []
  | prev, p :: ps =>
    (match prev, p.2 with
      | some (x0, some y0), some y => some ((y - y0) / (p.1 - x0))
      | _, _ => none) :: slopes (some p) ps

/-- The rises among the slopes; 0 where there is none. -/
def rise (s : Option ℚ) : ℚ := match s with | some q => max q 0 | none => 0

/-- The falls among the slopes, as positive numbers; 0 where there is none. -/
def fall (s : Option ℚ) : ℚ := match s with | some q => max (-q) 0 | none => 0

/-- Average of some numbers with weights that decay, the last one with weight `a`. -/
def decayed (a : ℚ) : List ℚ → ℚ
  | [] => 0
  | v :: vs => vs.foldl (fun e w => (1 - a) * e + a * w) v

/-- Relative strength index of average rises and falls. -/
def strength (u d : ℚ) : ℚ := if d = 0 then 100 else 100 - 100 / (1 + u / d)

end Spec
end Curvepy
