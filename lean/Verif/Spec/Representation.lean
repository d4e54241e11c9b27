import Verif.Model.Representation

/-!
# Reading expressions

A reader of expressions with the precedences of Python: sums, products, signs, calls of methods, calls of functions of two
arguments, numbers, names and brackets; and what the expressions mean.
-/

namespace Curvepy
namespace Spec
open Repr (Tok Shown)

/-- Expressions. -/
inductive Ex where
  | x
  | num (q : ℚ)
  | word (s : String)
  | neg (a : Ex)
  | add (a b : Ex)
  | sub (a b : Ex)
  | mul (a b : Ex)
  /-- `a.f(b)` -/
  | call (a : Ex) (f : String) (b : Ex)
  /-- `f(a, b)` -/
  | apply (f : String) (a b : Ex)
deriving DecidableEq

/-- What is to be read next. -/
inductive ReadStage where
  | sum | moreSum (a : Ex) | prod | moreProd (a : Ex) | sign | post | morePost (a : Ex) | atom

/-- Reads a part of an expression; also gives what comes after it. -/
def readPart : ℕ → ReadStage → List Tok → Option (Ex × List Tok)
  | 0, _, _ => none
  | n + 1, .sum, ts => (readPart n .prod ts).bind fun r => readPart n (.moreSum r.1) r.2
  | n + 1, .moreSum a, .plus :: ts => (readPart n .prod ts).bind fun r => readPart n (.moreSum (.add a r.1)) r.2
  | n + 1, .moreSum a, .minus :: ts => (readPart n .prod ts).bind fun r => readPart n (.moreSum (.sub a r.1)) r.2
  | _ + 1, .moreSum a, ts => some (a, ts)
  | n + 1, .prod, ts => (readPart n .sign ts).bind fun r => readPart n (.moreProd r.1) r.2
  | n + 1, .moreProd a, .times :: ts => (readPart n .sign ts).bind fun r => readPart n (.moreProd (.mul a r.1)) r.2
  | _ + 1, .moreProd a, ts => some (a, ts)
  | n + 1, .sign, .minus :: ts => (readPart n .sign ts).map fun r => (.neg r.1, r.2)
  | n + 1, .sign, ts => readPart n .post ts
  | n + 1, .post, ts => (readPart n .atom ts).bind fun r => readPart n (.morePost r.1) r.2
  | n + 1, .morePost a, .dot :: .word f :: .lp :: ts =>
    (readPart n .sum ts).bind fun r =>
      match r.2 with
      | .rp :: ts => readPart n (.morePost (.call a f r.1)) ts
      | _ => none
  | _ + 1, .morePost a, ts => some (a, ts)
  | _ + 1, .atom, .x :: ts => some (.x, ts)
  | _ + 1, .atom, .num q :: ts => some (.num q, ts)
  | n + 1, .atom, .word f :: .lp :: ts =>
    (readPart n .sum ts).bind fun r =>
      match r.2 with
      | .comma :: ts => (readPart n .sum ts).bind fun s =>
        match s.2 with
        | .rp :: ts => some (.apply f r.1 s.1, ts)
        | _ => none
      | _ => none
  | _ + 1, .atom, .word s :: ts => some (.word s, ts)
  | n + 1, .atom, .lp :: ts =>
    (readPart n .sum ts).bind fun r =>
      match r.2 with
      | .rp :: ts => some (r.1, ts)
      | _ => none
  | _ + 1, .atom, _ => none

/-- The expression that a text is. -/
def readText (ts : List Tok) : Option Ex :=
  match readPart (8 * ts.length + 8) .sum ts with
  | some (e, []) => some e
  | _ => none

/-- The value of an expression in `x`, without names and calls. -/
def Ex.value (x : ℚ) : Ex → Option ℚ
  | .x => some x
  | .num q => some q
  | .neg a => (a.value x).map (- ·)
  | .add a b => (a.value x).bind fun v => (b.value x).map (v + ·)
  | .sub a b => (a.value x).bind fun v => (b.value x).map (v - ·)
  | .mul a b => (a.value x).bind fun v => (b.value x).map (v * ·)
  | _ => none

/-- The number that a literal is. -/
def Ex.literal : Ex → Option ℚ
  | .num q => some q
  | .neg (.num q) => some (-q)
  | _ => none

/-- The curve that an expression makes: `offset(k)`, `sma(n)` and `ema(a)` as methods of curves with their defaults, by which
`sma` counts points and `ema` takes the weight (`curve.py:491-493`, `curve.py:589-595`, `sma.py:45-47`). -/
def Ex.curve : Ex → Option Shown
  | .word s => some (.named s)
  | .apply f a b => a.curve.bind fun c => b.curve.map fun d => .both f c d
  | .call a f b => a.curve.bind fun c => b.literal.bind fun q =>
    if f = "offset" then some (.offset c q none)
    else if f = "sma" then if 1 ≤ q then some (.sma c (.degree ⌊q⌋₊)) else none
    else if f = "ema" then some (.ema c (some q) none)
    else none
  | _ => none

/-- Curves with names, two of them combined, offsets by numbers, averages over numbers of points and with weights. -/
def PlainShown : Shown → Prop
  | .named _ => True
  | .line _ _ => False
  | .both _ a b => PlainShown a ∧ PlainShown b
  | .offset c _ d => PlainShown c ∧ d = none
  | .sma c w => PlainShown c ∧ ∃ n, 1 ≤ n ∧ w = .degree n
  | .ema c a p => PlainShown c ∧ ∃ q, q ≠ 0 ∧ a = some q ∧ p = none

end Spec
end Curvepy
