import Verif.Model.Line
import Verif.Model.Sma

/-!
# What curves are shown as: `__repr__`

Model of `curve.py:62-68`, `line.py:21-34`, `aggregate.py:33-48`, `offset.py:31-35`, `sma.py:50-54` and `ema.py:23-27`.
A text is a list of tokens: names are single tokens, a number is its literal, with a sign before it if it is below `0`; blanks
are left out.  Names of curves are not empty (else the type and the domain are shown).  The branches for exceptions raised while
a text is made are not modelled, nor are the texts of curves other than those of `Shown`.
-/

namespace Curvepy
namespace Repr
open Sma (Window)

inductive Tok where
  | x | num (q : ℚ) | word (s : String) | minus | plus | times | dot | comma | lp | rp
deriving DecidableEq

/-- Curves, as far as it matters for what they are shown as. -/
inductive Shown where
  | named (name : String)
  /-- A line with a finite slope. -/
  | line (ref : ℚ × ℚ) (slope : ℚ)
  /-- `Aggregate` of two curves with a name, as `add_many` and the others make it (`curve.py:697-839`). -/
  | both (op : String) (a b : Shown)
  /-- `Offset`, perhaps counted in units of a duration. -/
  | offset (c : Shown) (k : ℚ) (duration : Option String)
  | sma (c : Shown) (w : Window)
  | ema (c : Shown) (alpha period : Option ℚ)
deriving DecidableEq

/-- A number. -/
def numText (q : ℚ) : List Tok := if q < 0 then [.minus, .num (-q)] else [.num q]

/-- A number or `None`. -/
def optText : Option ℚ → List Tok
  | none => [.word "None"]
  | some q => numText q

/-- `a or b`. -/
def orOpt (a b : Option ℚ) : Option ℚ :=
  match a with
  | some q => if q = 0 then b else some q
  | none => b

/-- `Line.__repr__` (`line.py:21-32`). -/
def lineText (ref : ℚ × ℚ) (slope : ℚ) : List Tok :=
  (if ref.1 = 0 then [.x] else [.lp, .x, .minus] ++ numText ref.1 ++ [.rp]) ++ [.times] ++ numText slope ++
    (if ref.2 = 0 then [] else .plus :: numText ref.2)

/-- `self.degree or self.period` (`sma.py:52`). -/
def windowText : Window → List Tok
  | .degree n => optText (orOpt (some n) none)
  | .period p => optText (orOpt none (some p))

/-- `__repr__`. -/
def text : Shown → List Tok
  | .named s => [.word s]      -- `curve.py:64-65`
  | .line r k => lineText r k
  | .both op a b => .word op :: .lp :: (text a ++ .comma :: (text b ++ [.rp]))      -- `aggregate.py:35-36`
  | .offset c k _ => text c ++ .dot :: .word "offset" :: .lp :: (numText k ++ [.rp])      -- `offset.py:33`
  | .sma c w => text c ++ .dot :: .word "sma" :: .lp :: (windowText w ++ [.rp])      -- `sma.py:52`
  | .ema c a p => text c ++ .dot :: .word "ema" :: .lp :: (optText (orOpt a p) ++ [.rp])      -- `ema.py:25`

end Repr
end Curvepy
