import Verif.Model.Extension

/-!
# What is taken as a curve, and extensions by name

`Curve.parse`, `Curve.parse_many`, the way functions of many curves collect their arguments, and `Curve.extension`.

Simplifications: a sequence of points holds pairs of numbers (the second may be `None`), and `Points` refuses anything else with a
`TypeError`; what `Curve.parse_descriptor` makes of a mapping is given (see `Model/Descriptor`).
-/

namespace Curvepy

/-- A Python value that is given as a curve. -/
inductive PyArg where
  | nothing
  /-- a curve, a function or a number -/
  | one (a : Crv.Arg)
  /-- a `list` or `tuple` -/
  | list (l : List PyArg)
  /-- a `list` or `tuple` of a number and a number or `None` -/
  | pair (x : ℚ) (y : Option ℚ)
  /-- a `str` -/
  | text (s : List Char)
  /-- a mapping, with what it describes -/
  | mapping (d : Except Err (Option Crv))
  /-- anything else -/
  | object

namespace PyArg

/-- `isinstance(func, Sequence)`. -/
def isSequence : PyArg → Bool
  | list _ => true
  | pair _ _ => true
  | text _ => true
  | _ => false

/-- The items of a sequence. -/
def items : PyArg → List PyArg
  | list l => l
  | pair x y => [.one (.number (.fin x)), match y with
    | some y => .one (.number (.fin y))
    | none => .nothing]
  | text s => s.map fun c => .text [c]
  | _ => []

/-- The items of a sequence as points. -/
def points : List PyArg → Except Err (List (Pt ℚ))
  | [] => .ok []
  | pair x y :: l => do
    let ps ← points l
    pure ((x, y) :: ps)
  | _ :: _ => .error .type

/-- `Points(func)` (`points.py:38-53`). -/
def ofPoints (l : List PyArg) : Except Err (Option Crv) := do
  let ps ← points l
  let s ← Pts.new ps
  pure (some (Crv.ofPoints s))

/-- `Curve.parse` (`curve.py:851-875`). -/
def parse (a : PyArg) : Except Err (Option Crv) :=
  match a with
  | nothing => .ok none
  | one a => .ok (some (Crv.parse a))
  | mapping d => d
  | a =>
    if a.isSequence then
      match a.items with
      | [] => ofPoints []
      | f :: l => if f.isSequence && f.items.length == 2 then ofPoints (f :: l) else .error .exception
    else .error .exception

/-- The first lines of functions of many curves (`curve.py:686-687`, `701-702`, `741-742`, …, `1057-1058`,
`aggregate.py:16-17`). -/
def gather (funcs : PyArg) (args : List PyArg) : PyArg := if !funcs.isSequence then .list (funcs :: args) else funcs

/-- `list(map(cls.parse, funcs))` (`curve.py:1059`). -/
def parseAll : List PyArg → Except Err (List (Option Crv))
  | [] => .ok []
  | a :: l => do
    let c ← a.parse
    let cs ← parseAll l
    pure (c :: cs)

/-- `Curve.parse_many` (`curve.py:1055-1059`). -/
def parseMany (funcs : PyArg) (args : List PyArg) : Except Err (List (Option Crv)) := parseAll (gather funcs args).items

/-- No curve may be missing: `f.add_observer` of `None` (`aggregate.py:27-28`). -/
def present : List (Option Crv) → Except Err (List Crv)
  | [] => .ok []
  | none :: _ => .error .attribute
  | some c :: l => do
    let cs ← present l
    pure (c :: cs)

/-- A function of many curves (`curve.py:681-840`, `aggregate.py:15-28`): `combine` is the rest. -/
def many (combine : List Crv → Crv) (funcs : PyArg) (args : List PyArg := []) : Except Err Crv := do
  let cs ← parseMany (gather funcs args) []
  let cs ← present cs
  pure (combine cs)

/-- `Curve.add_many` (`curve.py:739-750`). -/
def add (funcs : PyArg) (args : List PyArg := []) : Except Err Crv :=
  many (fun cs => Crv.aggregate cs fun _ ys => .ok (Crv.addF ys)) funcs args

/-- `Curve.first` (`curve.py:681-697`). -/
def first (funcs : PyArg) (args : List PyArg := []) : Except Err Crv :=
  many (fun cs => Crv.aggregate cs (fun _ vs => .ok (Crv.firstVal vs)) (union := true)) funcs args

/-- `a + b` (`curve.py:1075-1076`). -/
def plus (a : Crv) (b : PyArg) : Except Err Crv := add (.list [.one (.curve a), b])

/-- `b + a` (`curve.py:1090-1091`). -/
def rplus (a : Crv) (b : PyArg) : Except Err Crv := add (.list [b, .one (.curve a)])

/-- `Curve.zero` (`curve.py:841-844`). -/
def zero (_value : PyArg) : Crv := Crv.constant (.fin 0)

end PyArg

/-- What `Curve.extension` returns. -/
inductive NamedExtn where
  | constant (s : Extn (Option Num))
  | tangent (s : Extn Extn.Tan)
  /-- the period, `start`, `end` and `raise_on_empty` -/
  | sin (period : ℚ) (start stop raiseOnEmpty : Bool)
deriving DecidableEq, Repr

/-- The classes of extensions (`extension/constant.py:11`, `extension/tangent.py:11`, `extension/sin.py:11`). -/
inductive ExtnClass where
  | constant
  | tangent
  | sin
deriving DecidableEq, Repr

/-- Their names. -/
def ExtnClass.name : ExtnClass → String
  | .constant => "constant"
  | .tangent => "tangent"
  | .sin => "sin"

/-- Calling the class; `period` is the only other argument that is modelled (`extension/sin.py:13-16`). -/
def ExtnClass.make (k : ExtnClass) (c : Crv) (start stop raiseOnEmpty : Bool) (period : Option ℚ) : Except Err NamedExtn :=
  match k, period with
  | .constant, none => .ok (.constant (Extn.mk' Extn.constant c start stop raiseOnEmpty))
  | .tangent, none => .ok (.tangent (Extn.mk' (Extn.tangent (1 / 100000)) c start stop raiseOnEmpty))
  | .sin, p =>
    let p := p.getD 0
    if p ≤ 0 then .error .assertion
    else .ok (.sin p (start && !c.dom.isNegInf) (stop && !c.dom.isPosInf) raiseOnEmpty)
  | _, some _ => .error .type

/-- `Curve.extension` (`curve.py:544-559`). -/
def Crv.extension (c : Crv) (name : String) (start : Bool := false) (stop : Bool := true) (raiseOnEmpty : Bool := false)
    (period : Option ℚ := none) : Except Err NamedExtn :=
  match [ExtnClass.constant, .tangent, .sin].find? (fun k => k.name == name) with
  | some k => k.make c start stop raiseOnEmpty period
  | none => .error .exception

end Curvepy
