import Verif.Model.Py
import Mathlib.Analysis.SpecialFunctions.Log.Base

/-!
# `curvepy/curve.py`: function descriptors

`Curve.parse_descriptor` (`curve.py:877-1053`): a curve from nested data.

Simplifications: keys of mappings are given with their prefix split off and, for logarithms, the base read;
`bool` and `bytes` values are left out; numbers are exact; the curves, their methods, `Curve.parse`
and `arrow.get` are parameters; the recursion depth of the interpreter is the first argument of `parse`.
-/

namespace Curvepy

namespace Desc

/-- Base of a logarithm in a name `log...` (`curve.py:945-946`, `967-968`): `int(base_str)` or `math.e`. -/
inductive Base where
  | e
  | nat (b : ℕ)
  /-- `int(base_str)` fails -/
  | bad (s : String)
deriving DecidableEq, Repr

/-- Name of a decorator: the key without `@`. -/
inductive Deco where
  | log (b : Base)
  | args
  | date
  | other (s : String)
deriving DecidableEq, Repr

/-- Name of a function: the key without `$`. -/
inductive Fn where
  /-- `const` or `constant` -/
  | const
  | line
  | log (b : Base)
  | other (s : String)
deriving DecidableEq, Repr

/-- Key of a mapping. -/
inductive Key where
  | deco (o : Deco)
  | func (f : Fn)
  | plain (s : String)
deriving DecidableEq, Repr

/-- Python values in descriptors and results. -/
inductive Val (C : Type) where
  | null
  | num (r : ℝ)
  | str (s : String)
  | list (l : List (Val C))
  | map (m : List (Key × Val C))
  | curve (c : C)

variable {C : Type}

/-- Arguments by name. -/
abbrev Kw (C : Type) := List (Key × Val C)

/-- What `parse_descriptor` takes from elsewhere. -/
structure Lib (C : Type) where
  /-- `Constant(*args, **kwargs)` -/
  constant : List (Val C) → Kw C → Except Err (Val C)
  /-- `Line(*args, **kwargs)` -/
  line : List (Val C) → Kw C → Except Err (Val C)
  /-- `f.log(base=base, **kwargs)`, where a `base` among the arguments is used instead -/
  log : C → ℝ → Kw C → Except Err (Val C)
  /-- The class method `{name}_many` or `name` of the type of a curve (`curve.py:897-909`), if there is one. -/
  classMethod : C → String → Option (List (Val C) → Kw C → Except Err (Val C))
  /-- The method `name` of a curve (`curve.py:898`, `910-917`), if there is one. -/
  method : C → String → Option (List (Val C) → Kw C → Except Err (Val C))
  /-- `_func_obj` (`curve.py:1140`) -/
  obj : C
  /-- `Curve.parse` (`curve.py:851-874`) -/
  parse : Val C → Except Err (Val C)
  /-- `base ** f` (`curve.py:1102-1103`) -/
  pow : ℝ → C → Except Err C
  /-- `arrow.get(d).timestamp` -/
  date : Val C → Except Err (Val C)

/-- `bool(v)`: curves have no length and are true. -/
noncomputable def truthy : Val C → Bool
  | .null => false
  | .num r => by classical exact decide (r ≠ 0)
  | .str s => s ≠ ""
  | .list l => !l.isEmpty
  | .map m => !m.isEmpty
  | .curve _ => true

/-- `v is None`. -/
def isNull : Val C → Bool
  | .null => true
  | _ => false

/-- Is the value a mapping or a sequence other than a string (`curve.py:1019-1028`)? -/
def nested : Val C → Bool
  | .map _ => true
  | .list _ => true
  | _ => false

/-- The number a base stands for (`curve.py:945-946`). -/
noncomputable def Base.value : Base → Except Err ℝ
  | .e => .ok (Real.exp 1)
  | .nat b => .ok b
  | .bad _ => .error .value

/-- `math.log(d, base)`: numbers that are not positive raise. -/
noncomputable def logB (b d : ℝ) : Except Err ℝ := by
  classical exact if 0 < d then .ok (Real.logb b d) else .error .value

/-- `base ** v` (`curve.py:947`); a base of zero is taken to raise. -/
noncomputable def raise (L : Lib C) (b : ℝ) : Val C → Except Err (Val C)
  | .num r => by classical exact if 0 < b then .ok (.num (b ^ r)) else .error .zeroDiv
  | .curve c => (L.pow b c).map .curve
  | _ => .error .type

/-- Decorators `log...` of results (`curve.py:942-947`). -/
noncomputable def exitLog (L : Lib C) (o : Deco) (v : Val C) : Except Err (Val C) :=
  match o with
  | .log b => do
    let b ← b.value
    raise L b v
  | _ => .ok v

/-- A number, string or the like in a fragment (`curve.py:1039-1051`). -/
noncomputable def leaf (L : Lib C) (decs : List Deco) (d : Val C) : Except Err (Val C) :=
  if Deco.date ∈ decs then L.date d
  else match d with
    | .num r =>
      if Deco.log .e ∈ decs then (logB (Real.exp 1) r).map .num
      else if Deco.log (.nat 2) ∈ decs then (logB 2 r).map .num
      else if Deco.log (.nat 10) ∈ decs then (logB 10 r).map .num
      else .ok d
    | d => .ok d

/-- A function to call with arguments. -/
structure Cons (C : Type) where
  /-- `fconstructor`, given the curve before -/
  run : Val C → List (Val C) → Kw C → Except Err (Val C)
  /-- `fconstructor_from_instance` -/
  fromInstance : Bool

/-- `_fconstructor` (`curve.py:912-916`). -/
noncomputable def callMethod (L : Lib C) (name : String) (cur : Val C) (args : List (Val C)) (kw : Kw C) :
    Except Err (Val C) :=
  match (if truthy cur then cur else .curve L.obj) with
  | .curve c =>
    match L.method c name with
    | some g => g args kw
    | none => .error .attribute
  | _ => .error .attribute

/-- `next_func_constructor` (`curve.py:891-920`). -/
noncomputable def nextCons (L : Lib C) (cur : Val C) (name : String) : Except Err (Cons C) :=
  let f := if truthy cur then cur else .curve L.obj
  match f with
  | .curve c =>
    match L.classMethod c name with
    | some g => .ok ⟨fun _ => g, false⟩
    | none =>
      match L.method c name with
      | some _ => .ok ⟨callMethod L name, true⟩
      | none => .error .value
  | _ => .error .assertion

/-- The function of a key (`curve.py:957-976`). -/
noncomputable def consOf (L : Lib C) (cur : Val C) : Fn → Except Err (Cons C)
  | .const => .ok ⟨fun _ => L.constant, false⟩
  | .line => .ok ⟨fun _ => L.line, false⟩
  | .log b => do
    let b ← b.value
    .ok ⟨fun cur _ kw => match cur with
      | .curve c => L.log c b kw
      | _ => .error .attribute, true⟩
  | .other s => nextCons L cur s

/-- `'@args' in kwargs` and its removal (`curve.py:991-994`). -/
def popArgs (args : List (Val C)) (kw : Kw C) : Except Err (List (Val C) × Kw C) :=
  match kw.find? fun p => p.1 = .deco .args with
  | none => .ok (args, kw)
  | some (_, .list l) => .ok (l, kw.filter fun p => p.1 ≠ .deco .args)
  | some _ => .error .type

/-- Positional and named arguments (`curve.py:982-994`). -/
def splitArgs : Val C → Except Err (List (Val C) × Kw C)
  | .map m => popArgs [] m
  | .list l => popArgs l []
  | v => popArgs [v] []

/-- The curve before is the first argument, or the first of the list given first (`curve.py:1001-1007`). -/
def putFirst (cur : Val C) : List (Val C) → List (Val C)
  | .list l :: rest => .list (cur :: l) :: rest
  | args => cur :: args

/-- Call of the function (`curve.py:996-1008`). -/
def call (L : Lib C) (k : Cons C) (cur : Val C) (args : List (Val C)) (kw : Kw C) : Except Err (Val C) :=
  if k.fromInstance && isNull cur then
    match args with
    | [] => .error .index
    | a :: args => do
      let cur ← L.parse a
      k.run cur args kw
  else if !k.fromInstance && !isNull cur then k.run cur (putFirst cur args) kw
  else k.run cur args kw

/-- A parser of nested descriptors: value, `fragment`, `current_func` and the list of decorators, which
is shared and changed. -/
abbrev Parser (C : Type) := Val C → Bool → Val C → List Deco → Except Err (Val C) × List Deco

/-- Changing the list of decorators and raising. -/
def andThen {α β : Type} (r : Except Err α × List Deco) (f : α → List Deco → Except Err β × List Deco) :
    Except Err β × List Deco :=
  match r with
  | (.error e, ds) => (.error e, ds)
  | (.ok a, ds) => f a ds

/-- What follows a key (`curve.py:926-1029`). -/
inductive Next (C : Type) where
  /-- `continue` with another `current_func` -/
  | go (cur : Val C)
  /-- the key is part of the fragment -/
  | keep (v : Val C)
  /-- `return` -/
  | stop (v : Val C)

/-- A decorator key (`curve.py:928-957`); `n` is the number of keys. -/
noncomputable def decoKey (L : Lib C) (P : Parser C) (n : ℕ) (fragment : Bool) (o : Deco) (v cur : Val C)
    (ds : List Deco) : Except Err (Next C) × List Deco :=
  let i := ds.length
  andThen (P v fragment cur (ds ++ [o])) fun v ds =>
    (do
      let v ← exitLog L o v
      match v with
      | .curve c => .ok (.go (.curve c))
      | v =>
        if o ≠ .args then
          if n ≠ 1 then .error .value else .ok (.stop v)
        else .ok (.keep v), ds.eraseIdx i)

/-- A function key (`curve.py:959-1009`). -/
noncomputable def funcKey (L : Lib C) (P : Parser C) (f : Fn) (v cur : Val C) (ds : List Deco) :
    Except Err (Val C) × List Deco :=
  match consOf L cur f with
  | .error e => (.error e, ds)
  | .ok k =>
    andThen (P v true .null ds) fun a ds =>
      (do
        let s ← splitArgs a
        call L k cur s.1 s.2, ds)

/-- A key of the fragment (`curve.py:1011-1029`). -/
def plainKey (P : Parser C) (v cur : Val C) (ds : List Deco) : Except Err (Val C) × List Deco :=
  if !isNull cur then (.error .exception, ds)
  else if nested v then P v true .null ds
  else (.ok v, ds)

/-- The loop over the keys (`curve.py:926-1031`). -/
noncomputable def keys (L : Lib C) (P : Parser C) (n : ℕ) (fragment : Bool) :
    List (Key × Val C) → Val C → List (Key × Val C) → List Deco → Except Err (Val C) × List Deco
  | [], cur, vals, ds => (.ok (if truthy cur then cur else .map vals), ds)
  | (.deco o, v) :: rest, cur, vals, ds =>
    andThen (decoKey L P n fragment o v cur ds) fun r ds =>
      match r with
      | .go cur => keys L P n fragment rest cur vals ds
      | .stop v => (.ok v, ds)
      | .keep v => andThen (plainKey P v cur ds) fun w ds =>
          keys L P n fragment rest cur (vals ++ [(.deco o, w)]) ds
  | (.func f, v) :: rest, cur, vals, ds =>
    andThen (funcKey L P f v cur ds) fun cur ds => keys L P n fragment rest cur vals ds
  | (.plain s, v) :: rest, cur, vals, ds =>
    andThen (plainKey P v cur ds) fun w ds => keys L P n fragment rest cur (vals ++ [(.plain s, w)]) ds

/-- A sequence in a fragment (`curve.py:1038-1042`). -/
def items (P : Parser C) : List (Val C) → List Deco → Except Err (List (Val C)) × List Deco
  | [], ds => (.ok [], ds)
  | v :: rest, ds =>
    andThen (P v true .null ds) fun w ds => andThen (items P rest ds) fun ws ds => (.ok (w :: ws), ds)

/-- `parse_descriptor` (`curve.py:877-1053`), at most `n` calls deep. -/
noncomputable def parse (L : Lib C) : ℕ → Parser C
  | 0, _, _, _, ds => (.error .recursion, ds)
  | n + 1, d, fragment, cur, ds =>
    match d with
    | .map m => keys L (parse L n) m.length fragment m cur [] ds
    | .list l =>
      if fragment then andThen (items (parse L n) l ds) fun ws ds => (.ok (.list ws), ds)
      else (.error .type, ds)
    | d => if fragment then (leaf L ds d, ds) else (.error .type, ds)

end Desc
end Curvepy
