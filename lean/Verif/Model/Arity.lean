import Verif.Model.Curve
import Verif.Model.Accumulator
import Verif.Spec.Call

/-!
# Functions given by users, and how they are called

`Map`, `AccumulatorMap` and `add_observer` look at the parameters of a function to decide what to call it with.

Simplifications: `inspect.signature` is the list of parameters (without `self` of bound methods); a builtin has parameters too,
which `count_positional_args` does not look at.  A call that Python refuses is a `TypeError`; keywords are never used here.
-/

namespace Curvepy

/-- A Python object given as a function; `run` is its body. -/
structure PyFn (V R : Type) where
  callable : Bool := true
  builtin : Bool := false
  params : List Param
  run : List V → Except Err R

namespace PyFn

variable {V R : Type}

/-- Calling with positional arguments. -/
def call (f : PyFn V R) (args : List V) : Except Err R :=
  if !f.callable then .error .type
  else if Spec.binds f.params args.length then f.run args
  else .error .type

/-- `param.kind == POSITIONAL_ONLY or param.kind == POSITIONAL_OR_KEYWORD` (`util.py:44-45`, `curve.py:1070-1071`). -/
def isPositional (p : Param) : Bool := p.kind == .positionalOnly || p.kind == .positionalOrKeyword

/-- `count_positional_args` (`util.py:36-47`, `curve.py:1061-1073`). -/
def countPositional (f : PyFn V R) (default : ℕ := 1) : Except Err ℕ :=
  if !f.callable then .error .exception
  else if f.builtin then .ok default
  else .ok (f.params.foldl (fun count p => if isPositional p then count + 1 else count) 0)

/-- `tfm_ags == 0 or tfm_ags > 2` and `_map_tfm_with_x` (`map.py:17-20`, `accumulator_map.py:25-28`). -/
def adapt (f : PyFn V R) : Except Err Bool := do
  let n ← f.countPositional
  if n = 0 ∨ 2 < n then .error .exception else pure (decide (1 < n))

/-- `_map` (`map.py:48-52`) and `_accumulator_map` (`accumulator_map.py:65-69`). -/
def apply (f : PyFn V R) (withX : Bool) (x v : V) : Except Err R :=
  if withX then f.call [x, v] else f.call [v]

/-- `begin_with_interval`, `end_with_interval` (`curve.py:404-409`). -/
def withInterval (f : PyFn V R) : Except Err Bool := do
  let n ← f.countPositional
  pure (decide (n = 1))

/-- The call in `begin_update` and `end_update` (`curve.py:440-444`, `462-466`). -/
def notify (f : PyFn V R) (withIv : Bool) (d : V) : Except Err R :=
  if withIv then f.call [d] else f.call []

end PyFn

/-- What functions are called with: a position, a value, values. -/
inductive Arg1 where
  | pos (x : Ext)
  | val (v : Option Num)
deriving DecidableEq

/-- `Map(func, tfm, skip_none, min_step)` (`map.py:4-52`). -/
def Crv.mapFn (c : Crv) (f : PyFn Arg1 (Option Num)) (skipNone : Bool := false) (minStep : Ext := MIN_STEP) : Except Err Crv := do
  let withX ← f.adapt
  Crv.map c (if withX then 2 else 1) (fun x v => f.apply withX (.pos x) (.val v)) skipNone minStep

/-- What the function of an `AccumulatorMap` is called with. -/
inductive Arg2 where
  | pos (x : ℚ)
  | vals (vs : List (Option ℚ))
deriving DecidableEq

/-- A number as given to a constructor, or `None`. -/
abbrev Given := Option ℚ

/-- The window of `AccumulatorMap.__init__` (`accumulator_map.py:31-41`): degree and period. -/
def windowOf (degree : Given) (isPeriod : Bool) : Except Err (Option ℕ × Option ℚ) :=
  match isPeriod, degree with
  | true, none => .error .exception
  | true, some p => if p ≤ 0 then .error .exception else .ok (none, some p)
  | false, none => .error .type
  | false, some d => if pyInt d ≤ 0 then .error .exception else .ok (some (pyInt d).toNat, none)

/-- `AccumulatorMap(func, tfm, degree, is_period)` (`accumulator_map.py:8-69`): the transform it accumulates with. -/
def Accum.mapFn (f : PyFn Arg2 (Option ℚ)) (degree : Given) (isPeriod : Bool) (minStep : ℚ) : Except Err Tfm := do
  let withX ← f.adapt
  let w ← windowOf degree isPeriod
  pure fun src _ x y _ =>
    match Accum.windowBefore src w.1 w.2 minStep x with
    | .error e => .error e
    | .ok ys => f.apply withX (.pos x) (.vals (y :: ys))

end Curvepy
