import Verif.Model.Machine
import Mathlib.Data.Fin.VecNotation

/-!
# Curves put together from curves that change while they are read

`Model/Curve` has the combinators for curves whose methods are functions.  Here they are once more for curves with a state, in the
order in which the code reads its operands: `aggregate.py`, `map.py`, `offset.py`, `piecewise.py`, `generic.py`.

Simplification: the domain of a combination is computed whenever it is read; that the remembered one is the same is C22.
`min_step` is an attribute, fixed when the combination is made.
-/

namespace Curvepy
namespace Machine
open Crv

variable {σ : Type}

/-- `Aggregate.get_domain` (`aggregate.py:8-13`). -/
def unitedDom (Ms : List (Machine σ)) (union : Bool) : Run σ Iv := do
  let ds ← Ms.mapM fun M => M.dom
  pure (if union then Iv.unionAll ds else Iv.interAll ds)

/-- `Aggregate` (`aggregate.py:6-62`) with a transform. -/
def aggregate (Ms : List (Machine σ)) (tfm : Ext → List (Option Num) → Except Err (Option Num))
    (union : Bool := false) (default : Option Num := none) : Machine σ where
  dom := unitedDom Ms union
  minStep := pure none
  y x := do
    let d ← unitedDom Ms union
    if !d.contains x then pure default
    else do
      let vals ← Ms.mapM fun M => M.y x
      Run.lift (tfm x vals)
  xNext x m l := do
    let xs ← Ms.mapM fun M => M.xNext x m l
    pure (minOrNone x xs none)
  xPrevious x m l := do
    let xs ← Ms.mapM fun M => M.xPrevious x m l
    pure (maxOrNone x xs none)

/-- `Map` (`map.py:4-52`) of a curve with the attribute `own`. -/
def map (M : Machine σ) (own : Option Ext) (tfm : Ext → Option Num → Except Err (Option Num)) (skipNone : Bool)
    (minStep : Ext) : Machine σ where
  dom := M.dom
  minStep := pure (some (mapStep own minStep))
  y x := do
    let v ← M.y x
    if v.isNone && skipNone then pure none else Run.lift (tfm x v)
  xNext x m l := M.xNext x (resolve (some (mapStep own minStep)) m) l
  xPrevious x m l := M.xPrevious x (resolve (some (mapStep own minStep)) m) l

/-- `Offset` (`offset.py:8-127`) without duration. -/
def offset (M : Machine σ) (k : ℚ) : Machine σ where
  dom := do
    let d ← M.dom
    pure (offsetInterval k d)
  minStep := pure none
  y x := do
    let d ← M.dom
    if !d.contains (x.addQ (-k)) then pure none else M.y (x.addQ (-k))
  xNext x m l := do
    match ← M.xNext (x.addQ (-k)) m l with
    | none => pure none
    | some x1 => do
      let d ← M.dom
      if !d.contains x1 then pure none else pure (some (x1.addQ k))
  xPrevious x m l := do
    match ← M.xPrevious (x.addQ (-k)) m l with
    | none => pure none
    | some x1 => do
      let d ← M.dom
      if !d.contains x1 then pure none else pure (some (x1.addQ k))

/-- `c.subset(domain)` (`curve.py:677-679`, `generic.py:4-16`) of a curve with the attribute `own`. -/
def subset (M : Machine σ) (own : Option Ext) (dom : Iv) : Machine σ where
  dom := pure dom
  minStep := pure own
  y x := if !dom.contains x then pure none else M.y x
  xNext x m l := Run.lift (baseNext dom own x m l)
  xPrevious x m l := Run.lift (basePrevious dom own x m l)

/-- `c.differential(forward)` (`curve.py:670-674`) of a curve with the attribute `own` that does not have a `d_y` of its own. -/
def differential (M : Machine σ) (own : Option Ext) (forward : Bool) : Machine σ where
  dom := M.dom
  minStep := pure (some (mapStep own MIN_STEP))
  y x := do
    let _ ← M.y x
    M.dY x forward
  xNext x m l := M.xNext x (resolve (some (mapStep own MIN_STEP)) m) l
  xPrevious x m l := M.xPrevious x (resolve (some (mapStep own MIN_STEP)) m) l

/-- Loop of `Piecewise.y` (`piecewise.py:25-34`). -/
def piecewiseY (x : Ext) : List (Machine σ × Iv) → Run σ (Option Num)
  | [] => pure none
  | (M, d) :: ps =>
    if !d.contains x (enforceStart := false) then piecewiseY x ps
    else if !d.contains x (enforceEnd := false) then pure none
    else M.y x

/-- `Piecewise` (`piecewise.py:4-64`), simplified as in `Crv.piecewise`. -/
def piecewise (ps : List (Machine σ × Iv)) : Machine σ where
  dom := pure (Iv.unionAll (ps.map (·.2)))
  minStep := pure none
  y x := piecewiseY x ps
  xNext x m l := do
    match resolve none m with
    | none => Run.lift (.error .type)
    | some s =>
      if !(Iv.unionAll (ps.map (·.2))).contains (step x s) (enforceEnd := false) then pure none
      else do
        let xs ← ps.mapM fun p => p.1.xNext x (some s) l
        if anyCandidate xs (ps.map (·.2)) then pure none
        else
          match (ps.map (·.2)).getLast? with
          | none => Run.lift (.error .index)
          | some d => if d.contains x then pure (some d.hi) else pure none
  xPrevious x m l := do
    match resolve none m with
    | none => Run.lift (.error .type)
    | some s =>
      if !(Iv.unionAll (ps.map (·.2))).contains (stepBack x s) (enforceEnd := false) then pure none
      else do
        let xs ← ps.mapM fun p => p.1.xPrevious x (some s) l
        if anyCandidate xs (ps.map (·.2)) then pure none
        else
          match (ps.map (·.2)).head? with
          | none => Run.lift (.error .index)
          | some d => if d.contains x then pure (some d.lo) else pure none

/-- A curve without state. -/
def still (c : Crv) : Machine σ where
  dom := pure c.dom
  minStep := pure c.minStep
  y x := Run.lift (c.y x)
  xNext x m l := Run.lift (c.xNext x m l)
  xPrevious x m l := Run.lift (c.xPrevious x m l)

/-- A computation on one of several states. -/
def onOne {ι : Type} [DecidableEq ι] {τ : ι → Type} {α : Type} (i : ι) (p : Run (τ i) α) : Run (∀ j, τ j) α := fun s =>
  (p (s i)).map fun r => (r.1, Function.update s i r.2)

/-- One of several curves, each with its own state. -/
def one {ι : Type} [DecidableEq ι] {τ : ι → Type} (i : ι) (M : Machine (τ i)) : Machine (∀ j, τ j) where
  dom := onOne i M.dom
  minStep := onOne i M.minStep
  y x := onOne i (M.y x)
  xNext x m l := onOne i (M.xNext x m l)
  xPrevious x m l := onOne i (M.xPrevious x m l)

end Machine

/-- A function of a number, for values. -/
def Num.onFin (f : ℚ → ℚ) : Num → Num
  | .fin q => .fin (f q)
  | v => v

/-- An accumulator whose `scanned_y` changes the accumulated value, like `Integral` (`integral.py:16-20`) with
`f q = q + const`. -/
def Accum.viewed (t : Tfm) (f : ℚ → ℚ) : Machine Accum :=
  { Accum.machine t with
    y := fun x => do
      let v ← (Accum.machine t).y x
      pure (v.map (Num.onFin f)) }

/-- A way to put curves together: what the operators, `map`, `differential`, `offset`, `subset`, `Piecewise`, `Aggregate`, numbers and functions
make of the curves `leaf i`. -/
inductive Expr (ι : Type) where
  | leaf (i : ι)
  | still (c : Crv)
  | aggregate {n : ℕ} (es : Fin n → Expr ι) (tfm : Ext → List (Option Num) → Except Err (Option Num)) (union : Bool)
      (default : Option Num)
  | map (e : Expr ι) (tfm : Ext → Option Num → Except Err (Option Num)) (skipNone : Bool) (minStep : Ext)
  | offset (e : Expr ι) (k : ℚ)
  | differential (e : Expr ι) (forward : Bool)
  | subset (e : Expr ι) (dom : Iv)
  | piecewise {n : ℕ} (es : Fin n → Expr ι) (domains : Fin n → Iv)

namespace Expr

variable {ι σ : Type}

/-- The attribute `min_step` of a combination, given those of the leaves. -/
def minStep (steps : ι → Option Ext) : Expr ι → Option Ext
  | leaf i => steps i
  | still c => c.minStep
  | aggregate _ _ _ _ => none
  | map e _ _ m => some (Crv.mapStep (minStep steps e) m)
  | offset _ _ => none
  | differential e _ => some (Crv.mapStep (minStep steps e) Crv.MIN_STEP)
  | subset e _ => minStep steps e
  | piecewise _ _ => none

/-- The combination of curves with a state. -/
def machine (Ms : ι → Machine σ) (steps : ι → Option Ext) : Expr ι → Machine σ
  | leaf i => Ms i
  | still c => Machine.still c
  | aggregate es tfm union default => Machine.aggregate (List.ofFn fun j => machine Ms steps (es j)) tfm union default
  | map e tfm skip m => Machine.map (machine Ms steps e) (e.minStep steps) tfm skip m
  | offset e k => Machine.offset (machine Ms steps e) k
  | differential e f => Machine.differential (machine Ms steps e) (e.minStep steps) f
  | subset e d => Machine.subset (machine Ms steps e) (e.minStep steps) d
  | piecewise es ds => Machine.piecewise (List.ofFn fun j => (machine Ms steps (es j), ds j))

/-- `a + b` (`curve.py:1075-1076`). -/
def add (a b : Expr ι) : Expr ι := aggregate ![a, b] (fun _ ys => .ok (Crv.addF ys)) false none
/-- `a - b` (`curve.py:1078-1079`). -/
def sub (a b : Expr ι) : Expr ι := aggregate ![a, b] (fun _ ys => .ok (Crv.subF ys none)) false none
/-- `a * b` (`curve.py:1081-1082`). -/
def mul (a b : Expr ι) : Expr ι := aggregate ![a, b] (fun _ ys => .ok (Crv.multF ys (.fin 1))) false none
/-- `a / b` (`curve.py:1084-1085`). -/
def div (a b : Expr ι) : Expr ι := aggregate ![a, b] (fun _ ys => Crv.divF ys none) false none

end Expr
end Curvepy
