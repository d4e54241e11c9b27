import Verif.Model.Points
import Verif.Model.Num

/-!
# Curves as seen by their readers, and the combinators

Model of `curve.py:70-166`, `475-542`, `677-875`, `1075-1127`, `generic.py`, `constant.py`,
`empty.py`, `aggregate.py`, `map.py`, `offset.py`, `piecewise.py` between updates: what a reader
gets at one moment.  (How changes travel is `Model/Observer`, `Model/Graph`.)

Simplifications: `count_positional_args` is a number given with the function; `None` is not a
curve here (`Curve.parse(None)` is `None`, and every use of it raises).
-/

namespace Curvepy

/-- A curve: its `domain`, its `min_step` attribute and the outcome of its methods. -/
structure Crv where
  dom : Iv
  minStep : Option Ext
  y : Ext → Except Err (Option Num)
  /-- `x_next(x, min_step, limit)` -/
  xNext : Ext → Option Ext → Option Ext → Except Err (Option Ext)
  /-- `x_previous(x, min_step, limit)` -/
  xPrevious : Ext → Option Ext → Option Ext → Except Err (Option Ext)

namespace Crv

/-- `MIN_STEP` (`curve.py:12`). -/
def MIN_STEP : Ext := .fin (1 / 100000)

/-- `Curve.resolve_min_step` (`curve.py:158-166`). -/
def resolve (own arg : Option Ext) : Option Ext :=
  match arg, own with
  | none, none => none
  | none, some m => some m
  | some a, none => some a
  | some a, some m => some (if a < m then m else a)

/-- `x + m` (`curve.py:122`, `piecewise.py:54`); the sum of opposite infinities is not modelled. -/
def step (x : Ext) : Ext → Ext
  | .fin q => x.addQ q
  | .pinf => .pinf
  | .ninf => .ninf

/-- `x - m` (`curve.py:134`, `piecewise.py:39`). -/
def stepBack (x : Ext) : Ext → Ext
  | .fin q => x.addQ (-q)
  | .pinf => .ninf
  | .ninf => .pinf

/-- `Curve.x_next` (`curve.py:117-127`). -/
def baseNext (dom : Iv) (own : Option Ext) (x : Ext) (arg limit : Option Ext) :
    Except Err (Option Ext) :=
  match resolve own arg with
  | none => .error .type
  | some m =>
    let x1 := if m.isInf then dom.hi else step x m
    let x1 := match limit with
      | some l => if l < x1 then l else x1
      | none => x1
    if !dom.contains x1 (enforceStart := false) then .ok none else .ok (some x1)

/-- `Curve.x_previous` (`curve.py:129-139`). -/
def basePrevious (dom : Iv) (own : Option Ext) (x : Ext) (arg limit : Option Ext) :
    Except Err (Option Ext) :=
  match resolve own arg with
  | none => .error .type
  | some m =>
    let x1 := if m.isInf then dom.lo else stepBack x m
    let x1 := match limit with
      | some l => if x1 < l then l else x1
      | none => x1
    if !dom.contains x1 (enforceEnd := false) then .ok none else .ok (some x1)

/-- `Generic(y_func, domain, min_step)` (`generic.py:4-16`). -/
def generic (f : Ext → Except Err (Option Num)) (dom : Iv := Iv.infinite)
    (minStep : Option Ext := some MIN_STEP) : Crv where
  dom := dom
  minStep := minStep
  y x := if !dom.contains x then .ok none else f x
  xNext := baseNext dom minStep
  xPrevious := basePrevious dom minStep

/-- `Constant(y, domain)` (`constant.py:5-50`). -/
def constant (v : Num) (dom : Iv := Iv.infinite) : Crv where
  dom := dom
  minStep := some .pinf
  y _ := .ok (some v)
  xNext := baseNext dom (some .pinf)
  xPrevious := basePrevious dom (some .pinf)

/-- `Empty()` (`empty.py`). -/
def empty : Crv where
  dom := Iv.empty
  minStep := some .pinf
  y _ := .ok none
  xNext := baseNext Iv.empty (some .pinf)
  xPrevious := basePrevious Iv.empty (some .pinf)

/-- A `Points` curve seen as a curve.  An infinite minimum step is not supported by the model of
`Points` and gives an error here. -/
def ofPoints (s : Pts ℚ) : Crv where
  dom := s.domVal
  minStep := s.minStep.map .fin
  y x := (s.y x).map fun v => v.map .fin
  xNext x m _ := match m with
    | none => s.xNext x none
    | some (.fin q) => s.xNext x (some q)
    | some _ => .error .overflow
  xPrevious x m _ := match m with
    | none => s.xPrevious x none
    | some (.fin q) => s.xPrevious x (some q)
    | some _ => .error .overflow

/-- What `Curve.parse` accepts (`curve.py:851-875`), except sequences and descriptors. -/
inductive Arg where
  | curve (c : Crv)
  | func (f : Ext → Except Err (Option Num))
  | number (v : Num)

/-- `Curve.parse` (`curve.py:859-864`). -/
def parse : Arg → Crv
  | .curve c => c
  | .func f => generic f
  | .number v => constant v

/-! ## Aggregate -/

/-- One round of `min_or_none` (`aggregate.py:70-72`). -/
def pickMin (gt i : Ext) : Option Ext → Option Ext
  | none => if gt < i then some i else none
  | some b => if i < b then (if gt < i then some i else some b) else some b

/-- `min_or_none(iterable, gt)` (`aggregate.py:65-73`), given the running minimum. -/
def minOrNone (gt : Ext) : List (Option Ext) → Option Ext → Option Ext
  | [], best => best
  | none :: is, best => minOrNone gt is best
  | some i :: is, best => minOrNone gt is (pickMin gt i best)

/-- One round of `max_or_none` (`aggregate.py:81-83`). -/
def pickMax (lt i : Ext) : Option Ext → Option Ext
  | none => if i < lt then some i else none
  | some b => if b < i then (if i < lt then some i else some b) else some b

/-- `max_or_none(iterable, lt)` (`aggregate.py:76-84`). -/
def maxOrNone (lt : Ext) : List (Option Ext) → Option Ext → Option Ext
  | [], best => best
  | none :: is, best => maxOrNone lt is best
  | some i :: is, best => maxOrNone lt is (pickMax lt i best)

/-- `Aggregate(funcs, tfm, default, union)` (`aggregate.py:6-62`) with a transform. -/
def aggregate (funcs : List Crv) (tfm : Ext → List (Option Num) → Except Err (Option Num))
    (union : Bool := false) (default : Option Num := none) : Crv where
  dom := if union then Iv.unionAll (funcs.map (·.dom)) else Iv.interAll (funcs.map (·.dom))
  minStep := none
  y x :=
    if !(if union then Iv.unionAll (funcs.map (·.dom))
        else Iv.interAll (funcs.map (·.dom))).contains x then .ok default
    else do
      let vals ← funcs.mapM fun f => f.y x
      tfm x vals
  xNext x m l := do
    let xs ← funcs.mapM fun f => f.xNext x m l
    pure (minOrNone x xs none)
  xPrevious x m l := do
    let xs ← funcs.mapM fun f => f.xPrevious x m l
    pure (maxOrNone x xs none)

/-- `first_val` (`curve.py:690-694`). -/
def firstVal : List (Option Num) → Option Num
  | [] => none
  | some v :: _ => some v
  | none :: vs => firstVal vs

/-- `Curve.first` (`curve.py:681-697`). -/
def first (args : List Arg) : Crv :=
  aggregate (args.map parse) (fun _ vs => .ok (firstVal vs)) (union := true)

/-- Loop of `min_vals` (`curve.py:705-710`). -/
def minVals : List (Option Num) → Option Num → Option Num
  | [], best => best
  | v :: vs, best =>
    match best with
    | none => minVals vs v
    | some b =>
      match v with
      | some w => minVals vs (if Num.lt w b then some w else some b)
      | none => minVals vs (some b)

/-- Loop of `max_vals` (`curve.py:725-730`). -/
def maxVals : List (Option Num) → Option Num → Option Num
  | [], best => best
  | v :: vs, best =>
    match best with
    | none => maxVals vs v
    | some b =>
      match v with
      | some w => maxVals vs (if Num.lt b w then some w else some b)
      | none => maxVals vs (some b)

/-- Python's builtin `min(list, default=None)`. -/
def pyMin : List Num → Option Num
  | [] => none
  | v :: vs => some (vs.foldl (fun b w => if Num.lt w b then w else b) v)

/-- Python's builtin `max(list, default=None)`. -/
def pyMax : List Num → Option Num
  | [] => none
  | v :: vs => some (vs.foldl (fun b w => if Num.lt b w then w else b) v)

/-- `min_vals_with_empty` (`curve.py:712-713`). -/
def minValsWithEmpty (vs : List (Option Num)) : Option Num := pyMin (vs.filterMap id)

/-- `max_vals_with_empty` (`curve.py:732-733`). -/
def maxValsWithEmpty (vs : List (Option Num)) : Option Num := pyMax (vs.filterMap id)

/-- `Curve.min` (`curve.py:699-717`). -/
def min (args : List Arg) (ignoreEmpty : Bool := false) : Crv :=
  aggregate (args.map parse)
    (fun _ vs => .ok (if ignoreEmpty then minValsWithEmpty vs else minVals vs none))
    (union := ignoreEmpty)

/-- `Curve.max` (`curve.py:719-737`). -/
def max (args : List Arg) (ignoreEmpty : Bool := false) : Crv :=
  aggregate (args.map parse)
    (fun _ vs => .ok (if ignoreEmpty then maxValsWithEmpty vs else maxVals vs none))
    (union := ignoreEmpty)

/-- All values, or `None` at the first `None` (`curve.py:746-748`). -/
def allDefined : List (Option Num) → Option (List Num)
  | [] => some []
  | none :: _ => none
  | some v :: vs => (allDefined vs).map (v :: ·)

/-- `add_f` (`curve.py:745-749`). -/
def addF (ys : List (Option Num)) : Option Num :=
  match allDefined ys with
  | none => none
  | some vs => some (vs.foldl Num.add (.fin 0))

/-- `sub_f` (`curve.py:758-767`): `result` is `none` before the first value. -/
def subF : List (Option Num) → Option Num → Option Num
  | [], r => some (r.getD (.fin 0))
  | none :: _, _ => none
  | some y :: ys, none => subF ys (some y)
  | some y :: ys, some r => subF ys (some (Num.sub r y))

/-- `mult_f` (`curve.py:776-782`). -/
def multF : List (Option Num) → Num → Option Num
  | [], r => some r
  | none :: _, _ => none
  | some y :: ys, r => multF ys (Num.mul r y)

/-- `div_f` (`curve.py:791-802`). -/
def divF : List (Option Num) → Option Num → Except Err (Option Num)
  | [], r => .ok (some (r.getD (.fin 0)))
  | none :: _, _ => .ok none
  | some y :: ys, none => divF ys (some y)
  | some y :: ys, some r =>
    if y = .fin 0 then divF ys (some (if Num.le (.fin 0) r then .pinf else .ninf))
    else
      match Num.div r y with
      | .ok q => divF ys (some q)
      | .error e => .error e

/-- `Curve.add_many` (`curve.py:739-750`), `__add__`, `__radd__` (`1075-1076`, `1090-1091`). -/
def addMany (args : List Arg) : Crv := aggregate (args.map parse) fun _ ys => .ok (addF ys)

/-- `Curve.subtract_many` (`curve.py:752-768`). -/
def subtractMany (args : List Arg) : Crv := aggregate (args.map parse) fun _ ys => .ok (subF ys none)

/-- `Curve.multiply_many` (`curve.py:770-783`). -/
def multiplyMany (args : List Arg) : Crv :=
  aggregate (args.map parse) fun _ ys => .ok (multF ys (.fin 1))

/-- `Curve.divide_many` (`curve.py:785-803`). -/
def divideMany (args : List Arg) : Crv := aggregate (args.map parse) fun _ ys => divF ys none

/-! ## Map -/

/-- `min_step` of a `Map` (`map.py:10-11`): `bool(func.min_step) and func.min_step > min_step`. -/
def mapStep (own : Option Ext) (minStep : Ext) : Ext :=
  match own with
  | some m => if m ≠ .fin 0 ∧ minStep < m then m else minStep
  | none => minStep

/-- `Map(func, tfm, skip_none, min_step)` (`map.py:4-52`).  `arity` is what
`count_positional_args(tfm)` returns; a one-argument function ignores `x`. -/
def map (c : Crv) (arity : ℕ) (tfm : Ext → Option Num → Except Err (Option Num))
    (skipNone : Bool := false) (minStep : Ext := MIN_STEP) : Except Err Crv :=
  if arity = 0 ∨ 2 < arity then .error .exception
  else .ok
    { dom := c.dom
      minStep := some (mapStep c.minStep minStep)
      y := fun x => do
        let v ← c.y x
        if v.isNone && skipNone then .ok none else tfm x v
      xNext := fun x m l => c.xNext x (resolve (some (mapStep c.minStep minStep)) m) l
      xPrevious := fun x m l => c.xPrevious x (resolve (some (mapStep c.minStep minStep)) m) l }

/-- `_additive_inverse` (`curve.py:1114-1117`). -/
def negT (_ : Ext) : Option Num → Except Err (Option Num)
  | none => .ok none
  | some v => .ok (some v.neg)

/-- `_multiplicative_inverse` (`curve.py:1119-1122`). -/
def recipT (_ : Ext) : Option Num → Except Err (Option Num)
  | none => .ok none
  | some v => (Num.div (.fin 1) v).map some

/-- `_abs` (`curve.py:1124-1127`). -/
def absT (_ : Ext) : Option Num → Except Err (Option Num)
  | none => .ok none
  | some v => .ok (some v.abs)

/-- `-c` (`curve.py:521-522`, `1105-1106`). -/
def neg (c : Crv) : Except Err Crv := c.map 2 negT
/-- `c.multiplicative_inverse()` (`curve.py:524-525`). -/
def recip (c : Crv) : Except Err Crv := c.map 2 recipT
/-- `abs(c)` (`curve.py:527-528`, `1111-1112`). -/
def abs (c : Crv) : Except Err Crv := c.map 2 absT

/-! ## Offset without duration -/

/-- `_offset_interval` (`offset.py:117-127`) without duration; bounds are never `None`. -/
def offsetInterval (k : ℚ) (d : Iv) : Iv := ⟨d.lo.addQ k, d.hi.addQ k, d.loOpen, d.hiOpen⟩

/-- `Offset(func, offset)` (`offset.py:8-106`) without duration: `floor` plays no role, so
`x0 == x1` (`offset.py:44-49`). -/
def offset (c : Crv) (k : ℚ) : Crv where
  dom := offsetInterval k c.dom
  minStep := none
  y x :=
    let x0 := x.addQ (-k)
    if !c.dom.contains x0 then .ok none else c.y x0
  xNext x m l := do
    match ← c.xNext (x.addQ (-k)) m l with
    | none => pure none
    | some x1 => if !c.dom.contains x1 then pure none else pure (some (x1.addQ k))
  xPrevious x m l := do
    match ← c.xPrevious (x.addQ (-k)) m l with
    | none => pure none
    | some x1 => if !c.dom.contains x1 then pure none else pure (some (x1.addQ k))

/-! ## Piecewise -/

/-- Loop of `Piecewise.y` (`piecewise.py:25-34`). -/
def piecewiseY (x : Ext) : List (Crv × Iv) → Except Err (Option Num)
  | [] => .ok none
  | (f, d) :: ps =>
    if !d.contains x (enforceStart := false) then piecewiseY x ps
    else if !d.contains x (enforceEnd := false) then .ok none
    else f.y x

/-- Does some candidate lie in its piece (`piecewise.py:42-47`, `57-62`)?  (A candidate `None` is
taken not to lie in it, and `min`/`max` of equal candidates not to raise; the result of the search
is only used through whether there is one.) -/
def anyCandidate : List (Option Ext) → List Iv → Bool
  | some x :: xs, d :: ds => d.contains x || anyCandidate xs ds
  | none :: xs, _ :: ds => anyCandidate xs ds
  | _, _ => false

/-- `Piecewise(funcs, domains)` (`piecewise.py:4-64`) for domains of the same number. -/
def piecewise (ps : List (Crv × Iv)) : Crv where
  dom := Iv.unionAll (ps.map (·.2))
  minStep := none
  y x := piecewiseY x ps
  xNext x m l := do
    match resolve none m with
    | none => .error .type
    | some s =>
      if !(Iv.unionAll (ps.map (·.2))).contains (step x s) (enforceEnd := false) then pure none
      else do
        let xs ← ps.mapM fun p => p.1.xNext x (some s) l
        if anyCandidate xs (ps.map (·.2)) then pure none
        else
          match (ps.map (·.2)).getLast? with
          | none => .error .index
          | some d => if d.contains x then pure (some d.hi) else pure none
  xPrevious x m l := do
    match resolve none m with
    | none => .error .type
    | some s =>
      if !(Iv.unionAll (ps.map (·.2))).contains (stepBack x s) (enforceEnd := false) then pure none
      else do
        let xs ← ps.mapM fun p => p.1.xPrevious x (some s) l
        if anyCandidate xs (ps.map (·.2)) then pure none
        else
          match (ps.map (·.2)).head? with
          | none => .error .index
          | some d => if d.contains x then pure (some d.lo) else pure none

/-- `Piecewise(funcs, domains)`: the check of the constructor (`piecewise.py:14-15`). -/
def mkPiecewise (funcs : List Arg) (domains : List Iv) : Except Err Crv :=
  if funcs.length ≠ domains.length then .error .exception
  else .ok (piecewise ((funcs.map parse).zip domains))

/-! ## subset and blend -/

/-- `c.subset(domain)` (`curve.py:677-679`): the curve is called as a function. -/
def subset (c : Crv) (dom : Iv) : Crv := generic c.y dom c.minStep

/-- `blend_f` (`curve.py:534-537`); a `None` among the values raises `TypeError`. -/
def blendF (s t : ℚ) (x : Ext) (ys : List (Option Num)) : Except Err (Option Num) :=
  match ys with
  | [some a, some b] =>
    match Num.div (Num.sub (.ofExt x) (.fin s)) (.fin (t - s)) with
    | .error e => .error e
    | .ok u => .ok (some (Num.add (Num.mul (Num.sub (.fin 1) u) a) (Num.mul u b)))
  | [none, _] => .error .type
  | [_, none] => .error .type
  | _ => .error .index   -- unreachable

/-- `a.blend(b, s, t)` (`curve.py:530-542`), given what `a.domain.partition([s, t])` returned. -/
def blend (a : Crv) (b : Arg) (s t : ℚ) (parts : List Iv) : Except Err Crv :=
  mkPiecewise [.curve a, .curve (aggregate [a, parse b] (blendF s t)), b] parts

/-! ## d_y -/

/-- `Curve.d_y` (`curve.py:91-112`). -/
def dY (c : Crv) (x : Ext) (forward : Bool := false) (minStep : Option Ext := some MIN_STEP)
    (limit : Option Ext := none) : Except Err (Option Num) := do
  let m := resolve c.minStep minStep
  let x1 ← if forward then c.xNext x m limit else c.xPrevious x m limit
  match x1 with
  | none => pure none
  | some x1 =>
    match ← c.y x1 with
    | none => pure none
    | some y1 =>
      match ← c.y x with
      | none => pure none
      | some y =>
        if x1 = x then
          let dy := if Num.le y y1 then Num.pinf else .ninf
          pure (some (if forward then dy else dy.neg))
        else do
          let q ← Num.div (Num.sub y1 y) (Num.sub (.ofExt x1) (.ofExt x))
          pure (some q)

end Crv
end Curvepy
