import Verif.Model.Sma

/-!
# Accumulators that ask another curve; `Curve.smma`

The scan of `scan.py` and `accumulator.py` as in `Model/Accumulator`, for a transform with a state of its own: the
other curve, which changes when it is asked, and which may read the domain of the source.  `smma` is an EMA that asks an
SMA for its first value.
-/

namespace Curvepy

namespace Accum

/-- A transform with its own state, given the source: its next state, the source after its reads, and the result; `none`
if the bound on the iterations was not enough. -/
abbrev STfm (σ : Type) := σ → Pts ℚ → ℚ → Option ℚ → Option ℚ → Option (σ × Pts ℚ × Except Err (Option ℚ))

/-- Outcome with the state of the transform. -/
structure SOut (σ α : Type) where
  st : Accum
  own : σ
  res : Except Err α

variable {σ : Type}

/-- `Accumulator._accumulate` (`accumulator.py:40-48`), as `accumulate`. -/
def accumulateS (t : STfm σ) (A : Accum) (s : σ) (x : ℚ) (y : Option ℚ) : Option (SOut σ Unit) :=
  let A := { A with acc := A.acc.touch }
  match lastOf A.acc x with
  | .error e => some ⟨A, s, .error e⟩
  | .ok last =>
    match t s A.src x y last with
    | none => none
    | some (s, src, .error e) => some ⟨{ A with src := src }, s, .error e⟩
    | some (s, src, .ok v) =>
      let r := A.acc.append (x, v) quiet
      match r.err with
      | some e => some ⟨{ A with src := src, acc := r.st }, s, .error e⟩
      | none => some ⟨{ A with src := src, acc := r.st }, s, .ok ()⟩

/-- The loop of `Scan.scan` (`scan.py:56-67`), as `scanLoop`. -/
def scanLoopS (t : STfm σ) (x : ℚ) : ℕ → Accum → σ → Option (SOut σ Unit)
  | 0, _, _ => none
  | n + 1, A, s =>
    if A.current.all (fun c => decide (c < x)) then
      match A.nextPos x with
      | (A, .error e) => some ⟨A, s, .error e⟩
      | (A, .ok none) => some ⟨A, s, .ok ()⟩
      | (A, .ok (some c)) =>
        let A := { A with src := A.src.touch }
        if !A.src.domVal.contains c then some ⟨A, s, .ok ()⟩
        else
          match c with
          | .fin c =>
            if A.current.any (fun k => decide (c ≤ k)) then some ⟨A, s, .error .exception⟩
            else
              match A.src.y (.fin c) with
              | .error e => some ⟨A, s, .error e⟩
              | .ok y =>
                match accumulateS t A s c y with
                | none => none
                | some r =>
                  match r.res with
                  | .error e => some ⟨r.st, r.own, .error e⟩
                  | .ok _ => scanLoopS t x n { r.st with current := some c } r.own
          | _ => some ⟨A, s, .error .overflow⟩
    else some ⟨A, s, .ok ()⟩

/-- `Scan.scan` (`scan.py:52-67`), as `scan`. -/
def scanS (t : STfm σ) (A : Accum) (s : σ) (x : ℚ) : Option (SOut σ Unit) :=
  let A := if A.scanStart.any (fun s => decide (x < s)) then A.resetScan else A
  scanLoopS t x (A.src.points.length + 2) A s

/-- `Scan.y` (`scan.py:25-29`), as `query`. -/
def queryS (t : STfm σ) (A : Accum) (s : σ) (x : Ext) : Option (SOut σ (Option ℚ)) :=
  let A := { A with src := A.src.touch }
  let (A, inside) :=
    if A.src.domVal.contains x then (A, true)
    else
      let A := A.touch
      (A, A.domVal.contains x)
  if !inside then some ⟨A, s, .ok none⟩
  else
    match x with
    | .fin q =>
      match A.scanS t s q with
      | none => none
      | some o =>
        match o.res with
        | .error e => some ⟨o.st, o.own, .error e⟩
        | .ok _ => some ⟨{ o.st with acc := o.st.acc.touch }, o.own, o.st.acc.y (.fin q)⟩
    | _ => some ⟨A, s, .error .overflow⟩

end Accum

/-- `Curve.smma(degree)`: the EMA, with the source, and the SMA that it asks.  The source of the SMA is that of the EMA:
the one stored with the SMA is not used. -/
structure Smma where
  ema : Accum
  sma : Accum

namespace Smma
open Accum Sma

/-- `EMA._ema_scan` (`ema.py:39-53`) with `alpha = 1 / degree` and `init` the SMA (`curve.py:596-601`). -/
def smmaTfm (n fuel : ℕ) : STfm Accum := fun S src x y ema =>
  match y with
  | none => some (S, src, .ok ema)
  | some y =>
    match ema with
    | none => (smaY (.degree n) fuel { S with src := src } (.fin x)).map fun o => (o.st, o.st.src, o.res)
    | some e => some (S, src, .ok (some (e + 1 / (n : ℚ) * (y - e))))

/-- `Curve.smma` (`curve.py:596-601`) for a degree that is a number of points.  The degree is checked by `SMA`. -/
def new (src : Pts ℚ) (n : ℕ) (minStep : ℚ) (uniform : Bool := true) : Except Err Smma :=
  match Sma.new src (.degree n) minStep uniform with
  | .error e => .error e
  | .ok S => .ok ⟨Accum.new src minStep .linear uniform, S⟩

/-- `y`. -/
def query (n fuel : ℕ) (S : Smma) (x : Ext) : Option (Smma × Except Err (Option ℚ)) :=
  (S.ema.queryS (smmaTfm n fuel) S.sma x).map fun o => (⟨o.st, o.own⟩, o.res)

/-- An edit of the source, which both observe. -/
def edit (S : Smma) (op : Spec.Op ℚ) (r : Pts.Reads) : Smma :=
  ⟨(S.ema.edit op r).1, ({ S.sma with src := S.ema.src }.edit op r).1⟩

/-- Reading `domain`. -/
def touch (S : Smma) : Smma := ⟨S.ema.touch, S.sma⟩

/-- Reading the `domain` of the source. -/
def touchSource (S : Smma) : Smma := ⟨{ S.ema with src := S.ema.src.touch }, S.sma⟩

end Smma
end Curvepy
