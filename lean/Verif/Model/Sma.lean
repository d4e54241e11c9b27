import Verif.Model.Accumulator

/-!
# `curvepy/sma.py`

`SMA` over a `Points` source.  It is an `Integral` (state `Accum`) with its own domain, start of the scan and
values.  The recursion of `y` takes the depth left; running out of it is a `RecursionError`.
-/

namespace Curvepy

namespace Sma
open Accum

/-- `period` or `degree` (`sma.py:36-47`). -/
inductive Window where
  | period (p : ℚ)
  | degree (n : ℕ)
deriving DecidableEq, Repr

/-- The checks of `SMA.__init__` (`sma.py:36-47`). -/
def Window.valid : Window → Bool
  | .period p => decide (0 < p)
  | .degree n => decide (0 < n)

/-- `SMA.__init__`. -/
def new (src : Pts ℚ) (w : Window) (minStep : ℚ) (uniform : Bool := true) : Except Err Accum :=
  if w.valid then .ok (Accum.new src minStep .linear uniform) else .error .exception

/-- `n` steps back, as far as there are points (`sma.py:117-122`). -/
def stepBack (src : Pts ℚ) (m : ℚ) : ℕ → Ext → Except Err Ext
  | 0, x => .ok x
  | n + 1, x =>
    match src.xPrevious x (some m) with
    | .error e => .error e
    | .ok none => .ok x
    | .ok (some x1) => stepBack src m n x1

/-- `n` steps ahead, as far as there are points (`sma.py:131-136`). -/
def stepOn (src : Pts ℚ) (m : ℚ) : ℕ → Ext → Except Err Ext
  | 0, x => .ok x
  | n + 1, x =>
    match src.xNext x (some m) with
    | .error e => .error e
    | .ok none => .ok x
    | .ok (some x1) => stepOn src m n x1

/-- `n` steps ahead, `None` if there are not that many (`sma.py:25-28`). -/
def forward (src : Pts ℚ) (m : ℚ) : ℕ → Ext → Except Err (Option Ext)
  | 0, x => .ok (some x)
  | n + 1, x =>
    match src.xNext x (some m) with
    | .error e => .error e
    | .ok none => .ok none
    | .ok (some x1) => forward src m n x1

/-- `SMA._sma_start` (`sma.py:112-125`). -/
def smaStart (src : Pts ℚ) (w : Window) (m x : ℚ) : Except Err (Option Ext) :=
  match w with
  | .period p => src.xNext (.fin (x - p)) (some m)
  | .degree n =>
    match stepBack src m (n - 1) (.fin x) with
    | .error e => .error e
    | .ok x0 => .ok (some x0)

/-- `SMA._sma_end` (`sma.py:127-140`). -/
def smaEnd (src : Pts ℚ) (w : Window) (m x : ℚ) : Except Err (Option Ext) :=
  match w with
  | .period p => src.xPrevious (.fin (x + p)) (some m)
  | .degree n =>
    match stepOn src m (n - 1) (.fin x) with
    | .error e => .error e
    | .ok x1 => .ok (some x1)

/-- The end of `SMA.get_domain` (`sma.py:31-34`). -/
def domainFrom (start finish : ℚ) : Iv :=
  if finish < start then Iv.empty else Iv.closed start finish

/-- `SMA.get_domain` (`sma.py:13-34`). -/
def smaDomain (src : Pts ℚ) (w : Window) (m : ℚ) : Except Err Iv :=
  if src.domVal.isEmpty then .ok Iv.empty
  else
    match src.domVal.lo, src.domVal.hi with
    | .fin a, .fin b =>
      match w with
      | .period p =>
        match src.xPrevious (.fin (a + p)) (some m) with
        | .error e => .error e
        | .ok (some (.fin x)) => .ok (domainFrom (a + (x - a)) b)
        | .ok _ => .ok (domainFrom (a + p) b)
      | .degree n =>
        match forward src m (n - 1) (.fin a) with
        | .error e => .error e
        | .ok (some (.fin x)) => .ok (domainFrom (a + (x - a)) b)
        | .ok _ => .ok Iv.empty
    | _, _ => .error .overflow      -- the domain of `Points` is finite

/-- Reading `self.domain` (`curve.py:36-40`). -/
def smaTouch (w : Window) (A : Accum) : Accum × Except Err Iv :=
  match A.cache with
  | some d => (A, .ok d)
  | none =>
    let A := { A with src := A.src.touch }
    match smaDomain A.src w A.minStep with
    | .error e => (A, .error e)
    | .ok d => ({ A with cache := some d }, .ok d)

/-- The position to process next (`scan.py:57-61`); `init_scan` gives the start back (`sma.py:55-56`). -/
def smaNext (s : Option Ext) (A : Accum) : Accum × Except Err (Option Ext) :=
  match A.current with
  | none => ({ A with scanStart := finPart s }, .ok s)
  | some c => (A, A.xNext (.fin c) A.minStep)

/-- The loop of `Scan.scan` (`scan.py:56-67`), like `Accum.scanLoop`. -/
def smaLoop (x : ℚ) (s : Option Ext) : ℕ → Accum → Option (Out Unit)
  | 0, _ => none
  | n + 1, A =>
    if A.current.all (fun c => decide (c < x)) then
      match smaNext s A with
      | (A, .error e) => some ⟨A, [], .error e⟩
      | (A, .ok none) => some ⟨A, [], .ok ()⟩
      | (A, .ok (some c)) =>
        let A := { A with src := A.src.touch }
        if !A.src.domVal.contains c then some ⟨A, [], .ok ()⟩
        else
          match c with
          | .fin c =>
            if A.current.any (fun k => decide (c ≤ k)) then some ⟨A, [], .error .exception⟩
            else
              match A.src.y (.fin c) with
              | .error e => some ⟨A, [], .error e⟩
              | .ok y =>
                let r := accumulate (integralTfm .linear) A c y
                match r.res with
                | .error e => some ⟨r.st, r.calls, .error e⟩
                | .ok _ =>
                  match smaLoop x s n { r.st with current := some c } with
                  | none => none
                  | some o => some ⟨o.st, r.calls ++ o.calls, o.res⟩
          | _ => some ⟨A, [], .error .overflow⟩
    else some ⟨A, [], .ok ()⟩

/-- `Scan.scan` (`scan.py:52-67`) with `offset_scan` of `SMA` (`sma.py:64-65`). -/
def smaScan (w : Window) (A : Accum) (x : ℚ) : Option (Out Unit) :=
  match smaStart A.src w A.minStep x with
  | .error e => some ⟨A, [], .error e⟩
  | .ok s =>
    match finPart s, A.scanStart with
    | none, some _ => some ⟨A, [], .error .type⟩      -- `None < scan_start`
    | some q, some c =>
      let A := if q < c then A.resetScan else A
      smaLoop x s (A.src.points.length + 2) A
    | _, none => smaLoop x s (A.src.points.length + 2) A

/-- `super().y(x)`: `Scan.y` (`scan.py:25-29`) with `Integral.scanned_y` (`integral.py:16-20`, `const = 0`). -/
def superY (w : Window) (A : Accum) (x : ℚ) : Option (Out (Option ℚ)) :=
  let go (A : Accum) : Option (Out (Option ℚ)) :=
    match smaScan w A x with
    | none => none
    | some o =>
      match o.res with
      | .error e => some ⟨o.st, o.calls, .error e⟩
      | .ok _ => some ⟨{ o.st with acc := o.st.acc.touch }, o.calls,
          (o.st.acc.y (.fin x)).map (Option.map (· + 0))⟩
  let A := { A with src := A.src.touch }
  if A.src.domVal.contains (.fin x) then go A
  else
    match smaTouch w A with
    | (A, .error e) => some ⟨A, [], .error e⟩
    | (A, .ok d) => if d.contains (.fin x) then go A else some ⟨A, [], .ok none⟩

/-- One call after another; a `None` ends `y` (`sma.py:81-85`, `96-97`, `105-106`). -/
def whenSome (r : Option (Out (Option ℚ))) (f : Accum → ℚ → Option (Out (Option ℚ))) :
    Option (Out (Option ℚ)) :=
  match r with
  | none => none
  | some o =>
    match o.res with
    | .error e => some ⟨o.st, o.calls, .error e⟩
    | .ok none => some ⟨o.st, o.calls, .ok none⟩
    | .ok (some v) => (f o.st v).map fun o' => ⟨o'.st, o.calls ++ o'.calls, o'.res⟩

/-- A last value. -/
def answer (A : Accum) (r : Except Err (Option ℚ)) : Option (Out (Option ℚ)) := some ⟨A, [], r⟩

/-- `SMA.y` (`sma.py:67-110`). -/
def smaY (w : Window) : ℕ → Accum → Ext → Option (Out (Option ℚ))
  | 0, A, _ => answer A (.error .recursion)
  | fuel + 1, A, x =>
    match smaTouch w A with
    | (A, .error e) => answer A (.error e)
    | (A, .ok d) =>
      if !d.contains x then answer A (.ok none)
      else
        match x with
        | .fin x =>
          match smaStart A.src w A.minStep x with
          | .error e => answer A (.error e)
          | .ok s =>
            match finPart s with
            | none => answer A (.error .type)      -- `None + period`
            | some x0 =>
              match smaEnd A.src w A.minStep x0 with
              | .error e => answer A (.error e)
              | .ok e =>
                if x0 = x || finPart e = some x0 then answer A (A.src.y (.fin x))
                else
                  whenSome (superY w A x0) fun A y0 =>
                    match finPart e with
                    | none => answer A (.error .type)      -- `domain.contains(None)`
                    | some x1 =>
                      whenSome (superY w A x1) fun A y1 =>
                        let sma1 := (y1 - y0) / (x1 - x0)
                        if x = x1 then answer A (.ok (some sma1))
                        else if x1 < x then
                          match A.src.xNext (.fin x1) (some A.minStep) with
                          | .error e => answer A (.error e)
                          | .ok e2 =>
                            match finPart e2 with
                            | none => answer A (.error .type)
                            | some x2 =>
                              if x2 = x then answer A (.ok (some sma1))
                              else
                                whenSome (smaY w fuel A (.fin x2)) fun A sma2 =>
                                  let u := (x - x1) / (x2 - x1)
                                  answer A (.ok (some (u * sma2 + (1 - u) * sma1)))
                        else
                          match A.src.xPrevious (.fin x1) (some A.minStep) with
                          | .error e => answer A (.error e)
                          | .ok e01 =>
                            match finPart e01 with
                            | none => answer A (.error .type)
                            | some x01 =>
                              if x01 = x then answer A (.ok (some sma1))
                              else
                                whenSome (smaY w fuel A (.fin x01)) fun A sma01 =>
                                  let u := (x - x01) / (x1 - x01)
                                  answer A (.ok (some (u * sma01 + (1 - u) * sma1)))
        | _ => answer A (.error .overflow)      -- the domain is finite

end Sma
end Curvepy
