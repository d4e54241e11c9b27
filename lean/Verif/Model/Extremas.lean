import Verif.Model.Accumulator

/-!
# `curvepy/extremas.py`

Extremas of a `Points` source about a reference curve given by its values.  `possible_extrema` and
`possible_extrema_phase` are set and cleared together.  The own cached domain, which every `end_update`
clears, is taken to be that of the source; observers of the extremas are left out.  `bisect` of the standard
library is taken by its documented meaning on sorted lists.
-/

namespace Curvepy

/-- State of `Extremas` (`extremas.py:10-20`, `scan.py:11-17`). -/
structure Extr where
  src : Pts ℚ
  ref : ℚ → Option ℚ
  minDev : ℚ
  minStep : ℚ
  extremas : List (ℚ × ℚ)
  /-- `possible_extrema` and `possible_extrema_phase` -/
  possible : Option ((ℚ × ℚ) × ℚ)
  scanStart : Option ℚ
  current : Option ℚ

namespace Extr

/-- `Extremas.__init__` (`extremas.py:10-20`). -/
def new (src : Pts ℚ) (ref : ℚ → Option ℚ) (minDev minStep : ℚ) : Extr :=
  { src := src, ref := ref, minDev := |minDev|, minStep := minStep, extremas := [], possible := none,
    scanStart := none, current := none }

/-- `extrema_interval` (`extremas.py:128-135`). -/
def interval (es : List (ℚ × ℚ)) : Iv :=
  match es with
  | [] => Iv.empty
  | e :: es => Iv.closed e.1 ((e :: es).getLast (by simp)).1

/-- `bisect.bisect(xs, x)`. -/
def bisectRight (es : List (ℚ × ℚ)) (x : ℚ) : ℕ := (es.takeWhile fun e => decide (e.1 ≤ x)).length

/-- `bisect.bisect_left(xs, x)`. -/
def bisectLeft (es : List (ℚ × ℚ)) (x : ℚ) : ℕ := (es.takeWhile fun e => decide (e.1 < x)).length

/-- `scanned_y` (`extremas.py:25-36`). -/
def scannedY (es : List (ℚ × ℚ)) (x : ℚ) : Except Err (Option ℚ) :=
  if !(interval es).contains (.fin x) then .ok none
  else if .fin x = (interval es).lo then do
    let e ← pyGet es 0
    pure (some e.2)
  else if .fin x = (interval es).hi then do
    let e ← pyGet es (-1)
    pure (some e.2)
  else do
    let i : ℤ := bisectRight es x
    let p1 ← pyGet es (i - 1)
    let p2 ← pyGet es i
    if p2.1 - p1.1 = 0 then .error .zeroDiv
    else
      let u := (x - p1.1) / (p2.1 - p1.1)
      pure (some ((1 - u) * p1.2 + u * p2.2))

/-- `x_next` (`extremas.py:55-63`). -/
def xNext (A : Extr) (x : ℚ) (minStep : ℚ) : Except Err (Option Ext) :=
  let m := max minStep A.minStep
  if (interval A.extremas).contains (.fin (x + m)) then do
    let i : ℤ := bisectLeft A.extremas (x + m)
    let e ← pyGet A.extremas i
    if e.1 < x + m then
      let e ← pyGet A.extremas (i + 1)
      pure (some (.fin e.1))
    else pure (some (.fin e.1))
  else A.src.xNext (.fin x) (some m)

/-- `x_previous` (`extremas.py:45-53`). -/
def xPrevious (A : Extr) (x : ℚ) (minStep : ℚ) : Except Err (Option Ext) :=
  let m := max minStep A.minStep
  if (interval A.extremas).contains (.fin (x - m)) then do
    let i : ℤ := bisectLeft A.extremas (x - m)
    let e ← pyGet A.extremas i
    if e.1 > x - m then
      let e ← pyGet A.extremas (i - 1)
      pure (some (.fin e.1))
    else pure (some (.fin e.1))
  else A.src.xPrevious (.fin x) (some m)

/-- What `_extrema_scan` works on: `extremas` and the possible extrema. -/
abbrev Found := List (ℚ × ℚ) × Option ((ℚ × ℚ) × ℚ)

/-- `_extrema_scan` from where the deviation is large enough (`extremas.py:100-114`, `121-126`). -/
def extremaStep (s : Found) (x y phase : ℚ) : Found :=
  match s.2 with
  | none => (s.1, some ((x, y), phase))
  | some (p, ph) =>
    if ph * phase < 0 then (s.1 ++ [p], some ((x, y), phase))
    else if (phase > 0 ∧ y > p.2) ∨ (phase < 0 ∧ y < p.2) then (s.1, some ((x, y), phase))
    else s

/-- `_extrema_scan` (`extremas.py:90-114`). -/
def extremaScan (ref : ℚ → Option ℚ) (minDev : ℚ) (s : Found) (x : ℚ) (y : Option ℚ) : Except Err Found :=
  match y with
  | none => .ok s
  | some y =>
    match ref x with
    | none => .ok s
    | some y0 =>
      if y0 = 0 then .error .zeroDiv
      else if |y / y0 - 1| ≤ minDev then .ok s
      else .ok (extremaStep s x y (y - y0))

/-- `continue_scan` (`extremas.py:38-43`, `scan.py:34-35`), when something was scanned. -/
def continueScan (A : Extr) (c x : ℚ) : Bool :=
  if c < x then true
  else if !A.src.domVal.contains (.fin c) then false
  else !(interval A.extremas).contains (.fin x) (enforceStart := false)

/-- `reset_scan` (`scan.py:48-50`). -/
def resetScan (A : Extr) : Extr := { A with scanStart := none, current := none }

/-- `init_scan` (`scan.py:37-43`).  The own domain is that of the source, so it contains its start. -/
def initScan (A : Extr) (x : ℚ) : Option Ext :=
  if A.src.domVal.isEmpty || A.src.domVal.isNegInf then some (.fin x) else some A.src.domVal.lo

/-- The position to process next (`scan.py:57-61`). -/
def nextPos (A : Extr) (x : ℚ) : Extr × Except Err (Option Ext) :=
  match A.current with
  | none => ({ A with scanStart := Accum.finPart (A.initScan x) }, .ok (A.initScan x))
  | some c => (A, A.xNext c A.minStep)

/-- The loop of `scan` (`scan.py:56-67`); the first argument bounds the iterations. -/
def scanLoop (x : ℚ) : ℕ → Extr → Option (Extr × Option Err)
  | 0, _ => none
  | n + 1, A =>
    if A.current.all (fun c => A.continueScan c x) then
      match A.nextPos x with
      | (A, .error e) => some (A, some e)
      | (A, .ok none) => some (A, none)
      | (A, .ok (some c)) =>
        if !A.src.domVal.contains c then some (A, none)
        else
          match c with
          | .fin c =>
            if A.current.any (fun k => decide (c ≤ k)) then some (A, some .exception)
            else
              match A.src.y (.fin c) with
              | .error e => some (A, some e)
              | .ok y =>
                match extremaScan A.ref A.minDev (A.extremas, A.possible) c y with
                | .error e => some (A, some e)
                | .ok s => scanLoop x n { A with extremas := s.1, possible := s.2, current := some c }
          | _ => some (A, some .overflow)
    else some (A, none)

/-- `scan` (`scan.py:52-67`). -/
def scan (A : Extr) (x : ℚ) : Option (Extr × Option Err) :=
  let A := if A.scanStart.any (fun s => decide (x < s)) then A.resetScan else A
  scanLoop x (A.src.points.length + 2) A

/-- `y` (`scan.py:25-29`, `extremas.py:25-36`). -/
def query (A : Extr) (x : Ext) : Option (Extr × Except Err (Option ℚ)) :=
  if !A.src.domVal.contains x then some (A, .ok none)
  else
    match x with
    | .fin q =>
      match A.scan q with
      | none => none
      | some (A, some e) => some (A, .error e)
      | some (A, none) => some (A, scannedY A.extremas q)
    | _ => some (A, .error .overflow)

/-! ## Updates -/

/-- The loop over the extremas from the last (`extremas.py:68-73`), on the reversed list.  Says whether one
was removed. -/
def dropStale (d : Iv) : List (ℚ × ℚ) → List (ℚ × ℚ) × Bool
  | [] => ([], false)
  | e :: es =>
    if d.contains (.fin e.1) then ((dropStale d es).1, true)
    else if d.lo > .fin e.1 then (e :: es, false)
    else (e :: (dropStale d es).1, (dropStale d es).2)

/-- `begin_update` (`extremas.py:65-84`) without the notification. -/
def beginUpdate (A : Extr) (d : Iv) : Extr × Option Err :=
  let r := dropStale d A.extremas.reverse
  let A := { A with extremas := r.1.reverse, possible := if r.2 then none else A.possible }
  match A.extremas.getLast? with
  | none => ({ A with current := none }, none)
  | some e =>
    match A.ref e.1 with
    -- `possible_extrema` is set, its phase raises
    | none => ({ A with current := some e.1 }, some .type)
    | some y0 => ({ A with current := some e.1, possible := some (e, e.2 - y0) }, none)

/-- `begin_scan_update` (`scan.py:98-107`). -/
def onBegin (A : Extr) (d : Iv) : Extr × Option Err :=
  let d := Accum.updateInterval d
  let A := if A.current.any (fun c => Accum.touches d c) then A.resetScan else A
  let A :=
    match A.current, A.scanStart with
    | some c, some s => if c < s then A.resetScan else A
    | _, _ => A
  A.beginUpdate d

/-- The notifications of an edit; only the ones at its beginning do anything here. -/
def notifyAll (A : Extr) : List (Pts.Ev ℚ) → Extr × Option Err
  | [] => (A, none)
  | .begin d _ :: es =>
    match A.onBegin d with
    | (A, some e) => (A, some e)
    | (A, none) => A.notifyAll es
  | .fin _ _ :: es => A.notifyAll es

/-- An edit of the source (as in `Accum.edit`). -/
def edit (A : Extr) (op : Spec.Op ℚ) (r : Pts.Reads) : Extr × Option Err :=
  let res := op.run A.src r
  { A with src := res.st }.notifyAll res.ev

end Extr
end Curvepy
