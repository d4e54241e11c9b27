import Verif.Model.Accumulator
import Verif.Model.Trend

/-!
# `curvepy/trend.py`: `Trend` as a scan of its source

A `Trend` over a `Points` source.  The own cached domain, which every `end_update` clears, is taken to be that of
the source, extended; observers of the trend are left out.  `Trend` does not override `reset_scan`.  A history ends
with an exception: the state that a failed scan leaves behind is not modelled.
-/

namespace Curvepy

/-- State of a `Trend` with its source (`trend.py:26-47`, `scan.py:11-17`). -/
structure TScan where
  src : Pts ℚ
  trd : Trd
  minStep : ℚ
  scanStart : Option ℚ
  current : Option ℚ

namespace TScan

/-- `Trend.__init__` (`trend.py:26-47`, `scan.py:11-17`). -/
def new (src : Pts ℚ) (trd : Trd) (minStep : ℚ) : TScan :=
  { src := src, trd := trd, minStep := minStep, scanStart := none, current := none }

/-- `Interval.extended_to_positive_infinity`; an empty interval stays empty. -/
def extended (d : Iv) : Iv := if d.isEmpty then Iv.empty else ⟨d.lo, .pinf, d.loOpen, true⟩

/-- `Trend.get_domain` (`trend.py:23-24`). -/
def domVal (A : TScan) : Iv := extended A.src.domVal

/-- The lines of all levels, the upper ones first. -/
def allLines (A : TScan) : List TLine := A.trd.upper.flatten ++ A.trd.lower.flatten

/-- `continue_scan` (`trend.py:66-91`, `scan.py:34-35`), when something was scanned. -/
def continueScan (A : TScan) (c x : ℚ) : Bool :=
  if c < x then true
  else if !A.domVal.contains (.fin c) then false
  else if A.allLines.any fun l => l.search.contains (.fin x) (enforceEnd := false) then true
  else A.allLines.isEmpty

/-- `reset_scan` (`scan.py:48-50`). -/
def resetScan (A : TScan) : TScan := { A with scanStart := none, current := none }

/-- `init_scan` (`scan.py:37-43`). -/
def initScan (A : TScan) (x : ℚ) : Except Err (Option Ext) :=
  if A.src.domVal.isEmpty || A.src.domVal.isNegInf then .ok (some (.fin x))
  else if !A.domVal.contains A.src.domVal.lo then A.src.xNext A.src.domVal.lo (some A.minStep)
  else .ok (some A.src.domVal.lo)

/-- The position to process next (`scan.py:57-61`, `85-87`). -/
def nextPos (A : TScan) (x : ℚ) : Except Err (TScan × Option Ext) :=
  match A.current with
  | none => do
    let p ← A.initScan x
    pure ({ A with scanStart := Accum.finPart p }, p)
  | some c => do
    let p ← A.src.xNext (.fin c) (some A.minStep)
    pure (A, p)

/-- The loop of `scan` (`scan.py:56-67`); the first argument bounds the iterations, also those of `_trend_scan`.
`none` means that they were not enough. -/
def scanLoop (x : ℚ) : ℕ → TScan → Option (Except Err TScan)
  | 0, _ => none
  | n + 1, A =>
    if A.current.all (fun c => A.continueScan c x) then
      match A.nextPos x with
      | .error e => some (.error e)
      | .ok (A, none) => some (.ok A)
      | .ok (A, some c) =>
        if !A.src.domVal.contains c then some (.ok A)
        else
          match c with
          | .fin c =>
            if A.current.any (fun k => decide (c ≤ k)) then some (.error .exception)
            else
              match A.src.y (.fin c) with
              | .error e => some (.error e)
              | .ok y =>
                match A.trd.trendScan n c y with
                | .error e => some (.error e)
                | .ok (.more ..) => none
                | .ok (.done s) => scanLoop x n { A with trd := s, current := some c }
          | _ => some (.error .overflow)
    else some (.ok A)

/-- `scan` (`scan.py:52-67`). -/
def scan (n : ℕ) (A : TScan) (x : ℚ) : Option (Except Err TScan) :=
  scanLoop x n (if A.scanStart.any (fun s => decide (x < s)) then A.resetScan else A)

/-- `y` (`scan.py:25-29`, `trend.py:63-64`). -/
def query (n : ℕ) (A : TScan) (x : ℚ) : Option (Except Err (TScan × Option (List TLine))) :=
  if !A.src.domVal.contains (.fin x) && !A.domVal.contains (.fin x) then some (.ok (A, none))
  else
    match A.scan n x with
    | none => none
    | some (.error e) => some (.error e)
    | some (.ok A) => some (.ok (A, some (A.trd.scannedY (some x))))

/-- The scan at the beginning of `upper` and `lower` (`trend.py:54-55`, `59-60`); the domain is not looked at. -/
def scanTo (n : ℕ) (A : TScan) : Option ℚ → Option (Except Err TScan)
  | none => some (.ok A)
  | some x => A.scan n x

/-- `upper` (`trend.py:53-56`). -/
def upper (n : ℕ) (A : TScan) (x : Option ℚ) : Option (Except Err (TScan × List TLine)) :=
  match A.scanTo n x with
  | none => none
  | some (.error e) => some (.error e)
  | some (.ok B) => some (.ok (B, B.trd.scannedUpper x))

/-- `lower` (`trend.py:58-61`). -/
def lower (n : ℕ) (A : TScan) (x : Option ℚ) : Option (Except Err (TScan × List TLine)) :=
  match A.scanTo n x with
  | none => none
  | some (.error e) => some (.error e)
  | some (.ok B) => some (.ok (B, B.trd.scannedLower x))

/-- `lines` (`trend.py:49-51`); nothing is scanned. -/
def lines (A : TScan) : List TLine := A.trd.scannedLower none ++ A.trd.scannedUpper none

/-! ## Updates -/

/-- What `begin_scan_update` does before `begin_update` (`scan.py:98-105`). -/
def dropScanned (A : TScan) (d : Iv) : TScan :=
  let A := if A.current.any (fun c => Accum.touches d c) then A.resetScan else A
  match A.current, A.scanStart with
  | some c, some s => if c < s then A.resetScan else A
  | _, _ => A

/-- `begin_scan_update` (`scan.py:98-107`, `trend.py:93-120`). -/
def onBegin (A : TScan) (d : Iv) : Except Err TScan := do
  let d := Accum.updateInterval d
  let A := A.dropScanned d
  let s ← A.trd.beginUpdate d
  pure { A with trd := s }

/-- The notifications of an edit; only the ones at its beginning do anything here. -/
def notifyAll (A : TScan) : List (Pts.Ev ℚ) → Except Err TScan
  | [] => .ok A
  | .begin d _ :: es => do
    let A ← A.onBegin d
    A.notifyAll es
  | .fin _ _ :: es => A.notifyAll es

/-- An edit of the source (as in `Accum.edit`). -/
def edit (A : TScan) (op : Spec.Op ℚ) (r : Pts.Reads) : Except Err TScan :=
  let res := op.run A.src r
  { A with src := res.st }.notifyAll res.ev

end TScan
end Curvepy
