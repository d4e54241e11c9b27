import Verif.Model.EmaInit
import Verif.Model.Extremas
import Verif.Model.TrendScan

/-!
# `Scan.begin_scan_reset` and `Scan.end_scan_reset`

Called by no other method: whoever knows that what a scan has found is out of date calls the one, and then the other.  The first is
`reset_scan` and an update of everything that begins, the second the end of that update.  For extremas and trends the cached domain
and observers are left out, as in their models.
-/

namespace Curvepy
namespace Accum

/-- `begin_scan_reset` (`scan.py:91-93`), with the intervals passed on to observers. -/
def beginReset (A : Accum) : Accum × List Iv × Option Err := A.resetScan.beginUpdate Iv.infinite

/-- `end_scan_reset` (`scan.py:95-96`). -/
def endReset (A : Accum) : Accum × List Iv := A.gateEnd Iv.infinite

/-- One after the other: what is left, and whether the first raised. -/
def recalculate (A : Accum) : Accum × Option Err :=
  match A.beginReset with
  | (A, _, some e) => (A, some e)
  | (A, _, none) => (A.endReset.1, none)

end Accum

/-- The same for an average with an `init` curve, which is not told. -/
def EmaInit.recalculate (E : EmaInit) : EmaInit × Option Err := (⟨E.ema.recalculate.1, E.init⟩, E.ema.recalculate.2)

/-- `begin_scan_reset` (`scan.py:91-93`, `extremas.py:65-84`); its end does nothing here. -/
def Extr.recalculate (A : Extr) : Extr × Option Err := A.resetScan.beginUpdate Iv.infinite

/-- `begin_scan_reset` (`scan.py:91-93`, `trend.py:93-120`); its end does nothing here. -/
def TScan.recalculate (A : TScan) : Except Err TScan := do
  let s ← A.resetScan.trd.beginUpdate Iv.infinite
  pure { A.resetScan with trd := s }

end Curvepy
