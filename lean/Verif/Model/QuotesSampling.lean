import Verif.Model.Quotes
import Verif.Model.PointsSampling
import Verif.Model.OffsetDuration

/-!
# Sampling of quotes (`curvepy/quotes.py`)

`Duration.span` is assumed as far as `test/quotes_test.py:118-155` shows it: whole periods, closed at their beginning.
-/

namespace Curvepy

/-- `Duration.span(d, start_open=False)`: the smallest run of whole periods that contains `d`; infinite bounds stay. -/
def Dur.span (D : Dur) (d : Iv) : Iv where
  lo := match d.lo with | .fin q => .fin (D.floor q) | x => x
  loOpen := match d.lo with | .fin _ => false | _ => d.loOpen
  hi := match d.hi with | .fin q => .fin (if d.hiOpen then D.ceil q else D.next q) | x => x
  hiOpen := match d.hi with | .fin _ => true | _ => d.hiOpen

namespace Quotes

/-- `sample_points` (`quotes.py:224-229`). -/
def samplePoints (q : Quotes) (D : Dur) (domain : Option Iv) (minStep step : Option ℚ) (fuel : ℕ) :
    Option (Except Err (List (Pt Quote))) :=
  let d := domain.getD Iv.infinite
  if d.isEmpty then some (.ok []) else q.points.samplePoints (some (D.span d)) minStep step fuel

/-- `sample` (`quotes.py:216-222`). -/
def sample (q : Quotes) (D : Dur) (domain : Option Iv) (minStep step : Option ℚ) (fuel : ℕ) :
    Option (Except Err (List (Option Quote))) :=
  (q.samplePoints D domain minStep step fuel).map fun r => r.map fun ps => ps.map (·.2)

/-- `get_quote_domain` (`quotes.py:93-97`). -/
def quoteDomain (q : Quotes) (D : Dur) : Iv :=
  let d := q.points.domVal
  if d.isEmpty then d else D.span d

/-- `first_quote` (`quotes.py:134-135`, `curve.py:73-74`). -/
def firstQuote (q : Quotes) : Except Err (Option Quote) := q.y q.points.domVal.lo

/-- `last_quote` (`quotes.py:131-132`, `curve.py:76-77`). -/
def lastQuote (q : Quotes) : Except Err (Option Quote) := q.y q.points.domVal.hi

/-- `x_next` (`quotes.py:234-236`): the minimum step of the quotes is not used. -/
def xNext (q : Quotes) (x : Ext) (minStep : Option ℚ) : Except Err (Option Ext) := q.points.xNext x minStep

/-- `x_previous` (`quotes.py:238-240`). -/
def xPrevious (q : Quotes) (x : Ext) (minStep : Option ℚ) : Except Err (Option Ext) := q.points.xPrevious x minStep

end Quotes
end Curvepy
