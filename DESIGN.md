# A formal model of curvepy in Lean 4

This file says what is modelled, how, and what one has to trust.  `properties.jsonl` lists
the properties, `MANIFEST.json` says which theorem settles which property, and
`seeded/LOG.jsonl` records the mutations tried against the model.

## Layout

* `lean/Verif/Model/*`  - definitions mirroring the Python code, function by function.  Every
  definition cites file and lines in /repo and states where it simplifies.
* `lean/Verif/Spec/*`   - small independent specifications (no use of the model's helpers).
* `lean/Verif/Lemmas/*` - helper lemmas.
* `lean/Verif/Props/*`  - the property theorems, one file per topic, each with an `example`
  showing a non-trivial instance that meets the hypotheses.
* `lean/Verif/Conformance/*` - the repository's own unit tests, transcribed as computations in
  the model.  They settle no property; they are tests that the model says what the authors of
  the code say it should.  A test names its origin in /repo/test.

## Trusted base

* Lean 4's kernel and the axioms `propext`, `Classical.choice`, `Quot.sound` (checked with
  `#print axioms`; no `sorry`, no own axioms, no `native_decide`/`bv_decide`).
* Numbers.  Python floats are modelled by exact rationals: every finite float is a rational,
  and the model evaluates the same expressions without rounding.  `inf`/`-inf` are modelled
  where the code produces or compares them (positions: type `Ext`; quotients: type `Num`).
  `nan` is modelled where arithmetic of curves produces it.  Signed zero is not modelled, and
  rounding only from C146 on: there every operation on floats rounds its exact result with a function `fl` of which
  `Spec/Rounding` is assumed; `fl64` (`Model/Float`: to 53 digits, ties to even) is proved to be one.  Overflow and underflow are not
  modelled; comparisons, `int`, `% 1`, `ceil`, `floor` and Python's integers are exact.  `Sin` and the sine extension use
  Mathlib's real `sin`/`cos`/`arg` instead of `math.sin`/`math.cos`/`math.atan2`.  Powers and logarithms of curves, and the
  windows of `harmonic_smas`, are over the reals too, with Mathlib's `rpow`, `logb` and golden ratio.
* `intervalpy.Interval` is third party and its source is not in /repo.  Its assumed contract
  is `Verif/Model/Interval.lean`: an interval is a convex set given by bounds and open flags,
  `union` is the hull, an empty interval is contained in everything, `infinite()` contains
  `inf`.  `Verif/Lemmas/Interval.lean` proves that the executable contract is the
  set-theoretic one.  `start`/`end` of an empty interval are not relied on.
  `Interval(x, None)` is assumed to raise `TypeError` (used for regressions over too few points).
* `pyduration.Duration`, `numpy.linalg.lstsq`, `numpy.polyfit`, `arrow.get` are external: they
  appear as parameters or are left out, as stated per property.  The contract of `Duration` for offsets is `Dur` in
  `Model/OffsetDuration`: the periods are numbered by the integers, begin at increasing positions without gaps;
  `floor`/`ceil` give the beginning of the period or of the next, `step` moves by that many periods.
* Python semantics: exceptions are values (`Except`, or a state plus an error where the state
  after the exception matters); lists, dicts and attribute updates are pure data; object
  identity is a number.  Weak references and `__del__` are modelled only where a property is
  about them.  Threads are not modelled (the library has none).
* `inspect.signature` gives the list of parameters of a function, and a call with positional arguments is accepted exactly if
  `Spec.binds` says so (`Spec/Call`).
* Callbacks given by users are arbitrary functions in the model wherever a property
  quantifies over them.

## What is not modelled

`__repr__` methods other than those of C174, `Duration`-driven stepping beyond its
assumed interface, `numpy` fits of more than two points (properties about them are stated
relative to the fit), module imports, the command line and docs.

## Plan per property

| id | model | proof |
|----|-------|-------|
| C01-C05 | `Model/Points`: state with points, flags, `interval`, domain cache; `x_index`, `_bisect_points`, `y` branch by branch with Python indexing | `Spec/Interp`: recursive walk over the knots; refinement `y = valueAt` for every well-formed state; C05 fails for irregular points flagged uniform: negation by witness plus `_partial` |
| C06-C07 | `x_next`, `x_previous` with `ceil`/`floor` of `x_index` | equality with least/greatest knot of the spec |
| C08 | `sample_points`, `_domain_indexes` loops with IndexError as value | equals `filter contains` |
| C09-C11 | `append_list`, `replace`, `reset`, `set` as state transformers with error and event list | spec on the point list |
| C12 | histories as lists of operations | induction |
| C13 | same | single-point appends: induction; batches: negation by witness, `_partial` |
| C14-C16 | events carry a snapshot of the data at callback time | case analysis; C15 for replace and C16 for non-regular edits are false: negation by witness, `_partial` for the rest |
| C17-C19 | `Model/Observer`: global token counter, dict + ordered tokens, callbacks abstract | invariants over histories |
| C20-C22 | `begin_update`/`end_update` automaton, domain cache | invariants over call sequences |
| C23-C24 | `Model/Graph`: finite DAG of curves, begin/end forwarded along edges | induction on the topological order; C24 fails on diamonds: witness and `_partial` for trees |
| C25-C34 | `Model/Num`, `Model/Curve` (record of methods, combinators) | pointwise equalities; known violations (constant outside its domain, offset with limit, piecewise x_next) by witness |
| C35-C36 | `Model/Line` | field arithmetic |
| C37-C44 | `Model/Sampling` with fuel only where termination is part of the claim | loop invariants |
| C45-C48, C50 | `Model/Accumulator` over `Points`; EMA, Integral, AccumulatorMap | simulation against a fold over the knots; histories by induction |
| C68, C70 | `Model/Points` | exact condition by case analysis; all edits by the outcome lemma |
| C51 | `Model/Line` | case analysis |
| C49, C82, C83 | `Model/Sma`: state `Accum`, window by number or by length | invariant `SmaSound` over histories; witnesses |
| C52-C54 | `Model/Descriptor`: JSON tree evaluator over an abstract constructor table | structural induction; `@args` double parse by witness |
| C55 | `Model/Util` | structural induction |
| C56-C59 | `Model/Trend` | list induction, field arithmetic, state machine invariants; negative values break C58: witness |
| C84-C87 | `Model/Trend`, points of interest and choice of trend points | the loop over reversed points against stretches of the series; induction over growth; witnesses |
| C88-C91 | `Model/TrendScan`, `Spec/TrendHistory` | invariant `Trail` over histories: the trend is the scan of a beginning of the source; witnesses |
| C92-C95 | `Model/CurveScan`: accumulator over any static curve, RSI | invariant `Sane` over histories against the fold over the knots; bounds by an invariant without any assumption on the curve; witnesses |
| C96-C97 | `Model/TrendScan` | the scan from a trail, forwards; witness found by search |
| C98 | `Model/Accumulator` | from the invariant of histories; witness |
| C99-C100 | `Model/TrendExtras` | case analysis over lines from any history |
| C107 | `Model/Smma` | scans whose transform asks another curve: joint invariant of both over all histories |
| C101-C106 | `Model/OffsetDuration` | over any sequence of periods; case analysis on the period of the position |
| C108 | `Model/Harmonic` over the reals, `Spec/Lucas` | rounding of powers of the golden ratio; induction over the loop |
| C109-C110 | `Model/PowLog` over the reals | induction over the factors; laws of real powers and logarithms |
| C111-C112 | `Model/AccumEvents` | invariant of histories; each edit has a knot between the unchanged part and its interval; witness for `replace` |
| C113-C115 | `Model/Curve`, `Spec/Algebra` | laws of extended arithmetic; permutations and splicing of lists of results; witnesses |
| C116, C117 | `Model/Machine`, `Spec/AccumCurve` | a curve whose queries change its state agrees with a pure curve: relation kept by every step of sampling, slopes and searches (`Lemmas/Machine`); invariant of accumulators; witness |
| C118 | `Model/Curve` | characterisation of sums, products and quotients by which infinities occur, by induction over the operands; witness |
| C119, C120 | `Model/Extension` | case analysis of the steps, induction over their number; the error of the update is the first of the edges; witnesses |
| C121 | `Model/TangentRegression`, `Spec/TangentRegression` | refinement to `extended` with the fitted lines as edges over any history; induction along the points for the windows; witness |
| C122 | `Model/Arity`, `Spec/Call` | induction over the list of parameters against Python's rules for calls; witnesses |
| C123 | `Model/Compose`, `Spec/Compose`, `Lemmas/Compose` | induction over the expression: each operation preserves agreement between a stateful curve and a pure one; induction over histories of the family |
| C124 | `Model/Compose`, `Props/AccumDiff` | what a read leaves accumulated (`Reached`) makes the step back right; chord slopes by cases on the knots |
| C125, C126 | `Model/Tower`, `Spec/Tower`, `Lemmas/Tower`, `Lemmas/TowerSteps`, `Lemmas/TowerHistory` | a scan over a curve with a state goes through the knots that the source shows; induction over the height for reads, updates and announcements, induction over histories |
| C127 | `Model/Line`, `Model/Sampling` | computation of the sampling loop for an infinite step; monotonicity of lines; induction over the iterations of a search |
| C128, C129 | `Model/Indicators` | invariant of the averages carried through two objects; arithmetic of periods |
| C130, C131 | `Model/Net` | induction over the list of curves, invariant per curve; edits by induction over the spreading of the announcements |
| C132 | `Model/SinHeld` | cases of the arguments; induction on assignments |
| C133 | `Model/Curve` (`Crv.empty`) | skipping lemmas for the folds of the aggregate |
| C134 | `Model/TrendFitTol` | normal equations of C86 |
| C135 | `Model/ExtremasIndex` | ascending lists, right bisection |
| C136, C137 | `Model/Web` | as C130, C131; no curve looks ahead: values and domain before an edit depend only on what is before it |
| C138 | `Model/QuotesSampling` | a run of whole periods meets a period iff their bounds do (three intervals that meet in pairs have a common point) |
| C139 | `Model/CurveScan` | the greedy walk splits at each point it meets; the invariant of C92 for a source that goes on after the last knot |
| C140 | `Model/Accumulator` | the invariant of C46 with the points met in place of all points (`Lemmas/MetScan`) |
| C141 | `Model/Accumulator` | C140 with rules that see the source up to the present point; results that are kept saw the same points |
| C142 | `Model/PointsSampling`, `Model/QuotesSampling`, `Model/Accumulator` | `Spec/PointsSampling`: walk along positions in steps, and grid; induction along the walk; the bins rise unless half-way positions are rounded to even |
| C143 | `Model/Trend` | `Spec/Forecast`: the stages of a prediction as a function of the points of interest one by one; the attributes show the stage, preserved by each point, timeout and call |
| C144 | `Model/ExtremasSampling` | `Spec/ExtremasSampling`; after the two scans nothing up to the end is scanned any more, so the state stands still; the walk is followed by induction over the points ahead |
| C145 | `Model/Trend`, `Model/TrendScan` (`upper`, `lower`, `lines`) | `Spec/TrendLinesGrown`; every line on every level keeps a property that new lines have and appending and updating keep; lifted to histories of queries and edits |
| C146 | `Model/Float`, `Model/RoundedPoints` | `Spec/Rounding`: what a way of rounding is; relative errors of index, product and interpolation; `fl64` is one |
| C147 | `Model/RoundedPoints` | `Spec/Rounding` (`Grid`): positions that need no rounding |
| C148 | `Model/RoundedPoints` | the error of the index, turned into a distance from a point |
| C149 | `Model/RoundedSampling` | errors of positions add up; steps of at least half of `h` |
| C150 | `Model/RoundedAverages`, `Model/Accumulator` | the rounded recurrence through the fold of C46; contraction by `1 - a` |
| C151 | `Model/RoundedAverages`, `Model/Accumulator` | errors of slope, constant and antiderivative, in multiples of `u M X² / d`; induction over the running sum |
| C152 | `Model/Ends`, `Model/Points`, `Model/Accumulator` | ends of the domain are the first and last stored point; for accumulators the value is the fold of `C46` |
| C74 (without tolerance) | `Model/Trend`, `Model/TrendScan` | `Lemmas/TrendTermination`: what a valid line covers stays covered; pairs of known points are counted |
| C153 | `Model/RoundedLine` | `Spec/RoundedLine` (`straight`, `climb`): errors of the slope and of the product; order from that of the rounding |
| C154 | `Model/RoundedCombine`, `Model/CurveScan` | averages stay not negative (invariant of the accumulators, as for C94); bounds of the formula |
| C155 | `Model/RoundedCombine` | induction over the list of values |
| C156 | `Model/RoundedCurve` | `Spec/RoundedCurve` (`Gives`, `Steep`): errors of a sum and a difference; order from that of the rounding |
| C157 | `Model/RoundedCurve`, `Model/Float` | `Spec/RoundedCurve` (`chord`, `StepsTo`): error of a quotient; a sum that is nearer to a number than half its spacing rounds to it |
| C158 | `Model/Parse` | cases of the argument, induction over the list of arguments |
| C159, C160 | `Model/CurveIntegral` | invariant of histories: the accumulated points are the fold over the positions that remain; trapezoids of a line are exact |
| C161, C162 | `Model/WindowArgs` | cases; arithmetic with infinities; the fold of a transform that answers nothing |
| C163 | `Model/CurveIntegral`, `Model/Curve` | the common positions are knots; a combination of straight lines is straight between them; induction over the neighbours |
| C164 | `Model/Observer`, `Model/Points`, `Model/Accumulator`, `Model/Net` | simulation of the protocol of C20 by each kind of curve; induction over the calls |
| C165 | `Model/Descriptor` | composition of the parsing lemmas of C52-C54 over the README's example; powers of logarithms |
| C166 | `Model/Sma` | the slope of the integral over lists with holes; how far back the integral was started, over all histories; windows by length over points at any distances (`Props/HolesLength`) |
| C167 | `Model/Smma` | the joint invariant of C107, with the answers of C166 in place of C49's |
| C168 | `Model/EmaInit` | the scan with a state of its own, for a rule that is chosen anew at each query and keeps its values at the knots already seen |
| C169 | `Model/Reset` | what a new calculation leaves is what a new curve begins with, up to what no query reads |
| C170 | `Model/RoundedSma`, `Model/RoundedAverages` | the invariant of C49 with the rounded running area from the knot where the scan began; errors of C151 at both ends of the window; over a length of time the windows of C172, and the error of a rounded mix with any share |
| C171 | `Model/RoundedSma` | C170 at both knots and the error of a rounded mix of two values |
| C172 | `Model/Sma` | the invariant of C49; if the window reaches beyond the position, the average at the point before its end has the same window, so that the extrapolation of `sma.py:101-108` gives the mean of that window again; between points (`Props/SmaLengthBetween`) the same by cases of where the window ends |
| C173 | `Model/RoundedSmma` | the first average is over the first points, so that the rounded SMA adds up areas from the first point whatever was asked before; then the rounded steps contract errors by `1 - 1/n`, as in C150 |
| C174 | `Model/Representation` | texts are lists of tokens; `Spec/Representation` reads them with the precedences of Python; by induction over the curve, reading its text leaves its expression, on which more calls may follow |
| C60 | `Model/Extremas` | scan invariant |
| C61-C63 | `Model/Extension`, `Model/Sin` over the reals | case analysis, trigonometric identities; `Sin.d_y` by witness |
| C64 | `Model/Quotes` | histories; double encoding and `trailing_low` by witness |
| C65 | `Model/Observer` | witness for repeated sources, `_partial` for distinct ones |
| C66-C67 | `Model/Observer` | delivery loops with registry-changing callbacks; witnesses and `_partial` |

## Disagreements between the code and the properties

Each is a theorem with a concrete witness (suffix `_negation`), next to a `_partial` theorem.

* C05, C13: `_points_equally_spaced` compares only the last x with the expected one, so unequally
  spaced batches are accepted as uniform and then interpolated at the wrong places.
* C12: `replace` on an irregular curve that is wrongly flagged uniform inserts out of order.
* C15: `replace` announces only the replaced position although the neighbouring segments change.
* C16: a rejected edit raises after `begin_update`; the curve stays updating and its flag changed.
* C24: an edit is announced more than once to a curve that is reached along several paths.
* C30: a map never steps by less than `MIN_STEP`, also if its curve does.
* C31: `Offset.x_next/x_previous` pass `limit` on unshifted, and drop positions before the domain.
* C32: `Piecewise.x_next/x_previous` drop what they find (no `return x1`).
* C34: `Constant(v, domain).y` ignores the domain.
* C38: `sample_points` compares rounded bins; `round` goes to even, so positions at odd multiples of
  half the step (1.5 and 2.5 with step 1) collide and it raises.  It raises `IndexError` if the start
  is open, the end closed and there is no knot in between; it samples a one-point domain twice; it
  samples an open end.
* C39: `get_range` raises `TypeError` for an undefined value after a defined one.
* C40: `sample_points_from_x(open=False)` counts the point at x but does not return it.
* C44: with an infinite step `x_next` at or past the end of the domain returns the end of the domain.
* C69: on level values `minimise` oscillates until `max_iterations`.
* C46: the accumulated points grow one at a time, and one gap equal to the average of the others makes an
  irregular list pass for uniform, after which reads are interpolated at the wrong places.  With the
  default `uniform=True` an irregular knot raises and leaves `accumulated_points` updating for ever.  An
  observer that queries an accumulator during the begin of an edit makes it keep the old data.
* C50: a missing value in the window raises `TypeError` in `min`/`max`.
* C63: `Sin.d_y` lacks the factor `x_coef` of the chain rule.
* C71: after an edit of its curve an extension keeps the old interval (only `_extension_stale` is set, not
  `_extension_interval_stale`) until it is read beyond the domain; a constant extension of an empty curve
  has an infinite domain and no values.
* C72: `_update_extension_if_needed` checks the interval before it is computed, so with `raise_on_empty`
  the first read beyond the domain raises for every curve.
* C68: `set` compares the spacing of the new points with that of the old ones.
* C60: an append makes `Extremas` record its last extremum again.  A possible extremum survives an edit of its
  point; a recorded one survives an edit of the point that confirmed it.  A zero reference raises.
* C64: `Quotes.append` encodes twice (once itself, once in `append_list`); `trailing_low` takes the maximum.
* C73: `Quotes.get_range` reads attributes `low`/`high` of a list and raises `AttributeError`.
* C58: for negative values `_value_tolerance_min` is above `_value_tolerance_max` with a relative tolerance (the
  default), so no point of a negative line is on its trend.  Ahead of a line with both
  tolerances the band is wider than the absolute tolerance (the tolerance lines go through the ends).
* C79: `update_prediction` skips points before `x_processed` only, so the last tangent is counted in every call.
* C80: `did_append_point` resets the prediction when the point is on the line, whatever its outcome was.
* C74: `_trend_scan` goes on to the next nesting level as long as a level reports new trend points and makes a new
  level when there is none.  With the default (relative) tolerance the tolerance band of negative values is empty, so
  no line is found to be a copy of the line below it, and after four points at -1 the loop never ends.
  Without a tolerance the loop ends (`C74_precise`): a valid line covers its ends for the rest of the scan, so each pair of
  known points makes one new line on either side at most.  This needs a search over the whole line: with
  `search_length_rel=1` the search leaves out the end of the line and, with `min_points=2`, two points are enough for more rounds
  than that.
* C75: `set_trend_with_boundary_points` adds the coincident points in the order in which they were pruned, which is
  right to left within a pass.
* C76: with a tolerance, each pruned point may be one tolerance off the chord of its neighbours, and the deviations
  add up; the line can cut off boundary points by more than the tolerance.  Boundary points are deleted at positions of
  `extremas`, from which coincident points were deleted before, so that the wrong boundary point can go.
* C85: `update_trend` looks for points of interest before it updates the search interval, so a new line through two points
  has no tangent point.  A change of side across a known tangent point is not found, but is when the line is updated as a
  whole.  Consecutive points on the line are one tangent point.
* C86: the relative test of `_is_strictly_convex_points` divides by the value, so among negative values points above
  the line are convex and points below are not.  Without tolerances all points are convex and coincident.
* C77: `_create_line` does not pass `min_point_distance` on.
* C78: `begin_update` deletes empty nesting levels of the upper and the lower lines separately.  Afterwards the levels
  no longer match and a scan can fail with an `IndexError`.
* C88, C89: `begin_update` of a trend removes only the points in the updated interval, but the scan begins anew from the
  first point.  After the replacement of the last point, even by itself, all points are recorded twice and a line can be lost.
* C91: `TrendLine.begin_update` returns early if the search interval does not meet the update, but a line that was crossed
  has trend points beyond its search interval.  Removal goes from the end and stops at the first point outside the update,
  so points recorded twice stay.
* C92, C95: `Constant.x_next` returns the limit it is given, and a scan gives the position asked for as the limit.  So an
  accumulator over a curve combined with a number (`Curve.max([c, 0])`) processes positions that are not knots: its
  answers depend on earlier queries, and with `uniform` (the default) the next one raises.  `rsi` is built like that.
* C95: constant data have the index 100, as data that only rise.
* C97: `Trend.continue_scan` stops when the search intervals of all lines known begin after the position.  Further points
  can change these lines.  Values 1, 1, 2, 2, 2, 1: asked at 0 first there is no line; after a query at 5 there is one.
* C98: `Accumulator.x_previous` asks the accumulated points first: after a query at 2 the position before 5 is 2, not 4.  The same for
  accumulators over accumulators (`C126_negation_previous`).
* C99: `line_extended(intersection_index=-2)` of a line without intersections raises an `IndexError`; -1 does not.
* C100: `TrendLine.__copy__` fails if there is no line, and the copy has no tolerance lines, so that it fails whenever it
  is asked about a point in its search interval.  Extremas and prediction are not copied.
* C102: `Offset` by periods: the ends of the domain are moved to the end of their period, so for a domain that ends within a
  period the offset curve has no values up to its end; if it is open, there are none in the first period.
* C103: `offset(1, d).offset(-1, d)` is linear within periods, whatever the curve is.
* C104: `Offset.x_next` and `x_previous` with a duration ignore `min_step` and `limit`, there is no next position before the
  domain, and sampling with a `min_step` above the period raises.
* C105: a changed value at the beginning of a period changes the offset curve in two periods, but the one position is
  announced.  A change in (3/2, 2] is announced as an empty interval.
* C106: within periods the derivative is interpolated although the values are on a straight line: 1/2 instead of 1.
* C107: `smma` begins with the value of `sma`, so with the mean height of the line through the first `n` points: 3/4 for 0, 0, 3.
* C108: `harmonic_smas` with a stride below -1, or a base below 1 as a number of points, raises.
* C109: 0 to a negative power raises, unlike a division by 0; a negative base with a fraction gives a complex number.
* C112: a replaced value is announced from its position on, but the accumulator also changes between it and the knot before.
* C114: `Curve.min` and `Curve.max` of `nan` and a number are whichever comes first.
* C115: `inf * (2 - 1)` is `inf`, `inf * 2 + inf * (-1)` is `nan`.
* C117: the slope to the previous position of a partly accumulated accumulator is taken over the last accumulated point, so
  it depends on earlier queries: the EMA of 1, 3, 2, 7, 1 has at 5 the slope -7/4, after a query at 2 the slope 1/4.
* C118: dividing nan by zero gives -inf (`curve.py` tests `y >= 0`, which is false for nan) where nan is expected.
* C119: `x_previous` of an extended curve first asks the curve, so beyond the end it jumps back to the last point and does not
  undo `x_next`: on 0, 2, 4 the position after 6 is 8, and before 8 comes 4. Likewise forwards before the start.
* C120: an extension counts as updated even if computing it raised. The next read beyond the end is `None`, and once the
  domain was read, which then is infinite, it is 0.
* C121: with `regression_degree` larger than the number of steps between the points the extension raises `TypeError`
  (`x_next(None)`) instead of leaving the end without extension.
* C122: `count_positional_args` counts parameters instead of asking whether the call is possible. `f(*args)` is refused;
  `f(y, k=1)` is called with the position for `y`; a builtin of two parameters is called with one; a required keyword-only
  parameter is accepted and every read raises; an observer with two parameters is registered and raises at the first update.
* C123: sources shared by several accumulators are modelled as equal copies, edited together. Expressions that look back are
  proved only over finished accumulations, since `x_previous` of an accumulator that has not been read is wrong (C117).
* C126: `x_next` of an accumulator over an accumulator asks its own points with its own step, and the source with the larger of
  both steps where they end. With a smaller step than the source has, the answer depends on how far it was read
  (`C126_negation`: 3 before reading, 2 after). Values are not affected (C125).
* C127: sampling a line or a constant on a single position gives the point twice (`C127_negation_twice`), sampling it on `[a, b)`
  includes `b` (`C127_negation_open`): `x_next` with an infinite step answers the limit. `Constant.x` answers 0 even if 0 is not
  in the domain (`C127_negation_x`).
* C121: with no more points than `regression_degree` every value beyond the points raises (`C121_few_negation`).
* C60: where the reference is zero at a point, every query at or after it raises (`C60_zero_raises`).
* C128: the oscillator is not the difference of the plain means of the last 5 and 34 midpoints (`C128_negation`), for the reason of
  C49: each average weighs its first and last point half.
* C129: the documentation speaks of smoothed averages; the code uses simple ones, and so does the property.
* C131: `end_update` of a combination announces the end each time one of its sources ends: after the first it forgets that an update is
  open, and the next end is again a superset of nothing. The first time the other sources have not ended, and their remembered domains are
  those before the edit. Along `k` nested combinations the end is announced up to `2^k` times: a MACD histogram announces one beginning
  and four ends for one appended point (`C131_negation_once`). Values are right after the last one (C130).
* C132: `Sin.set` begins the update before it looks at its arguments. A rejected assignment leaves broken fields (values and slopes
  raise `TypeError`) and an open update (`C132_negation_rejected`); the next successful one announces only an end (`C132_negation_announced`).
* C133: a sum with the empty curve has an empty domain and no values, but `x_next` still gives the positions of the other operand
  (`C133_negation`).
* C134: the method `TrendLine._is_line_fit_within_tolerance` uses the inverted check of C58: three or more points on one line with values
  that are not negative are never accepted (`C134_negation`). It is not called within the package.
* C135: `Extremas._i` takes the right bisection index as the number of the extremum before the position: from the second extremum on
  the result is one too large (`C135_between`), while the last one has its own number, so the index falls there (`C135_negation_falls`).
* C136: `Points.replace` announces only the replaced position, although interpolated values change back to the point before it. An
  accumulator over a combination of two lists steps through the points of both: after a point of one list is replaced it keeps its old value
  at points of the other list in between (`C136_negation`).
* C45, C47, C48: points closer than `min_step` (default `1e-5`) are passed over by accumulators: the integral leaves out their area, the EMA
  their values (`C45_negation`, `C48_negation`).
* C138: `Quotes.get_quote_domain` and `sample` cover the whole of the last period, but `y` is `None` after its beginning (`C138_negation`).
* C139: if the last points are closer than `min_step`, an accumulator has no value after the last one it meets, although its domain is that
  of the source (`C139_negation`).
* C140: a moving average with a period over points closer than `min_step` passes over some of them, but takes the gap to the point it passed
  over as the time since its last result, so it follows the data more slowly (`C140_negation`).
* C141: `trailing_min(period, is_period=True)` over points that get denser: `Points.sample_points` changes from stored points to sampling in
  steps (with the interpolated beginning of the window, and its open end) when the average gap of all points falls below `min_step`.
  Results from before stay, so the same points give different answers, depending on what was asked before (`C141_negation`).
* C141: windows walk back from a point and can meet points that the accumulator passed over (example in `Props/PastHistory`).
* C142: the end of a domain that is open there is sampled if a step meets it (`curve.py:186`, `191`: `<=`), so the current point counts twice in a
  window of a period that is sampled in steps; odd multiples of half of `min_step` are rounded to even and "x_next has to be larger" is raised;
  a domain open at its beginning, closed at its end and without a point to meet raises `IndexError` (`points[-1]`).
* C143: a retest after an extremum beyond the confirmation line takes the confirmation back (the phase goes from confirmed to retested, `trend.py:806`).
  With an extremum at the origin of the line `_line_y` gives `None` and the comparison raises (`C143_negation`).
* C144: on a part of the domain an extremum less than a least step after its beginning is left out (`C144_negation`); with a domain open at its
  beginning and closed at its end on which no position is met, `points[-1]` raises `IndexError` (`curve.py:205`).
* C145: `Trend` takes `min_point_distance` but does not pass it on to its lines (`trend.py:221-230`), so it has no effect on what is
  found (`C145_negation`, `C145_ignored`).  `upper(x)` and `lower(x)` do not look at the domain: before the first point, where `y(x)` is
  `None`, they scan and give an empty list.
* C146: with rounding, linear interpolation between equal values is not always that value: between three points with the value `3` it is
  `3 + 2⁻⁵¹` at `1` (`C146_negation`).  With the interpolation `previous` the value of a point can show right before it (`C146_early`).
* C147: points at `0.1, 0.2, 0.3` are not equally spaced for `Points`: with `uniform=True` an exception is raised (`C147_negation`).
  Points at `0, 0.1, 0.2, 0.3, 0.4` are, but then at `0.3` the interpolation `previous` gives the value of the point at `0.2`
  (`C147_knot_negation`), since `(0.3 - 0) / 0.1` is below `3`.
* C148: with points at `0, 1, 2⁴⁰` the next point of `1` is `1` with the default least step (`C148_negation`): the index `1 + ε` is rounded
  to `1`.  `sample_points` then raises and `sample_points_from_x` repeats the point.
* C149: sampling `[0, 0.3]` in steps of `0.1` loses the end (`C149_negation`); from `2⁵³` on a step of `1` is lost and the loop never ends
  (`C149_endless`).
* C150: with `alpha = 1` the EMA of `1, 2⁻⁶⁰` is `0`, not the last value and not between the values (`C150_negation`).
* C151: `Line.partial_integration` takes the difference of antiderivatives at the positions themselves, so that nearly everything cancels far
  from the origin: between the points `(1600000000, 1)` and `(1600000005, 2)` (today's seconds) `Integral` adds `0` instead of `7.5`
  (`C151_negation`), and `SMA`, which divides differences of it, gives a mean below all values.
* C152: `y_start`, `y_end`, `first_point` and `last_point` evaluate at the ends of the domain even if the domain is open there: a curve restricted
  to `[0, 1)` has `y_end() = None` and `last_point() = (1, None)` (`C152_negation`).
* C153: the line through `(0, 0)` and `(49, 1)` is below `1` at `49` (`C153_negation`), so that a line of a trend without a tolerance does not
  contain its own second end and does not coincide with itself (`C153_coincident_negation`); a search for equal lines then misses it.
  `Line.x` does not undo `Line.y` (`C153_inverse_negation`).
* C155: the order of three curves in a sum matters (`C155_negation`); `(1 / 49) * 49` is not `1` (`C155_inverse_negation`).  `sum` is modelled
  as adding one after another; from Python 3.12 on it compensates for errors, which for two values is the same.
* C156: the domain `[0, 0.1]` offset by `0.2` ends at `0.1 + 0.2 = 0.30000000000000004`, which is moved back to a position beyond `0.1`: the
  offset curve has no value at the end of its own domain (`C156_negation`), and the opposite offset gives a longer domain
  (`C156_back_negation`).
* C157: beyond `2 ^ 37` (milliseconds since 1970 in 1974) `x - MIN_STEP` is `x`, and `d_y` takes the branch for vertical steps: it returns
  `-inf` for every curve with the generic steps, `inf` with `forward` (`C157_infinite`); a generic curve that rises has the derivative `-inf`
  (`C157_negation`).
* C158: `Curve.add_many([a], b)` is `a`: what follows a sequence is ignored (`C158_ignored`, `C158_negation`), and `Curve.add_many(points, a)`
  raises because the points are taken for the list of curves (`C158_points_first`).  `Curve.parse` of a list of points that are not equally
  spaced raises (`C158_irregular`), since `Points` demands equal spacing by default.  `Empty().extension('constant').y(0)` raises an
  `AttributeError` (`C158_empty_negation`).  `_callable_arg_len` (`curve.py:1129-1138`) is not called anywhere and not modelled.
* C159, C160: a line has no knots, so an accumulator over it goes only where it is asked to.  `Line(const=1, slope=2).integral(uniform=False)`
  has the value 2 at 1 after it was asked for 0, but 3 after it was asked for 0 and 2 (`C160_between_partial` says by how much it is off), and
  2 after it was asked for 0, 2 and -1, since a position before all others begins anew with the constant (`C160_first`, `C159_least`).
  Asked for 0, 1 and 1.000001 it gives 4 at the last position instead of 2: `accumulated_points.x_previous(x)` in `integral.py:28`
  skips points closer than `MIN_STEP`, so the area from 0 to 1 is added twice (`C160_negation`).  By default it raises unless the positions are
  equally spaced (`C160_uneven`).
* C161: `SMA(f, 2.9, is_period=False)` averages 2 points and `SMA(f, 0.9, is_period=False)` is refused, while `SMA(f, 0.9)` is accepted;
  `EMA` checks nothing.
* C162: averages of lines and constants do not exist.  `SMA.get_domain` computes `d.start + (x - d.start)`, which is `nan` when `d.start` is
  `-inf`, so the domain is empty; `smma` waits for ever for its first value from `sma` (`C162_smma`).  `EMA(line, period)` divides the distance
  to `x_previous(x)`, which is `-inf`, by the period, so it is infinite where the line moved and `nan` where it did not (`C162_ema`).
* C163: `(f * g).integral()` uses the trapezoid rule between the points of `f` and `g`, so it is not the area under the product, which is a
  parabola there; `(f + g).integral()` is exact at the points and interpolates linearly between them (`C163_negation`).
* C165: under `@log` numbers in the place of positions become logarithms too, so a line through `[1, 5]` and `[2, 7]` under
  `@log2` is 5 at 0 and 7 at 1. The README's example is right only because a date at its position is not a number literal.
* C166: over missing values `sma` divides the area of what is covered by the whole width: 5, none, 5, 5 averages to 5/3. And the answer
  depends on what was asked before: with 5, none, none, 5 at the end, `sma` of degree 2 has no value at the last point, unless the
  second of them was asked for first; then it is 0.
* C167: so `smma` of degree 3 of 4, none, none, 4 begins with 0.
* C168: `EMA` does not observe its `init` curve (`ema.py:16-21`). After an edit of that curve the average keeps the old first value, and
  says nothing to its observers; it takes the new one when the source is edited at or before that point.
* C169: calculating anew (`scan.py:91-96`) puts right the old first value of C168, the dependence on history of C166, the withdrawn
  extremum of C60 and the doubled points of C89. But extremas forget their possible extremum only together with a found one
  (`extremas.py:65-84`): if none was found yet, the possible one stays, and is recorded later even if it is not on the curve any more.
* C32: whenever a piece has a next position within its own piece, the piecewise curve has none (`C32_next_exact`).
* C170: `SMA` is a difference of two areas that are added up from where its scan began, so that with floats a value stays in the average
  after it has left the window: after a `2⁶⁰` the average of `1` and `1` is `0` (`C170_negation`). Where the scan began depends on what was
  asked first, so the answer does too (`C170_negation_history`). If the window of `SMA(period=…)` reaches two points or more beyond the
  position, its mean is mixed with itself by a share outside of 0 to 1 (`sma.py:102-110`): exact arithmetic does not notice, with floats a
  constant `1/10` gets an average that is off by more than `10000 / 2 ** 53` (`C170_length_negation`).
* C171: between two points `SMA` mixes the averages at the two with `u * a + (1 - u) * b`; with floats the mix of two equal values may be
  another value: of nine tenths everywhere the average between the points is larger than nine tenths (`C171_negation`).
* C172: over points at unequal distances the window of `SMA(period=…)` is not the length of time before the position: `_sma_start` looks for
  the first point in it, and `_sma_end` for the last point less than the length after *that*, which may be after the position. Over the
  points at `0`, `10`, `11`, `25/2`, `15` an average over the length `3` at `11` takes in the point at `25/2` (`C172_negation`). Between
  points that are further apart than the length, where the window is made of two later points only, `sma.py:101-108` extrapolates backwards from
  them: over `(0, 0)`, `(10, 6)`, `(11, 0)` the average over the length `3` is `-12` at `5` (`C172_between_negation`).
* C173: `smma(1)` is not the curve itself with floats: `ema + alpha * (y - ema)` (`ema.py:52-53`) loses the value if the one before is
  much greater; over `2 ** 60`, `1` it gives `0` at the second point (`C173_negation`). `smma(4)` of a constant near `1/10` is greater than
  the constant (`C173_negation_constant`).
* C174: `sma(3, is_period=True)` is shown as `sma(3)`, which by the default of `Curve.sma` is an average over 3 points (`sma.py:52`,
  `C174_negation_period`); `ema` with a period likewise (`ema.py:25`, `C174_negation_weight`), and with the
  weight `0` it is shown as `ema(None)` (`C174_negation_zero`); an offset by 2 months is shown as `offset(2)`
  (`offset.py:33`, `C174_negation_duration`); a line has no brackets around it, so that an offset of it is shown as `x * 2 + 3.offset(1)`
  (`line.py:32`, `C174_negation_line`).
* C49: `sma` gives the mean height of the line through the last `n` points (the two at the ends count half), so 3/4 for
  0, 0, 3.  With missing values the answer depends on earlier queries.  With a period it is defined at the last
  point although the period is not over.
* C82: between knots, more than `min_step` after the first, the two weights of the interpolation are swapped.
* C83: with a period, over irregular points, the window ends at a knot after the position asked for, so later values count.
* C52: numbers among `@args` are parsed twice, so their logarithm is taken twice; numbers given directly by name are not
  logged; bases other than e, 2 and 10 are ignored for numbers but the result is raised to them; under nested logarithms
  one of them is taken and both are raised.
* C54: a chain whose last function gives 0 is returned as `{}` (the result is chosen by truth value);
  `$log` ignores arguments without a name.
* C65: `Aggregate.__del__`/`Piecewise.__del__` pair `funcs` with the tokens of the *set* of funcs;
  `Extension.__del__` unregisters by object although it registered without one.
* C66: unregistering in a begin callback makes the next observer miss the begin;
  unregistering another observer in an end callback makes `end_update` raise `KeyError`.
* C67: overlapping updates of the same region announce more ends than begins.

## Accumulators

`Model/Accumulator` covers `Scan`, `Accumulator`, `EMA`, `Integral` and `AccumulatorMap` over a
`Points` source.  The state has the source, the accumulated points, the scan position, the cached
domain and the pending update intervals.  The main invariant (`Accum.Sound`): the accumulated
points are the fold of the rule over the first knots of the source.  It holds after the
constructor, after every query (raising or not) and after every edit of the source, hence in
every reachable state (`Accum.Used`).  Not modelled: accumulators over other curves, changes of
the `init` curve of an EMA (the code does not observe it).

## Extensions

`Model/Extension` has the attributes of an extension as a state and the curve as an argument, so an edit of
the curve is another argument from then on.  `is_in_extension` compares intervals with `<=` and `>=`, whose
meaning in `intervalpy` is not known here: its answer is part of the event.  The theorems ask that an edit
it denies leaves the extended edges alone.  Subclasses are a record (`Kind`); what its `update` achieves is
the predicate `Does`, proved for constant and tangent extensions, and everything else is proved from it.
Not modelled: regression tangents and what the two functions announce.

## Extremas and quotes

`Model/Extremas` covers `Extremas` over a `Points` source; the reference is a function that does not change.
`foundIn` is the scan of a list of knots.  The invariant `Known` says what is recorded between operations: what
the scan of the knots so far would find, with repeats; or that, rewound to the last extremum; or a possible
extremum from knots further on.  Not modelled: edits of the reference, `sample_points`, observers.
`Model/Quotes` covers storing, the component curves and the trailing extrema; `Duration` appears only through
`uniform` and a step.  `Model/QuotesSampling` adds sampling by period; `Duration.span` is assumed to be the smallest run of whole periods,
closed at the beginning and open at the end, as `test/quotes_test.py` shows it.

## Trends

`Model/Trend` covers `trend.py`: the geometry, `TrendLine` and `Trend`.  `numpy.polyfit` of degree 1 is the exact
least squares line.  Comparisons with `MIN_STEP`-like epsilons are kept.  A `TLine` is the record of a line's
attributes; `Grown` (spec) are the lines that come about by appending points and by updates, with any underlying
points.  `Trd` is the state of a `Trend`; the `while` loop of its scan takes fuel and says `more` when it runs out.
`Model/TrendScan` (`TScan`) adds the source and the scan position; the contract of `extended_to_positive_infinity` is
assumed (same lower end, no upper end; an empty interval stays empty).  `Fed` (spec) are the histories of queries and edits.
Predictions: `Tells` says what the attributes mean after the points of interest processed so far.

## Simple moving averages

`Model/Sma` covers `SMA` over a `Points` source; its state is that of an accumulator (`Accum`), as it is an `Integral`
with another domain, start of scan and `y`.  The recursion of `y` takes the depth left.  The invariant `SmaSound` splits
the points into those before the start of the scan, those accumulated and the rest; `superY_spec` says that a query of
the integral at a knot gives the area from the start of the scan, and `slope_spec` that the difference of two is the
area between them whether or not the second one restarts the scan.

## Accumulators over any curve

`Model/CurveScan` is the scan and the accumulator over a curve (`Crv`) that does not change.  A history ends with an
exception; values that are not finite are not accumulated.  `Stepped` (spec) are the curves that show their knots to
whoever steps along them.  `Rsi` holds the two averages; as both are asked before the formula is evaluated, the formula
is evaluated on curves that have their values (`Crv.held`).

## Descriptors

`Model/Descriptor` covers `Curve.parse_descriptor`.  The curves, their methods, `Curve.parse` and `arrow.get` are a
record of parameters (`Lib`); `funLib` in `Props/Descriptor` is a concrete one with functions on the reals.  Mapping keys
come split into prefix, name and base.  The first argument of `parse` is the recursion depth left; running out of it is
`RecursionError`.  The list of decorators, which the code changes in place, is returned next to the outcome.  `@args` of
something that is not a list, and a logarithm with base 0, are taken to raise.
