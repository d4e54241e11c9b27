{"id": "C01", "title": "Points: evaluating at a stored x returns the stored y", "statement": "For a Points curve holding the strictly ascending points p0..pn (equally spaced if the curve is uniform), curve.y(p[i].x) == p[i].y for every i and for every interpolation mode.", "quantifier": "all strictly ascending finite point lists, all values (including None), all interpolation modes, both settings of `uniform`, every index", "why_tests_cant": "a test fixes one list; index arithmetic (bisect, division by the interval, int truncation) can be wrong for other lengths, offsets and spacings", "anchors": ["curvepy/points.py:Points.y", "curvepy/points.py:Points.x_index", "curvepy/points.py:_bisect_points"]}
{"id": "C02", "title": "Points: linear interpolation is the straight segment between neighbours", "statement": "With linear interpolation and x strictly between neighbouring stored points (x0,y0), (x1,y1), curve.y(x) == ((x1-x)*y0+(x-x0)*y1)/(x1-x0), and it is None as soon as y0 or y1 is None. In particular it lies between y0 and y1.", "quantifier": "all strictly ascending finite point lists, every x between two neighbours", "why_tests_cant": "the real line between two knots is dense; a test samples a few midpoints", "anchors": ["curvepy/points.py:Points.y", "curvepy/points.py:Points.x_index"]}
{"id": "C03", "title": "Points: previous/next interpolation is a step function", "statement": "With `previous` (`next`) interpolation and x strictly between neighbouring stored points, curve.y(x) is the y of the left (right) neighbour.", "quantifier": "all strictly ascending finite point lists, every x between two neighbours", "why_tests_cant": "same as C02", "anchors": ["curvepy/points.py:Points.y"]}
{"id": "C04", "title": "Points: the domain is [first x, last x] and y is None exactly outside it", "statement": "Whenever no update is pending, curve.domain is the closed interval from the first to the last stored x (empty if there are no points); curve.y(x) is None for every x outside it (including +-inf) and no evaluation raises.", "quantifier": "all point lists, all finite and infinite x", "why_tests_cant": "the complement of the domain is unbounded and evaluation must not raise for any x", "anchors": ["curvepy/points.py:Points.get_domain", "curvepy/points.py:Points.y", "curvepy/curve.py:Curve.domain"]}
{"id": "C05", "title": "Points: values depend only on the stored points and the interpolation mode", "statement": "Two Points curves with the same stored points and interpolation mode agree at every x, whatever their `uniform` setting and whatever sequence of set/append/replace/reset calls produced them.", "quantifier": "all pairs of edit histories ending in the same points, all x", "why_tests_cant": "quantifies over pairs of unbounded histories", "anchors": ["curvepy/points.py:Points._points_equally_spaced", "curvepy/points.py:Points.x_index", "curvepy/points.py:Points.set", "curvepy/points.py:Points.append_list"]}
{"id": "C06", "title": "Points: x_next is the first knot at least min_step ahead", "statement": "curve.x_next(x, min_step) is the smallest stored x' with x' >= x + min_step, and None exactly if there is no such point; from -inf it is the first knot.", "quantifier": "all point lists, all x (finite or infinite), all non-negative min_step, any curve min_step", "why_tests_cant": "off-by-one and rounding behaviour at every knot, before the first and past the last one", "anchors": ["curvepy/points.py:Points.x_next", "curvepy/curve.py:Curve.resolve_min_step"]}
{"id": "C07", "title": "Points: x_previous is the last knot at least min_step behind", "statement": "curve.x_previous(x, min_step) is the largest stored x' with x' <= x - min_step, and None exactly if there is no such point; from +inf it is the last knot.", "quantifier": "all point lists, all x, all non-negative min_step", "why_tests_cant": "as C06", "anchors": ["curvepy/points.py:Points.x_previous"]}
{"id": "C08", "title": "Points: sample_points(domain) returns exactly the stored points inside the domain", "statement": "curve.sample_points(domain) without step arguments is the sub-list of stored points whose x lies in domain, in order, for open, closed, half-open, unbounded and empty domains; it never raises.", "quantifier": "all point lists, all intervals", "why_tests_cant": "slice ends depend on open/closed bounds relative to knots, for every placement", "anchors": ["curvepy/points.py:Points.sample_points", "curvepy/points.py:Points._domain_indexes"]}
{"id": "C09", "title": "Points: append_list concatenates or leaves the curve untouched", "statement": "A successful append_list(ps) makes the stored points old + ps. Appending points that do not start strictly after the last stored x raises, changes nothing observable and notifies nobody; appending an empty list is a no-op.", "quantifier": "all curves, all appended lists, all registered observers", "why_tests_cant": "all prior histories and all appended lists", "anchors": ["curvepy/points.py:Points.append", "curvepy/points.py:Points.append_list"]}
{"id": "C10", "title": "Points: replace changes exactly one point", "statement": "A successful replace((x,y)) leaves a point list that is strictly ascending, contains (x,y), and agrees with the old list at every other knot; it adds a knot only if x was not one, and (with or_append) appends beyond the last point. On a uniform curve a replace between knots raises.", "quantifier": "all curves, all points", "why_tests_cant": "index chosen by ceil of a quotient for every knot and position", "anchors": ["curvepy/points.py:Points.replace"]}
{"id": "C11", "title": "Points: reset(domain) removes exactly the points inside the domain", "statement": "A successful reset(domain) leaves exactly the stored points whose x is not in domain, in order; reset() leaves none.", "quantifier": "all curves, all intervals (open/closed/unbounded/empty)", "why_tests_cant": "index arithmetic over all placements of two bounds relative to the knots", "anchors": ["curvepy/points.py:Points.reset", "curvepy/points.py:Points._domain_indexes"]}
{"id": "C12", "title": "Points: edits keep the points strictly ascending over every history", "statement": "Starting from any strictly ascending list, after any sequence of set/append/append_list/replace/reset calls whose arguments are themselves strictly ascending, whether or not some calls raised, the stored points are strictly ascending.", "quantifier": "all finite sequences of calls", "why_tests_cant": "induction over unbounded histories", "anchors": ["curvepy/points.py:Points"]}
{"id": "C13", "title": "Points: a uniform curve is truly equally spaced", "statement": "If a curve was created with uniform=True then after any history of successful edits all gaps between neighbouring stored points are equal.", "quantifier": "all histories of successful edits", "why_tests_cant": "the code only checks the last x of a batch", "anchors": ["curvepy/points.py:Points._points_equally_spaced", "curvepy/points.py:Points.append_list", "curvepy/points.py:Points.set"]}
{"id": "C14", "title": "Points: every successful edit is announced once before and once after", "statement": "Every successful edit that changes the stored points delivers to each observer of the affected interval exactly one begin while the old data is still readable and exactly one end once the new data is readable, with the same interval, and leaves the curve not updating. No-op edits deliver nothing.", "quantifier": "all edits on all curves with all observer sets", "why_tests_cant": "all interleavings of edits and observers", "anchors": ["curvepy/points.py:Points.set", "curvepy/points.py:Points.append_list", "curvepy/points.py:Points.replace", "curvepy/curve.py:Curve.begin_update", "curvepy/curve.py:Curve.end_update"]}
{"id": "C15", "title": "Points: values outside the announced interval do not change", "statement": "If an edit announces interval I then for every x outside I, curve.y(x) is the same before and after the edit.", "quantifier": "all edits, all x outside the announced interval, all interpolation modes", "why_tests_cant": "downstream caches rely on it for every x", "anchors": ["curvepy/points.py:Points.set", "curvepy/points.py:Points.append_list", "curvepy/points.py:Points.reset", "curvepy/points.py:Points.replace"]}
{"id": "C16", "title": "Points: a failed edit does not poison the curve", "statement": "If an edit raises, the stored points, the domain and all values are as before, the curve is not left updating, and later successful edits behave as if the failed call had not happened.", "quantifier": "all failing edits followed by all later histories", "why_tests_cant": "quantifies over what happens after the exception", "anchors": ["curvepy/points.py:Points.append_list", "curvepy/points.py:Points.set", "curvepy/points.py:Points.replace", "curvepy/curve.py:Curve.end_update"]}
{"id": "C17", "title": "Observers: tokens are unique and registration order is respected", "statement": "add_observer returns a token never returned before by any curve in the process (or 0 and no registration if no callback is given); callbacks run in registration order except that prioritised ones run before all earlier ones.", "quantifier": "all sequences of add_observer/remove_observer calls over all curves", "why_tests_cant": "unbounded histories", "anchors": ["curvepy/curve.py:Curve.add_observer", "curvepy/curve.py:Curve.remove_observer"]}
{"id": "C18", "title": "Observers: removal removes exactly one registration and is idempotent", "statement": "remove_observer(token) makes exactly that registration stop receiving callbacks, leaves the others and their order unchanged, and is harmless for unknown or already removed tokens; remove_observer(obj) removes exactly the registrations made for obj (and those whose object died).", "quantifier": "all registries and tokens", "why_tests_cant": "unbounded histories", "anchors": ["curvepy/curve.py:Curve.remove_observer"]}
{"id": "C19", "title": "Observers: delivery - every matching observer exactly once, no other", "statement": "When a begin (end) is delivered, each observer whose declared domain intersects the interval gets its begin (end) callback exactly once, with the interval if it takes an argument, in order; observers with a disjoint domain get none.", "quantifier": "all registries whose callbacks do not change the registry, all intervals", "why_tests_cant": "all observer sets and intervals", "anchors": ["curvepy/curve.py:Curve.begin_update", "curvepy/curve.py:Curve.end_update"]}
{"id": "C20", "title": "Update protocol: an end is delivered only when every begun interval has been ended", "statement": "Over any sequence of begin_update/end_update calls: no end callback fires while the hull of the ended intervals does not cover the hull of the begun ones; when it does, exactly one end is delivered, with the hull of all ended intervals, which covers everything begun since the last completion; afterwards the curve is not updating. A begin already covered by a pending one is silent.", "quantifier": "all finite sequences of begin/end calls with arbitrary intervals", "why_tests_cant": "unbounded sequences, arbitrary overlap", "anchors": ["curvepy/curve.py:Curve.begin_update", "curvepy/curve.py:Curve.end_update", "curvepy/curve.py:Curve.is_updating"]}
{"id": "C21", "title": "Update protocol: matched begin/end pairs always return to quiescence", "statement": "If every begin_update(I) is followed by a matching end_update(I), in any nesting or interleaving of pairs, the curve is not updating once all pairs are closed.", "quantifier": "all well-nested and overlapping sequences of matched pairs", "why_tests_cant": "unbounded interleavings", "anchors": ["curvepy/curve.py:Curve.begin_update", "curvepy/curve.py:Curve.end_update"]}
{"id": "C22", "title": "Domain cache: the reported domain is fresh after every completed update", "statement": "However domain is read between edits, whenever a curve is not updating its `domain` equals the one computed from its current data.", "quantifier": "all interleavings of domain reads (including from callbacks) and edits", "why_tests_cant": "stale-cache bugs show only for particular read/edit interleavings", "anchors": ["curvepy/curve.py:Curve.domain", "curvepy/curve.py:Curve.set_needs_interval_update", "curvepy/curve.py:Curve.end_update"]}
{"id": "C23", "title": "Curve graphs: an edit of a source reaches every dependent curve", "statement": "In any acyclic graph of curves where dependents observe their sources, one complete edit of a source (begin, change, end) puts every transitively dependent curve into updating state before the change and delivers to each at least one end after the change; afterwards no curve in the graph is updating.", "quantifier": "all finite acyclic observer graphs, including diamonds", "why_tests_cant": "all graph shapes and sizes", "anchors": ["curvepy/curve.py:Curve.begin_update", "curvepy/curve.py:Curve.end_update", "curvepy/aggregate.py:Aggregate.__init__", "curvepy/map.py:Map.__init__"]}
{"id": "C24", "title": "Curve graphs: dependents deliver one end per edit", "statement": "One complete edit of a source makes each dependent curve deliver exactly one begin and one end to its own observers, also when several paths lead from the source to it.", "quantifier": "all acyclic observer graphs", "why_tests_cant": "all graph shapes; diamonds matter", "anchors": ["curvepy/curve.py:Curve.begin_update", "curvepy/curve.py:Curve.end_update"]}
{"id": "C25", "title": "Arithmetic: +, -, * are pointwise with None as absorbing element", "statement": "For curves f1..fn and x in all their domains, (f1+f2+..).y(x), (f1-f2-..).y(x), (f1*f2*..).y(x) are the sum, left-associated difference and product of the values, None if any value is None; outside the common domain they are None. The domain is the intersection. Numbers act as constant curves on either side.", "quantifier": "all finite lists of curves, all x", "why_tests_cant": "function space and real line", "anchors": ["curvepy/curve.py:Curve.add_many", "curvepy/curve.py:Curve.subtract_many", "curvepy/curve.py:Curve.multiply_many", "curvepy/aggregate.py:Aggregate.y", "curvepy/aggregate.py:Aggregate.get_domain"]}
{"id": "C26", "title": "Arithmetic: division never raises and is signed infinity at zero", "statement": "divide_many gives the left-associated quotient of the values where no divisor is 0; a 0 divisor gives +inf or -inf by the sign of the running quotient (non-negative: +inf) and no ZeroDivisionError; None if any value is None.", "quantifier": "all lists of values", "why_tests_cant": "all chains of divisors incl. zeros at any position", "anchors": ["curvepy/curve.py:Curve.divide_many"]}
{"id": "C27", "title": "Curve.min / Curve.max: extremum of the defined values", "statement": "min (max) of curves at x in its domain is the least (greatest) of the non-None values there and None iff all are None; the domain is the intersection of the domains, or with ignore_empty=True the hull of their union.", "quantifier": "all finite lists of curves, all x", "why_tests_cant": "None placement at any position", "anchors": ["curvepy/curve.py:Curve.min", "curvepy/curve.py:Curve.max"]}
{"id": "C28", "title": "Curve.first: first defined value", "statement": "Curve.first(fs).y(x) is the first non-None value among fs in order, None iff all are None.", "quantifier": "all finite lists of curves, all x", "why_tests_cant": "as above", "anchors": ["curvepy/curve.py:Curve.first"]}
{"id": "C29", "title": "Aggregates: x_next/x_previous is the nearest of the parts' next/previous positions", "statement": "aggregate.x_next(x) is the smallest of the parts' x_next(x) that is > x, None iff there is none; symmetric for x_previous.", "quantifier": "all finite lists of parts and all positions", "why_tests_cant": "all orders of candidates incl. None and non-advancing ones", "anchors": ["curvepy/aggregate.py:Aggregate.x_next", "curvepy/aggregate.py:min_or_none", "curvepy/aggregate.py:max_or_none"]}
{"id": "C30", "title": "Map: pointwise transform", "statement": "c.map(t).y(x) == t(c.y(x)) (or t(x, c.y(x))) with the same domain and the same x_next/x_previous as c; with skip_none a None value stays None without calling t. -(-c), abs and reciprocal act pointwise: -(-c) equals c, abs(c) is non-negative and equals abs(-c), the reciprocal of the reciprocal is c where c is non-zero.", "quantifier": "all curves, transforms, x", "why_tests_cant": "function space", "anchors": ["curvepy/map.py:Map", "curvepy/curve.py:_additive_inverse", "curvepy/curve.py:_multiplicative_inverse", "curvepy/curve.py:_abs"]}
{"id": "C31", "title": "Offset: shifts the curve and nothing else", "statement": "c.offset(k).y(x) == c.y(x-k), its domain is c's shifted by k, its next/previous positions are c's shifted by k (also under a limit), update intervals are shifted by k; offsets compose additively and offset(-k) undoes offset(k).", "quantifier": "all curves that are None outside their domain, all offsets, all x", "why_tests_cant": "function space and all shifts", "anchors": ["curvepy/offset.py:Offset"]}
{"id": "C32", "title": "Piecewise: the value comes from the piece containing x", "statement": "For ascending disjoint pieces, piecewise.y(x) is the value of the function of the piece whose domain contains x and None if none does; the domain is the hull of the pieces; x_next/x_previous find the nearest next/previous position of the pieces.", "quantifier": "all finite lists of ascending disjoint pieces, all x", "why_tests_cant": "all bounds and gaps between pieces", "anchors": ["curvepy/piecewise.py:Piecewise"]}
{"id": "C33", "title": "blend: crossfades between two curves", "statement": "a.blend(b, s, t) equals a before s, b after t and (1-u)a+ub with u=(x-s)/(t-s) between, so it lies between a and b, and is continuous at s and t if a and b are.", "quantifier": "all curves a, b, all s<t, all x in the domain of a", "why_tests_cant": "real line", "anchors": ["curvepy/curve.py:Curve.blend"]}
{"id": "C34", "title": "Generic, subset and Constant respect their domain", "statement": "Generic(f, domain).y(x) and c.subset(domain).y(x) are f(x) inside the domain and None outside; Constant(v).y(x) is v everywhere; Constant(v, domain).y(x) is None outside the given domain.", "quantifier": "all functions, domains, x", "why_tests_cant": "real line", "anchors": ["curvepy/generic.py:Generic", "curvepy/constant.py:Constant", "curvepy/curve.py:Curve.subset"]}
{"id": "C35", "title": "Line: passes through its defining points and inverts", "statement": "Line(p1,p2) with distinct x passes through both points; Line(const,slope) has that intercept and slope; for non-zero slope line.x(line.y(x)) == x and line.y(line.x(y)) == y; setting the same parameters again announces nothing, changing them announces one update.", "quantifier": "all rational points, slopes, positions", "why_tests_cant": "real line", "anchors": ["curvepy/line.py:Line"]}
{"id": "C36", "title": "Line: partial_integration is the exact area", "statement": "line.partial_integration(a,b) == (b-a)*(line.y(a)+line.y(b))/2; it is additive over adjacent intervals and antisymmetric.", "quantifier": "all lines and bounds", "why_tests_cant": "real line", "anchors": ["curvepy/line.py:Line.partial_integration"]}
{"id": "C37", "title": "Sampling with a step is an arithmetic progression inside the domain", "statement": "curve.sample_points(domain, step=s) with s>0 returns exactly the points (a+k*s, y) for k=0,1,.. with a+k*s <= b where [a,b] is the common domain (without a if it is open), each with the curve's y, and terminates.", "quantifier": "all curves with bounded common domain, all positive steps", "why_tests_cant": "all quotients (b-a)/s", "anchors": ["curvepy/curve.py:Curve.sample_points"]}
{"id": "C38", "title": "Sampling without a step follows x_next and covers both ends", "statement": "curve.sample_points(domain, min_step) of a curve whose x_next advances by at least min_step returns strictly increasing positions inside the common domain that include both closed ends and every position x_next yields in between, each paired with y; it terminates and does not raise.", "quantifier": "all curves, domains and min_steps", "why_tests_cant": "loop with a rounding-based exit test: every alignment of knots and min_step bins", "anchors": ["curvepy/curve.py:Curve.sample_points"]}
{"id": "C39", "title": "get_range is the tightest interval of the sampled values", "statement": "curve.get_range(domain) has the minimum and maximum of the sampled values as bounds (both attained), and is empty iff nothing was sampled.", "quantifier": "all finite samples", "why_tests_cant": "all orders of values", "anchors": ["curvepy/curve.py:Curve.get_range"]}
{"id": "C40", "title": "sample_points_from_x returns the next `limit` points in the direction asked", "statement": "sample_points_from_x(x, n, open=True) returns the first n positions of the x_next (x_previous if backward or n<0) chain starting at x with their values, stopping early at the end of the curve or at the first undefined value; with open=False the point at x itself is the first of the n.", "quantifier": "all curves, n, x, directions", "why_tests_cant": "all chain lengths", "anchors": ["curvepy/curve.py:Curve.sample_points_from_x"]}
{"id": "C41", "title": "minimise/maximise terminate, stay on the curve and return a local optimum when they report one", "statement": "minimise (maximise) evaluates at most max_iterations positions; if it stops because it found an optimum, the backward slope there is < 0 and the forward slope > 0 (reversed for maximise); all positions visited come from the start by next/previous steps.", "quantifier": "all curves, starts, limits", "why_tests_cant": "all curve shapes", "anchors": ["curvepy/curve.py:Curve.minimise", "curvepy/curve.py:Curve.maximise"]}
{"id": "C42", "title": "regression through two points is the line through them", "statement": "regression is None if fewer than two points or an undefined value is sampled, and with exactly two points is the line through both; with more it is a least squares line.", "quantifier": "all samples", "why_tests_cant": "all samples", "anchors": ["curvepy/curve.py:Curve.regression"]}
{"id": "C43", "title": "d_y is the difference quotient to the neighbouring position", "statement": "curve.d_y(x, forward) is (y(x1)-y(x))/(x1-x) for the next/previous position x1, None if x1 or a value is missing; on a straight segment it is the slope in both directions.", "quantifier": "all curves and positions", "why_tests_cant": "function space", "anchors": ["curvepy/curve.py:Curve.d_y"]}
{"id": "C44", "title": "Default x_next/x_previous: exact step, clamped to limit, never outside the domain", "statement": "For curves without knots x_next(x) is x+min_step (domain end if min_step is inf), clamped to limit, None if past the domain; symmetric for x_previous; the larger of the curve's and the caller's min_step applies.", "quantifier": "all domains, positions, steps, limits", "why_tests_cant": "all combinations incl. infinities", "anchors": ["curvepy/curve.py:Curve.x_next", "curvepy/curve.py:Curve.x_previous", "curvepy/curve.py:Curve.resolve_min_step"]}
{"id": "C45", "title": "Accumulators process every knot once, in order", "statement": "A curve accumulated over Points (EMA, integral, trailing min/max, custom) calls its transform exactly once per knot at or before the furthest queried knot, in ascending order, starting with the first knot, each time with the previous result.", "quantifier": "all point lists with gaps >= min_step, all query sequences", "why_tests_cant": "all query orders", "anchors": ["curvepy/scan.py:Scan.scan", "curvepy/accumulator.py:Accumulator._accumulate"]}
{"id": "C46", "title": "Accumulators do not depend on query history", "statement": "The value an accumulator returns at x depends only on the source's current points, not on which x were queried before, in what order, or how the source was edited (append/set/replace/reset) in between.", "quantifier": "all interleavings of source edits and queries", "why_tests_cant": "unbounded interleavings", "anchors": ["curvepy/scan.py:Scan", "curvepy/accumulator.py:Accumulator", "curvepy/points.py:Points"]}
{"id": "C47", "title": "EMA satisfies its recurrence and stays within the data", "statement": "With alpha degree a the EMA at the knots is e0=y0 (or init.y(x0)), e_k = e_(k-1)+a*(y_k-e_(k-1)), skipping None; for 0<=a<=1 it stays between the min and max of the data so far; of constant data it is that constant. With a period it uses a_k=(x_k-x_(k-1))/period.", "quantifier": "all point lists, all alphas/periods", "why_tests_cant": "all lengths", "anchors": ["curvepy/ema.py:EMA._ema_scan"]}
{"id": "C48", "title": "Integral of Points is the exact area under the interpolated curve at the knots", "statement": "At knot x_k the integral is const plus the sum over earlier segments of the trapezoid area (left/right rectangle for previous/next interpolation); between the knots of non-negative data it is monotone; it is linear in the data.", "quantifier": "all point lists", "why_tests_cant": "all lengths", "anchors": ["curvepy/integral.py:Integral._integral_scan", "curvepy/line.py:Line.partial_integration"]}
{"id": "C49", "title": "SMA is the mean over the window", "statement": "sma(n).y at a knot is the arithmetic mean of the last n values (as documented: simple moving average); it is between the window's min and max; of constant data it is that constant; it is None before n points exist.", "quantifier": "all point lists, all n", "why_tests_cant": "all lengths and windows", "anchors": ["curvepy/sma.py:SMA"]}
{"id": "C50", "title": "trailing_min / trailing_max are the extremum of the last n points", "statement": "At a knot trailing_min(n) is the minimum of the last n values ending there (fewer at the start); likewise max.", "quantifier": "all point lists, all n", "why_tests_cant": "all lengths and windows", "anchors": ["curvepy/accumulator_map.py:AccumulatorMap", "curvepy/curve.py:Curve.trailing_min", "curvepy/curve.py:Curve.trailing_max"]}
{"id": "C51", "title": "Constant.value: silent when unchanged, one update when changed", "statement": "Assigning an equal value announces nothing; assigning a different one announces exactly one begin with the old value readable and one end with the new one.", "quantifier": "all values and observer sets", "why_tests_cant": "all sequences of assignments", "anchors": ["curvepy/constant.py:Constant.value"]}
{"id": "C52", "title": "Descriptors: log decorators cancel", "statement": "Parsing {'@logB': D} evaluates D with every number leaf replaced by its base-B logarithm exactly once and raises the result back to base B, so purely multiplicative descriptors keep their value: {'@logB': {'$add': [a, b]}} is the constant a*b.", "quantifier": "all nested descriptors", "why_tests_cant": "all nesting depths", "anchors": ["curvepy/curve.py:Curve.parse_descriptor"]}
{"id": "C53", "title": "Descriptors: decorators are scoped to their subtree", "statement": "After parsing any descriptor the set of active decorators is what it was before; siblings outside '@x': {...} are parsed without x.", "quantifier": "all descriptors", "why_tests_cant": "all nesting depths", "anchors": ["curvepy/curve.py:Curve.parse_descriptor"]}
{"id": "C54", "title": "Descriptors: successive function keys chain", "statement": "{'$f': A, '$g': B} is g applied to the result of f as receiver (or first argument) with arguments B; keys after a function that are neither functions nor decorators are rejected; fragments without functions come back as plain data with structure preserved.", "quantifier": "all descriptors", "why_tests_cant": "all lengths of chains", "anchors": ["curvepy/curve.py:Curve.parse_descriptor"]}
{"id": "C55", "title": "util.flatten preserves leaves and order; util.extend is right-biased merge", "statement": "flatten(items) is the list of non-iterable leaves in depth-first order; extend(a, b1, .., bn) maps each key to the value of the last argument defining it and does not modify a unless in_place.", "quantifier": "all nested lists, all dicts", "why_tests_cant": "all nesting depths", "anchors": ["curvepy/util.py:flatten", "curvepy/util.py:extend"]}
{"id": "C56", "title": "Trend: point lists stay sorted without duplicates", "statement": "Inserting any sequence of points through the trend's sorted insertion keeps the list sorted by x; with no_repeat it contains each x once and keeps the first point inserted at that x.", "quantifier": "all insertion sequences", "why_tests_cant": "all sequences", "anchors": ["curvepy/trend.py:_insort_point_left", "curvepy/trend.py:_insort_points_left"]}
{"id": "C57", "title": "Trend: geometry of lines", "statement": "_line_y passes through both points of a non-vertical line; _line_x inverts it for non-zero slope; the intersection of two lines lies on both, and is None exactly for parallel lines.", "quantifier": "all rational lines", "why_tests_cant": "real plane", "anchors": ["curvepy/trend.py:_line_y", "curvepy/trend.py:_line_x", "curvepy/trend.py:_line_intersection"]}
{"id": "C58", "title": "Trend: a point exactly on a trend line counts as on the trend", "statement": "With non-negative tolerances the tolerance band contains the line itself, and the band never is wider than either given tolerance allows.", "quantifier": "all lines and tolerances", "why_tests_cant": "real plane; sign of y", "anchors": ["curvepy/trend.py:TrendLine._value_tolerance_min", "curvepy/trend.py:TrendLine._value_tolerance_max", "curvepy/trend.py:TrendLine.is_point_on_trend"]}
{"id": "C59", "title": "Trend: predictions progress in order and outcomes are final", "statement": "A prediction never both succeeds and fails; once it succeeded or failed, processing more points changes nothing; success is only reached through intersection, then retest, then confirmation.", "quantifier": "all sequences of trend events", "why_tests_cant": "unbounded event sequences", "anchors": ["curvepy/trend.py:TrendLine.update_prediction"]}
{"id": "C60", "title": "Extremas: found extremas alternate and are ordered", "statement": "The extremas found by scanning have strictly increasing x and alternate between above and below the reference; each is the most extreme point of its excursion; between the first and the last the curve interpolates them.", "quantifier": "all point sequences and constant-sign references", "why_tests_cant": "unbounded sequences", "anchors": ["curvepy/extremas.py:Extremas"]}
{"id": "C61", "title": "Extensions leave the curve unchanged inside its domain and extend it consistently", "statement": "Inside the original domain an extension equals the curve; a constant extension equals the edge value beyond it; a tangent extension is the line through the edge point with the edge slope.", "quantifier": "all curves and positions", "why_tests_cant": "real line", "anchors": ["curvepy/extension/extension.py:Extension", "curvepy/extension/constant.py:ConstantExtension", "curvepy/extension/tangent.py:TangentExtension"]}
{"id": "C62", "title": "Sine extension joins with matching value and slope", "statement": "The sine fitted by the sine extension has the edge's value and slope at the edge and the requested period.", "quantifier": "all edges (x,y,dy), all positive periods", "why_tests_cant": "real-analytic identity", "anchors": ["curvepy/extension/sin.py:SinExtension.update_extension_func"]}
{"id": "C63", "title": "Sin: bounded, periodic, and d_y is its derivative", "statement": "|Sin.y| <= |amplitude|, Sin.y has the given period, d_y is the derivative of y.", "quantifier": "all parameters and positions", "why_tests_cant": "real-analytic identity", "anchors": ["curvepy/sin.py:Sin"]}
{"id": "C64", "title": "Quotes: encoder applied once, OHLC accessors consistent with the stored quotes", "statement": "After set/append/append_list the stored quotes are the encoded inputs in order; q.open/high/low/close/volume/hl2 at a quote's time are its components; trailing_high/trailing_low are the max of highs / min of lows.", "quantifier": "all histories, encoders and quotes", "why_tests_cant": "unbounded histories", "anchors": ["curvepy/quotes.py:Quotes"]}
{"id": "C65", "title": "Unsubscribing dependents leaves no registration behind", "statement": "When a combined curve is destroyed, all observer registrations it made on its sources are removed and no others.", "quantifier": "all lists of sources, including repeated ones", "why_tests_cant": "set iteration order and duplicates", "anchors": ["curvepy/aggregate.py:Aggregate.__del__", "curvepy/piecewise.py:Piecewise.__del__"]}
{"id": "C66", "title": "Observers: unregistering from inside a callback does not disturb the others", "statement": "If a callback removes its own or another registration, every other observer still gets the notification being delivered exactly once and nothing is raised.", "quantifier": "all registries, all announced intervals, all callbacks that remove registrations", "why_tests_cant": "depends on which observers remove what in which order", "anchors": ["curvepy/curve.py:Curve.begin_update", "curvepy/curve.py:Curve.end_update", "curvepy/curve.py:Curve.remove_observer"]}
{"id": "C67", "title": "Update protocol: announced begins and ends pair up", "statement": "When every begin_update(I) is matched by an end_update(I), every announced end is preceded by an announced begin since the previous announced end; updates that do not overlap announce exactly one begin and one end each, with their own interval.", "quantifier": "all sequences of matched pairs", "why_tests_cant": "unbounded interleavings of overlapping updates", "anchors": ["curvepy/curve.py:Curve.begin_update", "curvepy/curve.py:Curve.end_update"]}
{"id": "C69", "title": "minimise finds the bottom of a strictly falling-then-rising curve", "statement": "If the values of a curve along its x_next ladder fall strictly up to a position inside the domain and rise strictly after it, minimise started anywhere on the ladder returns exactly that position, provided max_iterations exceeds the number of positions to walk; no other position has a smaller value. For values that are level this fails: the search oscillates until max_iterations.", "quantifier": "all curves, ladders, starts and iteration limits", "why_tests_cant": "all shapes and lengths of the descent", "anchors": ["curvepy/curve.py:Curve.minimise", "curvepy/curve.py:Curve.d_y"]}
{"id": "C68", "title": "A uniform Points curve can be set to any equally spaced points", "statement": "set(points) on a curve created with uniform=True succeeds for every equally spaced ascending list, whatever the curve contained before.", "quantifier": "all curve states, all equally spaced lists", "why_tests_cant": "needs all combinations of old and new spacing", "anchors": ["curvepy/points.py:Points.set", "curvepy/points.py:Points._points_equally_spaced"]}
{"id": "C70", "title": "Points outside the announced interval are untouched", "statement": "Whenever a point is added, removed or gets another value by append, append_list, set, replace or reset, its x lies in the interval that was announced to observers before and after the edit.", "quantifier": "all curve states, all edits, all points", "why_tests_cant": "unbounded edit histories", "anchors": ["curvepy/points.py:Points.set", "curvepy/points.py:Points.append_list", "curvepy/points.py:Points.replace", "curvepy/points.py:Points.reset"]}
{"id": "C71", "title": "The domain of an extension tells where it has values", "statement": "f.domain of an extension is the domain of the curve, reaching to minus (plus) infinity exactly if the curve is extended at its start (end) and the extension can be computed there, after any edits of the curve.", "quantifier": "all curves, all histories of edits and reads", "why_tests_cant": "unbounded histories", "anchors": ["curvepy/extension/extension.py:Extension.get_domain", "curvepy/extension/extension.py:Extension._update_extension_interval"]}
{"id": "C72", "title": "raise_on_empty raises only if the curve cannot be extended", "statement": "Reading an extension created with raise_on_empty=True beyond the domain raises only if no extension could be computed; with raise_on_empty=False reading an extension never raises unless reading the curve does.", "quantifier": "all curves and positions", "why_tests_cant": "all curves", "anchors": ["curvepy/extension/extension.py:Extension._update_extension_if_needed"]}
{"id": "C73", "title": "Quotes.get_range spans the lows and highs", "statement": "q.get_range(domain) is the interval from the least low to the greatest high of the quotes sampled in the domain, and None or empty if there is none.", "quantifier": "all quotes and domains", "why_tests_cant": "unbounded data", "anchors": ["curvepy/quotes.py:Quotes.get_range"]}
{"id": "C79", "title": "Trend: a prediction starts only after min_points distinct tangents", "statement": "When the prediction of a trend line has seen its intersection (phase intersected or later, not failed), the line has at least min_points tangent points before that intersection.", "quantifier": "all lines grown by appending points", "why_tests_cant": "the miscount needs several update_prediction calls whose last point of interest is a tangent", "anchors": ["curvepy/trend.py:TrendLine.update_prediction"]}
{"id": "C80", "title": "Trend: the outcome of a prediction survives appended points", "statement": "Once the prediction of a valid trend line succeeded or failed, appending further points to the line keeps the outcome.", "quantifier": "all lines and appended points", "why_tests_cant": "needs a finished prediction followed by a point within tolerance of the line", "anchors": ["curvepy/trend.py:TrendLine.did_append_point", "curvepy/trend.py:TrendLine.update_trend"]}
{"id": "C74", "title": "Trend: the scan of a point ends", "statement": "For every trend grown by scanning points, _trend_scan returns (or raises) for every further point: the loop over the nesting levels ends.", "quantifier": "all trends, parameters and points", "why_tests_cant": "a loop that never ends cannot be observed by a test, and the nesting depth has no bound", "anchors": ["curvepy/trend.py:Trend._trend_scan"]}
{"id": "C75", "title": "Trend: trend points are in ascending order", "statement": "The trend points of a line are in ascending order of position; in particular the line goes from the first to the last of them.", "quantifier": "all lines grown by appending points and updates", "why_tests_cant": "the order depends on the pruning order, which depends on all points", "anchors": ["curvepy/trend.py:TrendLine.set_trend_with_boundary_points", "curvepy/trend.py:_line_fit"]}
{"id": "C76", "title": "Trend: an upper line lies above its boundary points, a lower one below", "statement": "After set_trend_with_boundary_points the trend line is an edge of the upper (lower) hull of the boundary points, so no boundary point lies above (below) it by more than the tolerance, and among the edges it is one with the least sum of squared distances.", "quantifier": "all lines with points in ascending order", "why_tests_cant": "unbounded number of points", "anchors": ["curvepy/trend.py:TrendLine.set_trend_with_boundary_points"]}
{"id": "C77", "title": "Trend: a valid line has enough points far enough apart", "statement": "A valid trend line has at least min_points trend points at distances of at least min_point_distance from one another and is at least min_width wide; a line with such points is valid.  Lines of a trend are held to the min_point_distance of the trend.", "quantifier": "all lines and trends", "why_tests_cant": "unbounded number of points", "anchors": ["curvepy/trend.py:TrendLine.is_valid", "curvepy/trend.py:Trend._create_line"]}
{"id": "C78", "title": "Trend: upper and lower lines have the same nesting levels", "statement": "A trend always has as many levels of nested upper lines as of nested lower lines, so that a scan never fails with an IndexError at a missing level.", "quantifier": "all trends grown by scans and updates", "why_tests_cant": "the mismatch needs an update that empties a nested level on one side only", "anchors": ["curvepy/trend.py:Trend.begin_update", "curvepy/trend.py:Trend._trend_scan"]}
{"id": "C81", "title": "Trend: the line is the least squares fit of the trend points", "statement": "The line of a trend line minimises the sum of squared vertical distances to the trend points over all straight lines, and the fit fails only if all points are at one position.", "quantifier": "all lines grown by appending points and updates; all straight lines", "why_tests_cant": "quantifies over all straight lines", "anchors": ["curvepy/trend.py:_line_fit", "curvepy/trend.py:TrendLine.update_trend"]}
{"id": "C82", "title": "SMA between knots runs linearly from one average to the next", "statement": "Between two knots x_k < x < x_{k+1} in its domain, sma(n).y(x) is the linear interpolation of the averages at the two knots; in particular it is between them.", "quantifier": "all point lists without missing values, all n >= 2, all x, all min_step, all histories of queries and edits", "why_tests_cant": "every position between knots and every min_step; whether the weights are the right way round only shows off the midpoint", "anchors": ["curvepy/sma.py:SMA.y"]}
{"id": "C83", "title": "SMA at a knot depends only on points up to it", "statement": "If two sources agree on their points up to the knot x, then the averages of both at x agree, whatever comes after x and whatever was asked or edited before.", "quantifier": "all pairs of point lists with a common beginning, all windows, all histories", "why_tests_cant": "quantifies over pairs of curves and over everything that can follow", "anchors": ["curvepy/sma.py:SMA.y", "curvepy/sma.py:SMA._sma_start", "curvepy/sma.py:SMA._sma_end"]}
{"id": "C84", "title": "Trend: the search interval follows from the line", "statement": "The search interval of a trend line is determined by its line, its first intersection and its parameters: from the start of the line over search_length_rel times its length, or up to the first intersection if the line was crossed after its start before it had min_points trend points; it is kept up to date by every append and update.", "quantifier": "all lines grown by appending points and updates", "why_tests_cant": "a stale interval shows only after a certain order of updates and crossings", "anchors": ["curvepy/trend.py:TrendLine.update_interval"]}
{"id": "C85", "title": "Trend: tangent points, intersections and extremas are those of the underlying points", "statement": "Updating the points of interest adds, for the underlying points not yet looked at, one tangent point for each stretch of points that touch the line (the closest one), one intersection for each change of the side (on the line), and one extremum for each stretch on one side (the most extreme one), and no others.", "quantifier": "all lines grown by appending points and updates, all underlying points", "why_tests_cant": "unbounded sequences; depends on the order of updates", "anchors": ["curvepy/trend.py:TrendLine.update_points_of_interest"]}
{"id": "C86", "title": "Trend: coincident and convex points", "statement": "Three points are coincident exactly if the middle value differs from the straight line between the others by at most the absolute and the relative tolerance; they are strictly convex exactly if the middle value is below that line by at least the tolerances.", "quantifier": "all points at ascending positions, all tolerances", "why_tests_cant": "real plane; sign of the values", "anchors": ["curvepy/trend.py:_is_coincident_points", "curvepy/trend.py:_is_strictly_convex_points", "curvepy/trend.py:_is_value_within_tolerance"]}
{"id": "C87", "title": "Trend: extremas that are too close are left out", "statement": "Leaving out extremas that are too close together keeps the first and the last one, keeps all if all are far enough apart, and leaves either two or only extremas at least min_point_distance apart.", "quantifier": "all lists of extremas in order of position", "why_tests_cant": "unbounded lists; a removal changes the distances of the others", "anchors": ["curvepy/trend.py:TrendLine.set_trend_with_boundary_points"]}
{"id": "C88", "title": "Trend over a source: each point recorded once", "statement": "After any sequence of queries and edits of the source, the points recorded by a trend are those of a beginning of the source that have a value, in order and each of them once, and the position of the scan is that of the last of them.", "quantifier": "all histories of queries and edits of a source with any parameters of the trend", "why_tests_cant": "unbounded histories; interplay of edits, removal of stale points and the position of the scan", "anchors": ["curvepy/trend.py:Trend.begin_update", "curvepy/trend.py:Trend._trend_scan", "curvepy/scan.py:Scan.scan", "curvepy/scan.py:Scan.begin_scan_update"]}
{"id": "C89", "title": "Trend over a source: lines do not depend on the history", "statement": "After any sequence of queries and edits of the source, the state of the trend is the one that results from scanning the points of the source one after another with a new trend, so a query at the end returns the same lines.", "quantifier": "all histories of queries and edits of a source with any parameters of the trend", "why_tests_cant": "unbounded histories; the state is a nested list of lines with levels and tangents", "anchors": ["curvepy/trend.py:Trend.begin_update", "curvepy/trend.py:Trend._trend_scan", "curvepy/trend.py:TrendLine.begin_update", "curvepy/scan.py:Scan.scan"]}
{"id": "C90", "title": "Trend: lines returned", "statement": "A query returns exactly those lines, of all levels, lower ones first, that have a chord, are at least min_width wide, have at least min_points points far enough apart, and whose search interval contains the position; from the first point of the source on, and nothing before.", "quantifier": "all states of a trend, all positions", "why_tests_cant": "unbounded nested lists of lines", "anchors": ["curvepy/trend.py:Trend.scanned_y", "curvepy/trend.py:Trend._line_filter", "curvepy/trend.py:TrendLine.is_valid"]}
{"id": "C91", "title": "Trend: updates remove what is outdated", "statement": "Beginning an update removes from a trend and from its lines the points in the updated interval, and no others.", "quantifier": "all reachable trends, all intervals", "why_tests_cant": "unbounded point lists; reachable states", "anchors": ["curvepy/trend.py:Trend.begin_update", "curvepy/trend.py:TrendLine.begin_update", "curvepy/trend.py:TrendLine.begin_update.remove_stale"]}
{"id": "C92", "title": "Accumulators over any curve", "statement": "An accumulator over a curve that does not change answers with the fold of its transform over the knots of the curve, whatever was asked before.", "quantifier": "all curves that show their knots (points, mapped curves, curves combined with numbers), all transforms of (x, y, last), all histories of queries, all positions", "why_tests_cant": "unbounded knots and query histories; arbitrary curve and transform", "anchors": ["curvepy/scan.py:Scan.scan", "curvepy/accumulator.py:Accumulator._accumulate", "curvepy/accumulator.py:Accumulator.x_next", "curvepy/aggregate.py:Aggregate.x_next", "curvepy/constant.py:Constant"]}
{"id": "C93", "title": "Averages stay within bounds", "statement": "An exponential moving average with a fraction between 0 and 1, of any curve whose values are within bounds, stays within them at every position, between knots too, and after every history of queries.", "quantifier": "all curves, fractions in [0, 1], bounds, interpolations, step sizes, histories and positions", "why_tests_cant": "arbitrary curves; unbounded histories; interpolation at all positions", "anchors": ["curvepy/ema.py:EMA._ema_scan", "curvepy/accumulator.py:Accumulator._accumulate", "curvepy/points.py:Points.y"]}
{"id": "C94", "title": "RSI is between 0 and 100", "statement": "The relative strength index of degree at least 1 of any curve is between 0 and 100, or not defined, at every position and after every history of queries.", "quantifier": "all curves, degrees of at least 1, step sizes, histories and positions", "why_tests_cant": "arbitrary curves; unbounded histories; all positions", "anchors": ["curvepy/curve.py:Curve.rsi", "curvepy/curve.py:Curve.differential", "curvepy/curve.py:Curve.max", "curvepy/ema.py:EMA._ema_scan"]}
{"id": "C95", "title": "RSI at the data", "statement": "The relative strength index is 100 - 100 / (1 + U / D) with the exponentially weighted averages U of the rises and D of the falls up to the point (100 without falls), whatever was asked before.", "quantifier": "all lists of points, degrees of at least 1, histories of queries", "why_tests_cant": "unbounded data and query histories", "anchors": ["curvepy/curve.py:Curve.rsi", "curvepy/curve.py:Curve.d_y", "curvepy/aggregate.py:Aggregate.x_next"]}
{"id": "C96", "title": "How far a trend looks", "statement": "A query of a trend goes on from where the last one stopped and scans points of the source until there are no more, or until the trend has a line, has reached the position, and looks for points of its lines after the position only; it stops no sooner and no later, and fails only if the trend fails to add one of these points.", "quantifier": "all trends, sources with gaps, histories of queries and of points added at the end, positions", "why_tests_cant": "unbounded data and histories", "anchors": ["curvepy/trend.py:Trend.continue_scan", "curvepy/scan.py:Scan.scan"]}
{"id": "C97", "title": "Trend queries in any order", "statement": "The lines that a trend returns at a position do not depend on earlier queries, and the same query twice returns the same lines.", "quantifier": "all trends, sources, histories of queries and of points added at the end, positions", "why_tests_cant": "depends on all pairs of histories", "anchors": ["curvepy/trend.py:Trend.continue_scan", "curvepy/trend.py:Trend.scanned_y", "curvepy/scan.py:Scan.y"]}
{"id": "C98", "title": "Stepping along accumulators", "statement": "The next and the previous position of an accumulator are those of its source, after every history of queries and edits.", "quantifier": "all sources, transforms, histories, positions and step sizes", "why_tests_cant": "unbounded histories and data", "anchors": ["curvepy/accumulator.py:Accumulator.x_next", "curvepy/accumulator.py:Accumulator.x_previous"]}
{"id": "C99", "title": "Extended trend lines", "statement": "The extension of a trend line exists, begins where the line begins, ends on the line, is not wider than the bound, and ends before the intersection after the one asked for.", "quantifier": "all trend lines that result from any series of points and updates, all multiples, bounds and indices", "why_tests_cant": "arbitrary lines, indices and numbers of intersections", "anchors": ["curvepy/trend.py:TrendLine.line_extended"]}
{"id": "C100", "title": "Copies of trend lines", "statement": "A copy of a trend line behaves like the line.", "quantifier": "all trend lines", "why_tests_cant": "arbitrary lines and points", "anchors": ["curvepy/trend.py:TrendLine.__copy__", "curvepy/trend.py:TrendLine.is_point_on_trend", "curvepy/trend.py:TrendLine.__iter__"]}
{"id": "C101", "title": "Values of a curve offset by periods", "statement": "At the beginning of a period the value is that of the curve n periods before; within a period it lies on the straight line between the values at both ends, and there is none if one of these is missing; the offset by no period has the values of the curve.", "quantifier": "all curves, sequences of periods, numbers of periods and positions", "why_tests_cant": "unbounded offsets, calendars with periods of unequal length", "anchors": ["curvepy/offset.py:Offset.y", "curvepy/offset.py:Offset._interpolated_func", "curvepy/offset.py:Offset._res_step"]}
{"id": "C102", "title": "Domain of a curve offset by periods", "statement": "The domain of the offset curve tells where it has values.", "quantifier": "all curves, sequences of periods and numbers of periods", "why_tests_cant": "unbounded offsets, calendars with periods of unequal length", "anchors": ["curvepy/offset.py:Offset.get_domain", "curvepy/offset.py:Offset._offset_interval"]}
{"id": "C103", "title": "Offsets by periods add up", "statement": "An offset by n periods and then by m periods is the offset by n + m; the opposite offset restores the curve.", "quantifier": "all curves, sequences of periods, numbers of periods and positions", "why_tests_cant": "unbounded offsets, calendars with periods of unequal length", "anchors": ["curvepy/offset.py:Offset.y", "curvepy/offset.py:Offset._unoffset_x", "curvepy/offset.py:Offset._offset_x"]}
{"id": "C104", "title": "Stepping along a curve offset by periods", "statement": "The next and the previous position are the ends of the period, not nearer than the minimum step and not after the limit.", "quantifier": "all curves, sequences of periods, numbers of periods, positions, minimum steps and limits", "why_tests_cant": "unbounded offsets, calendars with periods of unequal length", "anchors": ["curvepy/offset.py:Offset.x_next", "curvepy/offset.py:Offset.x_previous"]}
{"id": "C105", "title": "Updates of a curve offset by periods", "statement": "If a curve changes within an interval only, the offset curve changes within the interval that it announces only.", "quantifier": "all pairs of curves before and after, intervals, sequences of periods, numbers of periods", "why_tests_cant": "unbounded offsets, calendars with periods of unequal length", "anchors": ["curvepy/offset.py:Offset.begin_offset_update", "curvepy/offset.py:Offset.end_offset_update", "curvepy/offset.py:Offset._offset_interval"]}
{"id": "C106", "title": "Derivative of a curve offset by periods", "statement": "The derivative of the offset curve is the slope of its values.", "quantifier": "all curves, sequences of periods, numbers of periods and positions", "why_tests_cant": "unbounded offsets, calendars with periods of unequal length", "anchors": ["curvepy/offset.py:Offset.d_y", "curvepy/offset.py:Offset._interpolated_func"]}
{"id": "C107", "title": "Smoothed moving averages", "statement": "The smoothed moving average of degree n has no value before the n-th point, there the mean of the first n values, and then moves a part 1/n of the way to each further value; it stays between the least and the greatest value.", "quantifier": "all sources without missing values, degrees, histories of queries and edits, and points", "why_tests_cant": "unbounded data and histories; two curves with their own state", "anchors": ["curvepy/curve.py:Curve.smma", "curvepy/ema.py:EMA._ema_scan", "curvepy/sma.py:SMA.y", "curvepy/scan.py:Scan.scan"]}
{"id": "C108", "title": "Windows of harmonic averages", "statement": "harmonic_smas gives averages of the base times 1, 2, 3, 4, 7, 11, 18, … taken stride + 1 apart, growing and within half a base of the power of the golden ratio; centered_macs has the same from large to small.", "quantifier": "all bases, numbers of averages and strides", "why_tests_cant": "unbounded counts; rounding of powers of an irrational number", "anchors": ["curvepy/curve.py:Curve.harmonic_smas", "curvepy/curve.py:Curve.centered_macs", "curvepy/sma.py:SMA.__init__"]}
{"id": "C109", "title": "Powers of curves", "statement": "A power of curves has at each position the base to the product of the exponents, and no value where one of them has none.", "quantifier": "all curves, values, positions and numbers of factors", "why_tests_cant": "real values and unbounded lists of curves", "anchors": ["curvepy/curve.py:Curve.pow", "curvepy/curve.py:Curve.raised", "curvepy/curve.py:Curve.pow_many", "curvepy/curve.py:_pow"]}
{"id": "C110", "title": "Logarithms of curves", "statement": "The logarithm of a curve to a base is the logarithm of its values; it raises exactly for values or bases that are not positive and the base 1; it undoes powers and is undone by them, turns products into sums and powers into products.", "quantifier": "all curves, bases and positions", "why_tests_cant": "real values; laws relate several operations", "anchors": ["curvepy/curve.py:Curve.log", "curvepy/curve.py:Curve.log_many", "curvepy/curve.py:_log", "curvepy/curve.py:Curve.raised"]}
{"id": "C111", "title": "What accumulators announce", "statement": "An edit of the source of an accumulator is passed on once before and once after, as an edit of everything from the beginning of the edited interval on; an edit the source does not announce is not passed on.", "quantifier": "all histories of queries and edits of the source, all edits that succeed", "why_tests_cant": "unbounded histories; the gates for begin and end are states shared by all edits", "anchors": ["curvepy/scan.py:Scan.begin_scan_update", "curvepy/scan.py:Scan.end_scan_update", "curvepy/accumulator.py:Accumulator.begin_update", "curvepy/curve.py:Curve.begin_update", "curvepy/curve.py:Curve.end_update"]}
{"id": "C112", "title": "Accumulators announce all that changes", "statement": "Outside the interval an accumulator announces, its values after an edit of the source are the values before.", "quantifier": "all histories of queries and edits of the source, all edits and positions", "why_tests_cant": "unbounded histories and all positions between knots", "anchors": ["curvepy/scan.py:Scan.begin_scan_update", "curvepy/accumulator.py:Accumulator.begin_update", "curvepy/points.py:Points.replace"]}
{"id": "C113", "title": "Sums and products in any order and grouping", "statement": "The order of the curves in a sum or product and how they are grouped do not matter: domain, values and the positions found by x_next and x_previous are the same, also for infinite and undefined numbers.", "quantifier": "all lists of curves, functions and numbers, all groupings and positions", "why_tests_cant": "unbounded lists; laws relate several expressions", "anchors": ["curvepy/curve.py:Curve.add", "curvepy/curve.py:Curve.add_many", "curvepy/curve.py:Curve.multiply", "curvepy/curve.py:Curve.multiply_many", "curvepy/aggregate.py:Aggregate"]}
{"id": "C114", "title": "Minimum and maximum", "statement": "The order of the curves does not matter for their minimum and maximum; the maximum of the opposites is the opposite of the minimum.", "quantifier": "all lists of curves and positions, with and without empty values", "why_tests_cant": "unbounded lists; comparisons with undefined numbers", "anchors": ["curvepy/curve.py:Curve.min", "curvepy/curve.py:Curve.max", "curvepy/curve.py:_min_vals", "curvepy/curve.py:_max_vals"]}
{"id": "C115", "title": "Laws of combinations", "statement": "A difference is the sum with the opposite of the sum of the others; products distribute over sums; two maps are one map with both functions; the offset of a sum or product is that of the offsets.", "quantifier": "all lists of curves, functions, numbers and positions", "why_tests_cant": "unbounded lists; laws relate several expressions", "anchors": ["curvepy/curve.py:Curve.subtract_many", "curvepy/curve.py:Curve.multiply_many", "curvepy/curve.py:Curve.map", "curvepy/curve.py:Curve.offset", "curvepy/map.py:Map", "curvepy/offset.py:Offset"]}
{"id": "C116", "title": "Sampling accumulators", "statement": "After any history of edits and queries, sampling an accumulator gives the points of the curve of accumulated values over the current points, or the error of accumulating up to the end of the sampled domain; over the whole domain it gives what was written at each point of the source. Sampling does not change later answers.", "quantifier": "all accumulation rules, histories, domains, steps", "why_tests_cant": "any number of edits, queries and points", "anchors": ["curvepy/scan.py:Scan.sample_points", "curvepy/curve.py:Curve.sample_points", "curvepy/accumulator_map.py:AccumulatorMap", "curvepy/points.py:Points"]}
{"id": "C117", "title": "Slopes and searches of accumulators", "statement": "After any history, slopes, searches for minima and maxima, and sampling from a position on an accumulator are those of the curve of accumulated values over the current points.", "quantifier": "all accumulation rules, histories, positions, directions, steps", "why_tests_cant": "any number of edits, queries and points", "anchors": ["curvepy/curve.py:Curve.d_y", "curvepy/curve.py:Curve.sample_points_from_x", "curvepy/curve.py:Curve.minimise", "curvepy/curve.py:Curve.maximise", "curvepy/scan.py:Scan", "curvepy/accumulator_map.py:AccumulatorMap"]}
{"id": "C118", "title": "Infinite and undefined values in sums, products and quotients", "statement": "Where every operand has a value, the sum is +inf if some summand is +inf and none is -inf or nan, -inf likewise, nan if both infinities or a nan occur, and otherwise the exact sum; the difference is the sum with the later operands negated; the product is nan if a factor is nan or an infinite factor meets zero, otherwise infinite with the sign of the factors, otherwise the exact product; the quotient follows the same rules, and dividing by zero gives an infinity with the sign of the dividend.", "quantifier": "all lists of curves and numbers, all positions", "why_tests_cant": "any numbers of curves, points, steps and reads", "anchors": ["curvepy/curve.py:Curve.add_many", "curvepy/curve.py:Curve.subtract_many", "curvepy/curve.py:Curve.multiply_many", "curvepy/curve.py:Curve.divide_many"]}
{"id": "C119", "title": "Steps along an extended curve", "statement": "Beyond the last point of an extended list of points, x_next goes on with the last distance between points (at least the step), so that n steps arrive at last + n * distance; likewise x_previous before the first point; without an extension on that side the steps are those of the curve; errors of the curve are passed on; and x_previous undoes x_next beyond the end.", "quantifier": "all lists of points, positions, steps and numbers of steps", "why_tests_cant": "any numbers of curves, points, steps and reads", "anchors": ["curvepy/extension/extension.py:Extension.x_next", "curvepy/extension/extension.py:Extension.x_previous"]}
{"id": "C120", "title": "Errors while an extension is updated", "statement": "A read of an extended curve raises exactly the first error raised while the extension at the start, then at the end, is computed from the curve; and a later read raises it again.", "quantifier": "all curves, positions and steps", "why_tests_cant": "any numbers of curves, points, steps and reads", "anchors": ["curvepy/extension/extension.py:Extension.update_extension_if_needed", "curvepy/extension/constant.py:ConstantExtension.update_extension", "curvepy/extension/tangent.py:TangentExtension.update_extension"]}
{"id": "C121", "title": "Tangent extensions with regression", "statement": "A tangent extension with a regression is, beyond each end, the straight line fitted to the curve on the regression window at that end, after any history of reads and announced changes; with regression_degree n the window at an end of a list of points holds exactly its n + 1 outermost points: the line through two points for n = 1, the fitted line for more, nothing if a value is missing there or there are too few points.", "quantifier": "all curves, fitting routines, windows, histories; all lists of points and degrees", "why_tests_cant": "any numbers of curves, points, steps and reads", "anchors": ["curvepy/extension/tangent.py:TangentExtension.update_extension", "curvepy/curve.py:Curve.regression", "curvepy/curve.py:Curve.sample_points"]}
{"id": "C122", "title": "Functions given by users are called with what they accept", "statement": "Map and AccumulatorMap accept a function exactly if it can be called with the value (or the values of the window), or with the position and the value, and then call it so; an observer is told the interval if it can be, and called without arguments otherwise; everything else is refused when it is given.", "quantifier": "all lists of parameters, all functions, curves, positions, windows", "why_tests_cant": "any numbers of parameters of any kinds, all curves, positions and values", "anchors": ["curvepy/util.py:count_positional_args", "curvepy/curve.py:Curve.count_positional_args", "curvepy/map.py:Map.__init__", "curvepy/map.py:Map._map", "curvepy/accumulator_map.py:AccumulatorMap.__init__", "curvepy/accumulator_map.py:AccumulatorMap._accumulator_map", "curvepy/curve.py:Curve.add_observer"]}
{"id": "C123", "title": "Combinations of accumulating curves", "statement": "A curve built by any nesting of aggregates, maps, offsets, differentials ahead, subsets and piecewise combinations over accumulators has, after any history of reads and edits, the values, next positions, samples and domain of the same combination of the finished accumulations; reading it changes no source.", "quantifier": "all expressions, families of accumulators, histories, positions, steps and limits", "why_tests_cant": "any tree of operations over any number of accumulators, with any history of reads and edits in any order", "anchors": ["curvepy/aggregate.py:Aggregate.y", "curvepy/map.py:Map.y", "curvepy/offset.py:Offset.y", "curvepy/piecewise.py:Piecewise.y", "curvepy/accumulator.py:Accumulator.x_next", "curvepy/scan.py:Scan.scan", "curvepy/curve.py:Curve.__add__", "curvepy/curve.py:Curve.subset"]}
{"id": "C124", "title": "Differentials of accumulating curves", "statement": "The differential of an accumulator has, after any history, at each position of its domain the slope of the finished accumulation, ahead and back; at a knot it is the chord slope to the knot before (None at the first); the differential of an integral is the mean height of the segment.", "quantifier": "all accumulators following a rule, histories, positions in the domain, both directions", "why_tests_cant": "any history of reads and edits and any data", "anchors": ["curvepy/curve.py:Curve.differential", "curvepy/curve.py:Curve.d_y", "curvepy/map.py:Map.y", "curvepy/accumulator.py:Accumulator.x_previous", "curvepy/integral.py:Integral.scanned_y", "curvepy/integral.py:Integral._integral_scan"]}
{"id": "C125", "title": "Values of accumulators over accumulators", "statement": "Accumulators over accumulators (averages of averages), of any number, have after any history of reads at any height and edits of the points the values of the folds over folds: at each point what the transform makes of the value of the inner one there and of the own value at the point before, interpolated between. Edits reach all of them without an exception and are announced by the highest as by the lowest; averages stay within any bounds of the data.", "quantifier": "all numbers of accumulators over each other, transforms of the arguments, points, histories of reads at any height and edits, positions", "why_tests_cant": "any depth and any interleaving of reads and edits", "anchors": ["curvepy/accumulator.py:Accumulator.scanned_y", "curvepy/accumulator.py:Accumulator._accumulate", "curvepy/accumulator.py:Accumulator.begin_scan_reset", "curvepy/scan.py:Scan.y", "curvepy/scan.py:Scan.scan", "curvepy/scan.py:Scan.begin_update", "curvepy/scan.py:Scan.end_update", "curvepy/ema.py:EMA._ema_scan", "curvepy/curve.py:Curve.begin_update"]}
{"id": "C126", "title": "Next positions and samples of accumulators over accumulators", "statement": "Next positions, previous positions and samples of accumulators over accumulators are those of the points and of the curve through the folded knots, whatever was read before.", "quantifier": "all numbers of accumulators over each other, transforms of the arguments, points, histories of reads at any height and edits, positions, steps, sampled domains", "why_tests_cant": "any depth and any interleaving of reads and edits", "anchors": ["curvepy/accumulator.py:Accumulator.x_next", "curvepy/scan.py:Scan.sample_points", "curvepy/curve.py:Curve.sample_points"]}
{"id": "C127", "title": "Samples and searches of lines and constants", "statement": "Sampled between two positions, a line or a constant gives its two ends, whatever the step asked for; the range found is that of all values between them and the regression is the line itself. A search for the least or greatest value of a line ends at the infinity where it is. Constant.x answers exactly for the value of the constant, with a position where it has it.", "quantifier": "all lines, constants, domains, steps, starting positions and numbers of iterations", "why_tests_cant": "lines and constants have an infinite minimum step, which every sampling loop must handle", "anchors": ["curvepy/line.py:Line", "curvepy/constant.py:Constant.x", "curvepy/curve.py:Curve.sample_points", "curvepy/curve.py:Curve.get_range", "curvepy/curve.py:Curve.regression", "curvepy/curve.py:Curve.minimise", "curvepy/curve.py:Curve.maximise"]}
{"id": "C128", "title": "Awesome oscillator", "statement": "The awesome oscillator at a quote is the simple average of the midpoints of the last five quotes less that of the last 34; None before there are 34 quotes, whatever was asked or edited before. Each simple average is the mean height of the line through its midpoints.", "quantifier": "all quotes, positions of quotes, histories of queries, reads and edits, minimum steps", "why_tests_cant": "the two averages remember different windows, and the remembered sums must survive every order of queries and edits", "anchors": ["curvepy/quotes.py:Quotes.ao", "curvepy/quotes.py:Quotes.hl2", "curvepy/aggregate.py:Aggregate.y"]}
{"id": "C129", "title": "Alligator", "statement": "Jaw, teeth and lips at the beginning of a period are the simple averages of the midpoints of 13, 8 and 5 quotes, taken 8, 5 and 3 periods earlier; within a period they are on the line between the two; None where one of the two is missing, and so also until that many periods after the last quote.", "quantifier": "all durations, quotes, positions, histories of queries, reads and edits", "why_tests_cant": "the moved curve combines rounding to periods with an average that is only right at the quotes", "anchors": ["curvepy/quotes.py:Quotes.alligator", "curvepy/offset.py:Offset._interpolated_func", "curvepy/sma.py:SMA.y"]}
{"id": "C130", "title": "Networks of averages and combinations", "statement": "Over one list of points any network of accumulators and combinations, with shared sources and any depth, has for each curve the value that its definition gives for the current points: combinations of the values of their sources, accumulators what their function makes of the value of the source and their own value at the point before. Reading one curve changes no value of any curve; all domains are that of the points.", "quantifier": "all networks, functions, points, positions, histories of reads of any curves and of edits, orders of notification", "why_tests_cant": "shared sources are filled lazily from several sides, and the announcements reach a curve along several paths in any order", "anchors": ["curvepy/aggregate.py:Aggregate", "curvepy/accumulator.py:Accumulator", "curvepy/curve.py:Curve.end_update", "curvepy/points.py:Points"]}
{"id": "C131", "title": "Announcements in networks", "statement": "An edit of the points reaches every curve of a network without exception. A curve either announces nothing, and then nothing changed, or one of the announced intervals both begins and ends the update and covers all announced ones; values at points before it stay. The end is announced once.", "quantifier": "all networks, edits, histories, orders of notification", "why_tests_cant": "the number and order of announcements depends on all paths from the points to the curve", "anchors": ["curvepy/curve.py:Curve.begin_update", "curvepy/curve.py:Curve.end_update", "curvepy/aggregate.py:Aggregate", "curvepy/scan.py:Scan.begin_scan_reset"]}
{"id": "C132", "title": "Assigning to sine curves", "statement": "After any assignments to a sine curve, also ones that raised, an assignment with an amplitude, a frequency or period, and a phase or phase position gives the sine so described, with its update over. An assignment that lacks a part is rejected and leaves the curve as it was; each successful one announces one beginning and one end.", "quantifier": "all real amplitudes, frequencies, periods, phases; all histories of assignments", "why_tests_cant": "the code begins the update and overwrites its fields before looking at the arguments: what a rejected assignment leaves behind shows only in the next call", "anchors": ["curvepy/sin.py:20-37", "curvepy/curve.py:433-460"]}
{"id": "C133", "title": "Empty curve", "statement": "The empty curve has no values, neighbouring positions, slopes, samples or extrema; a sum, difference, product, quotient, minimum or maximum with it has no values; `first`, and minima and maxima that ignore missing values, are the same with and without it.", "quantifier": "all positions, steps, limits, lists of operands, places of the empty curve in them", "why_tests_cant": "the operands around the empty curve are arbitrary curves", "anchors": ["curvepy/empty.py:5-20", "curvepy/aggregate.py:6-131", "curvepy/curve.py:640-714"]}
{"id": "C134", "title": "Line fits within tolerances", "statement": "A list of more than two points is accepted as a line exactly if each of its points agrees, in the given relative and absolute tolerances, with a line of least squares; points on one line are accepted for all tolerances that are not negative. The same holds for the method of trend lines.", "quantifier": "all lists of points, tolerances, trend lines", "why_tests_cant": "least squares against all other lines; the method inverts the check for all points", "anchors": ["curvepy/trend.py:824-833", "curvepy/trend.py:956-965"]}
{"id": "C135", "title": "Index of a position among extremas", "statement": "The index of a position is None outside the extremas; it is the number of an extremum at that extremum (counted from 0), and between two it is the number of the first and the part of the way to the second.", "quantifier": "all lists of extremas with ascending positions, all positions", "why_tests_cant": "needs three extremas and a position at or after the second", "anchors": ["curvepy/extremas.py:137-148"]}
{"id": "C136", "title": "Networks over several lists of points", "statement": "Over any number of lists of points, each of which is edited on its own, every accumulator and combination of a network has the value that its definition gives for the current points of all lists. A combination is defined where all its sources are and steps through the positions of all of them; an accumulator over it continues from one of these positions to the next. Reading a curve changes no value.", "quantifier": "all networks, functions, lists of points, positions, histories of reads of any curves and edits of any list, orders of notification", "why_tests_cant": "the positions of an accumulator over a combination come from all lists, and an edit of one of them moves the overlap", "anchors": ["curvepy/aggregate.py:Aggregate", "curvepy/accumulator.py:Accumulator", "curvepy/scan.py:Scan", "curvepy/curve.py:Curve.begin_update"]}
{"id": "C137", "title": "Announcements in networks over several lists", "statement": "An edit of one list reaches the curves made from it without exception; the other curves hear and announce nothing and do not change. A curve that announces nothing has the same values and domain as before, otherwise one announced interval covers all others, and values and domain stay before it.", "quantifier": "all networks, edits of any of the lists, histories, orders of notification", "why_tests_cant": "needs the values at all positions before and after an edit of one of several sources", "anchors": ["curvepy/curve.py:Curve.begin_update", "curvepy/curve.py:Curve.end_update", "curvepy/aggregate.py:Aggregate", "curvepy/points.py:Points.replace"]}
{"id": "C138", "title": "Sampling of quotes by period", "statement": "Sampling quotes on a domain gives, in order, exactly the quotes whose period has an instant in the domain; without a domain all quotes, on an empty one none. The domain of quotes without gaps runs from the beginning of the first period to the end of the last; first_quote and last_quote are the first and last stored quote; at each instant of this domain the value is the quote of the period of the instant; the next and previous positions are the beginnings of the next and of the previous period with a quote.", "quantifier": "all histories of edits, durations with periods of any lengths, domains with open, closed and infinite bounds, instants", "why_tests_cant": "bounds can fall on, before or after the beginning of a period and be open or closed, for periods of different lengths", "anchors": ["curvepy/quotes.py:Quotes.sample_points", "curvepy/quotes.py:Quotes.sample", "curvepy/quotes.py:Quotes.get_quote_domain", "curvepy/quotes.py:Quotes.first_quote", "curvepy/quotes.py:Quotes.last_quote", "curvepy/quotes.py:Quotes.x_next", "curvepy/quotes.py:Quotes.x_previous"]}
{"id": "C139", "title": "Accumulators over points closer than their step", "statement": "An accumulator over a list of points, with points at any distances, answers with the fold over the points that are met in steps of at least min_step from the first, whatever was asked before: up to the last of them the curve through the results, after it none. Each point not met lies less than min_step after one that is. What lies between the points met does not matter. A moving average at a point met is that of the points met up to it.", "quantifier": "all lists of points, steps, transforms, histories of queries, positions", "why_tests_cant": "points can be closer than the step in any places, in clusters of any size, also at the end", "anchors": ["curvepy/scan.py:Scan.scan", "curvepy/accumulator.py:Accumulator.x_next", "curvepy/accumulator.py:Accumulator._accumulate", "curvepy/points.py:Points.x_next", "curvepy/ema.py:EMA._ema_scan"]}
{"id": "C140", "title": "Accumulators over points at any distances, after any edits", "statement": "After any history of queries, edits of the source and reads of domains, an accumulator answers with the fold over the points that are met now in its source in steps of at least min_step from the first. It never raises on an edit, answers the same as any other accumulator over a source in which the same points are met, and has no value after the last point met. A moving average with a fraction and an integral, at a point met, are those of the points met up to it.", "quantifier": "all histories of queries and edits, points at any distances, steps, positions", "why_tests_cant": "which points are met can change everywhere after an edit, and results kept from before have to go", "anchors": ["curvepy/scan.py:Scan.scan", "curvepy/accumulator.py:Accumulator.x_next", "curvepy/accumulator.py:Accumulator._accumulate", "curvepy/accumulator.py:Accumulator.begin_update", "curvepy/points.py:Points.x_next", "curvepy/ema.py:EMA._ema_scan", "curvepy/integral.py:Integral._integral_scan"]}
{"id": "C141", "title": "Averages with a period and windows over points at any distances", "statement": "After any history of queries and edits, a moving average with a period answers with the fold over the points met in steps of at least min_step, where the time at each of them counts from the last point at least min_step before it, met or not. A trailing minimum or maximum over n points is, at a point met, that of the n values found walking back from it in steps of at least min_step; over a period, that of all points of the period. Two such curves over sources with the same points answer the same.", "quantifier": "all histories of queries and edits, points at any distances, steps, periods, degrees, functions of windows", "why_tests_cant": "clusters of points can lie anywhere; the walk back meets other points than the walk forward", "anchors": ["curvepy/accumulator_map.py:AccumulatorMap._accumulator_map_scan", "curvepy/ema.py:EMA._ema_scan", "curvepy/points.py:Points.sample_points", "curvepy/curve.py:Curve.sample_points_from_x", "curvepy/curve.py:Curve.sample_points", "curvepy/accumulator.py:Accumulator.begin_update"]}
{"id": "C142", "title": "Sampling of points and quotes in steps", "statement": "sample_points of a list of points gives the stored points of the domain, unless a least step above the average gap or another step is asked for. With a least step it gives the beginning of the domain, the points met from there in steps of at least that length, and the end, each with the value of the curve; with a step, the grid from the beginning. It ends after at most as many rounds as there are points. Quotes are sampled in the same way on whole periods; windows of a period of accumulators too.", "quantifier": "all reachable lists of points with values of any kind, all domains, steps and least steps", "why_tests_cant": "Tests sample a handful of short lists; steps that do not divide the domain, open ends and points closer than the step are rarely combined.", "anchors": ["curvepy/points.py:177-196", "curvepy/curve.py:168-209", "curvepy/quotes.py:216-229", "curvepy/accumulator_map.py:46-60"]}
{"id": "C143", "title": "The course of a prediction", "statement": "However many calls of update_prediction bring the points of interest, the prediction of a trend line stands where its course, told point by point, has brought it: waiting for a crossing after enough tangent points, waiting for a retest in time with an extremum before it, waiting for an extremum beyond the confirmation line and one at the target in time. It fails exactly when it is crossed too early or again, a retest is too late or has no extremum before it, the target is not reached in time, or time runs out; its attributes are those of that stage. Nothing is raised if the extremas are after the origin.", "quantifier": "all lines, all points of interest in any order, any number of calls", "why_tests_cant": "The state is spread over twenty attributes and four phases; tests cannot go through all orders in which tangent points, crossings and extremas can come in and be split over calls.", "anchors": ["curvepy/trend.py:678-822"]}
{"id": "C144", "title": "Sampling extremas", "statement": "Sampling extremas on their whole domain gives precisely the extremas, one for each excursion of the points from the reference but the last, in order and with their values. On a part of the domain it gives its beginning, the extremas from a least step after it on, and its end, as far as the lines between the extremas have a value there; with a step it gives the grid where there are values. Sampling leaves later answers as they were.", "quantifier": "all histories of queries and of points added at the end, all domains between two numbers, steps, least steps up to that of the extremas", "why_tests_cant": "Tests sample a sine wave a few times; that walking with x_next, which jumps between recorded extremas and follows the source elsewhere while every value asked for may scan further, meets every extremum exactly once is a statement about all point lists and scan states.", "anchors": ["curvepy/extremas.py:25-43", "curvepy/extremas.py:55-63", "curvepy/extremas.py:86-88", "curvepy/scan.py:52-81", "curvepy/curve.py:168-210"]}
{"id": "C145", "title": "The lines of a trend", "statement": "Whatever points were scanned and whatever updates were made, every line that a trend has on any level came from the constructor of lines by appending points and by updates, so that all that is proved of such lines holds for it; it has the parameters of the trend and is an upper line exactly if it is among the upper ones. Every line that a query gives is as wide, and has as many points, as the trend was asked for when it was made. `upper` and `lower` give the two parts of what a query gives, `lines` all lines known without scanning. The least distance of points of a trend makes no difference to any scan.", "quantifier": "all trends after any scans and updates, all sources, queries and edits", "why_tests_cant": "Tests look at the lines of a few curves; that no order of forks, removals, deeper levels and updates ever leaves a line with other parameters or on the wrong side is an invariant over all histories.", "anchors": ["curvepy/trend.py:26-64", "curvepy/trend.py:93-145", "curvepy/trend.py:147-230"]}
{"id": "C146", "title": "Values of points with rounded arithmetic", "statement": "With rounding after each operation, a list of points that is not equally spaced gives at each of its points exactly its value. Between points with values up to M it is within (2n+12)uM of the exact linear interpolation, where u is the relative error and n the number of points, and it has a value exactly where there is one without rounding. With another interpolation the value is that of one of the neighbours, and the right one unless the position is within (n+6)u of a gap from a point.", "quantifier": "all ways of rounding that keep the order and signs and have a small relative error (those of double precision among them), all ascending lists of points whose indexes need no rounding, all positions", "why_tests_cant": "Tests compare with a tolerance on a few lists; how the error grows with the index and the values, and where rounding changes an answer altogether, is a statement about all lists and positions.", "anchors": ["curvepy/points.py:Points.x_index", "curvepy/points.py:Points.y"]}
{"id": "C147", "title": "Equally spaced points with rounded arithmetic", "statement": "Points at whole multiples of a step that need no rounding (whole numbers up to 2^53 for example) are recognised as equally spaced; at each point its value is given exactly, and between them values up to M are within (6n+4)uM of the exact ones.", "quantifier": "all ways of rounding that keep the order and signs and have a small relative error (those of double precision among them), all grids of positions that need no rounding, all positions", "why_tests_cant": "Tests compare with a tolerance on a few lists; how the error grows with the index and the values, and where rounding changes an answer altogether, is a statement about all lists and positions.", "anchors": ["curvepy/points.py:Points._points_equally_spaced", "curvepy/points.py:Points.x_index", "curvepy/points.py:Points.y"]}
{"id": "C148", "title": "Next and previous points with rounded arithmetic", "statement": "With rounding x_next gives the first point at least a step away, unless that end of the step is beyond a point by less than the error of the index; then it gives that point. x_previous likewise. From a point they give the next or previous one if it is at least a step away and the step is longer than the error of the index and of the position.", "quantifier": "all ways of rounding that keep the order and signs and have a small relative error (those of double precision among them), all ascending lists of points, steps and positions", "why_tests_cant": "Tests compare with a tolerance on a few lists; how the error grows with the index and the values, and where rounding changes an answer altogether, is a statement about all lists and positions.", "anchors": ["curvepy/points.py:Points.x_next", "curvepy/points.py:Points.x_previous", "curvepy/points.py:Points.x_index"]}
{"id": "C149", "title": "Sampling in steps with rounded arithmetic", "statement": "Sampling a curve in steps that are at least 4u of the positions comes to an end, gives rising positions of the domain with the values of the curve there, the j-th one within j u (M+h) of the exact grid, and leaves out no more than a step at the end. If the grid needs no rounding the samples are exactly those without rounding.", "quantifier": "all ways of rounding that keep the order and signs and have a small relative error (those of double precision among them), all curves, domains and steps", "why_tests_cant": "That the loop ends, and that errors of the position pile up no faster than the number of steps, is a statement about all domains and steps.", "anchors": ["curvepy/curve.py:Curve.sample_points"]}
{"id": "C150", "title": "The exponential moving average with rounded arithmetic", "statement": "With rounding after each operation the EMA at a point, with a fraction below 1 by the last digits, is exactly within all bounds of the values up to there; with a period too, if it is longer than the distances of the points by the last digits. Constant values are kept exactly. The errors do not pile up: the result is within uM(1/a+6) of the exact EMA however many points there are.", "quantifier": "all ways of rounding that keep the order and signs and have a small relative error (those of double precision among them), all histories of queries and edits, lists of points with missing values, fractions and periods", "why_tests_cant": "Tests check a few averages of short lists; a bound that does not depend on the number of points and exact bounds in spite of rounding need an invariant of the recurrence.", "anchors": ["curvepy/ema.py:EMA._ema_scan"]}
{"id": "C151", "title": "Integrals with rounded arithmetic", "statement": "With rounding after each operation, the area between two points with values up to M and positions up to X that are d apart is within 98 u M X^2/d of the exact one, and with steps within 5 u M X. The integral at the n-th point, whatever was asked before, is within 2n(98 u M X^2/d + 2uMX) of the exact running area if the points are at least d apart. A mean over a window of length L, taken from integrals that are off by up to E, is within (2E + 5u(S+2E))/L of the exact mean, where S is the exact area of the window.", "quantifier": "all ways of rounding that keep the order and signs and have a small relative error (those of double precision among them), all histories of queries and edits, lists of points with missing values, kinds of integration", "why_tests_cant": "Tests integrate near the origin; that the error grows with the square of the positions and with the inverse of the distance is seen only from a bound for all inputs.", "anchors": ["curvepy/integral.py:22-51", "curvepy/line.py:36-84", "curvepy/sma.py:88"]}
{"id": "C152", "title": "The ends of curves", "statement": "y_start and y_end of points are the first and the last stored value (None without points) and agree with y at the ends of the domain; first_point and last_point are the first and the last stored point. For accumulating curves y_start is the accumulation of the first point and y_end that of all points, whatever was asked before. For all curves first_point and last_point are None exactly on an empty domain, and otherwise the end of the domain with the value there.", "quantifier": "all lists of points, interpolations, histories of queries and edits, transforms that follow a step rule, curves", "why_tests_cant": "Tests look at ends of fresh curves; that the ends stay right after any history of queries and edits is a statement about all histories.", "anchors": ["curvepy/curve.py:73-89", "curvepy/points.py:248-257"]}
{"id": "C153", "title": "Lines with rounded arithmetic", "statement": "With every operation rounded, the line through two points contains its first point exactly, is exactly constant if both points have the same height, never falls if the later point is not lower and never rises if it is not higher, and its error is at most 9 u |climb| + u |height| at every position; Line.x is exact at the first point and keeps the order. With an absolute tolerance above the rounding errors both ends of a line of a trend are on the trend and the line coincides with itself. The second point of a line is on it.", "quantifier": "all ways of rounding with relative error u up to 1/64 that keep order, sign and rounded numbers; all pairs of points with different positions; all positions; all lines of trends", "why_tests_cant": "Tests use round numbers, for which nothing is rounded; the errors are in the last digits and depend on the points.", "anchors": ["curvepy/line.py:36-72", "curvepy/trend.py:384-396", "curvepy/trend.py:840-894", "curvepy/trend.py:1021-1031"]}
{"id": "C154", "title": "The relative strength index with rounded arithmetic", "statement": "With every operation of the averages and of the formula rounded, the relative strength index of a curve is between 0 and 100 or not defined, at every position and after every history of queries; its formula has an error of at most 600 u, keeps the order (higher rises and lower falls never give a lower index), is exactly 100 without falls and exactly 0 without rises.", "quantifier": "all ways of rounding with relative error u up to 1/64, all curves, all degrees of at least (1+u)^3, positions and histories of queries", "why_tests_cant": "That a rounded value can never leave the range by a last digit cannot be tested for all averages.", "anchors": ["curvepy/curve.py:642-649", "curvepy/ema.py:39-53", "curvepy/curve.py:739-803"]}
{"id": "C155", "title": "Arithmetic of many curves with rounding", "statement": "With every operation rounded: the sum of n curves has an error of at most ((1+u)^n - 1) times the sum of the absolute values, the product a relative error of at most (1+u)^n - 1; sums keep the order; the difference of two curves is 0 exactly where they agree and has the right sign; quotients have relative error u and are infinite where the second curve is 0; two curves can be swapped in sums and products; a missing value makes the result missing.", "quantifier": "all ways of rounding, all numbers of curves, all values and positions", "why_tests_cant": "The bounds are for all numbers of curves and all values; tests compare a few sums up to a tolerance.", "anchors": ["curvepy/curve.py:739-803"]}
{"id": "C156", "title": "Offset curves with rounded arithmetic", "statement": "With every operation rounded, an offset curve gives at a moved position the value that the curve has there, or, if moving had to round, at a position at most u |x| + u (1 + u) |x + k| away; values that rise with the position still rise; every position of a closed domain moves into the domain of the offset curve; next and previous positions are the moved ones of the curve; whole numbers up to 2^52 move without error, forth and back. An offset curve has a value at the ends of its domain if the curve has, and the opposite offset gives the curve back.", "quantifier": "all ways of rounding with relative error u up to 1/64 (whole numbers: binary64); all curves, offsets and positions", "why_tests_cant": "Tests offset by whole numbers, for which nothing is rounded.", "anchors": ["curvepy/offset.py:14-127"]}
{"id": "C157", "title": "Steps and derivatives with rounded arithmetic", "statement": "With every operation rounded, a derivative is the slope of the chord to the position that was stepped to with a relative error of at most 5 u, has the right sign, is 0 exactly between equal values, is exact if nothing is rounded, keeps the order, and errors E of the values change it by at most about 2 E over the step. A step gets somewhere if it is longer than the rounding error of its end, so the usual step always does up to 2^36. At every position a curve has a finite derivative.", "quantifier": "all ways of rounding with relative error u up to 1/64; all curves, positions, steps, limits and both directions; binary64 for the size of positions", "why_tests_cant": "Tests differentiate near 0; at positions such as milliseconds since 1970 the step of 10^-5 is lost.", "anchors": ["curvepy/curve.py:91-139", "curvepy/curve.py:671-675", "curvepy/generic.py:4-16"]}
{"id": "C158", "title": "What is taken as a curve", "statement": "A curve is taken as it is, a number as that value everywhere, a function as its values, an equally spaced list of points as the curve through them, an empty list as a curve without values; None stays None; everything else is refused. Curves that are given one after another to a function of many curves are those of the list; None among them raises. The extension of a name is the one of that class with the given ends; any other name is refused. Every ascending list of points is taken as a curve, and no argument is ignored.", "quantifier": "all values given as curves, all numbers of arguments, all curves, names and options", "why_tests_cant": "Tests use lists and curves as intended; what happens to other arguments follows from the order of the checks.", "anchors": ["curvepy/curve.py:544-559", "curvepy/curve.py:681-697", "curvepy/curve.py:739-750", "curvepy/curve.py:851-875", "curvepy/curve.py:1055-1059", "curvepy/extension/sin.py:13-16"]}
{"id": "C159", "title": "Accumulators over curves without knots", "statement": "An accumulator or a moving average over a line or a constant, which are defined everywhere and have no knots, answers with the fold over the positions it was asked for: the least position ever asked for is the first, positions after all others are added, and positions in between change nothing. The answer at a position does not depend on what was asked before.", "quantifier": "all lines and constants, all transforms that follow a rule, all histories of queries, all positions", "why_tests_cant": "Tests ask for one ascending series of positions; answers depend on every position asked before.", "anchors": ["curvepy/scan.py:25-67", "curvepy/accumulator.py:21-48", "curvepy/line.py:57-72", "curvepy/constant.py"]}
{"id": "C160", "title": "Integrals of lines and constants", "statement": "The integral of a line is its constant plus the area under the line from the least position ever asked for; the integral of a constant is proportional to the distance; the first position asked for gets the constant. Positions may be asked for in any order and at any distance.", "quantifier": "all lines and constants, all constants of integration, all histories of queries, all positions", "why_tests_cant": "Tests ask for equally spaced positions in ascending order; anything else is off or raises.", "anchors": ["curvepy/integral.py:8-51", "curvepy/scan.py:25-67", "curvepy/accumulator.py:9-48"]}
{"id": "C161", "title": "Windows of simple moving averages", "statement": "The constructor of a simple moving average accepts every positive period and every degree of at least 1, takes them as given, and refuses everything else.", "quantifier": "all numbers and None, both as period and as degree", "why_tests_cant": "Tests construct averages with a few whole degrees and periods.", "anchors": ["curvepy/sma.py:36-47", "curvepy/curve.py:589-602"]}
{"id": "C162", "title": "Averages of curves that have no beginning", "statement": "Over a curve whose domain begins at -inf, the domain of a simple moving average is empty for every window, so that it and the smoothed average that starts from it have no value anywhere; an exponential average with a period becomes infinite or not a number at the second position. Over points, the domain is the one the mean needs.", "quantifier": "all lines and constants, all windows, all steps, all positions, all histories of queries", "why_tests_cant": "Tests take averages of points only.", "anchors": ["curvepy/sma.py:13-34", "curvepy/sma.py:64-67", "curvepy/ema.py:39-53", "curvepy/curve.py:597-602"]}
{"id": "C163", "title": "Integrals of combinations of lists of points", "statement": "The integral of a sum or difference of lists of points that interpolate with straight lines is, at each position of any of the lists within the common domain, the constant plus the sum or difference of the areas under the lists from the beginning of the common domain, whatever was asked before; these areas are the integrals of calculus.", "quantifier": "all lists of points with gaps of at least the step, any number of lists, all weights, all histories of queries that did not raise", "why_tests_cant": "Tests integrate one list of points with a few positions; no test integrates a combination, and none compares with calculus.", "anchors": ["curvepy/integral.py:8-51", "curvepy/accumulator.py:36-48", "curvepy/aggregate.py:50-73", "curvepy/curve.py:739-768"]}
{"id": "C164", "title": "One update protocol in every kind of curve", "statement": "After any sequence of begin_update and end_update calls, a combination, a list of points and an accumulator have the same pending updates and have announced the same intervals, namely those of the protocol of C20; nothing else of their state changes but the cached domain, which is dropped with an announced end only; once every update that was begun has ended none of them is updating.", "quantifier": "all states, all sequences of calls, all reads of domains by observers", "why_tests_cant": "Tests change one source at a time; overlapping updates never occur in them.", "anchors": ["curvepy/curve.py:433-466", "curvepy/aggregate.py:26-28", "curvepy/accumulator.py:36-38", "curvepy/scan.py:98-111"]}
{"id": "C165", "title": "The descriptors of the README", "statement": "For every two dates with different times, every two positive prices and each of the logarithms, the full example of the README gives the curve that joins the prices on a logarithmic chart: it has each price at its date, is positive, its logarithm is straight, and it does not depend on the base. With positive numbers in place of dates the prices are met at the logarithms of the positions. {\"$raised\": {\"@args\": [a], \"base\": b}} is what the method raised gives for the curve a and the base b.", "quantifier": "all dates, prices, positions, bases, libraries of curves whose lines, powers and dates are as named", "why_tests_cant": "The tests parse one line on a logarithmic chart and compare a few values.", "anchors": ["README.md:42-76", "curvepy/curve.py:877-1053", "curvepy/curve.py:510-511"]}
{"id": "C166", "title": "Simple moving averages over missing values", "statement": "A simple moving average of n >= 2 points over points of which some have no value gives at the k-th point, after any history: the areas between those neighbours of the window that both have values, divided by the whole width of the window; or no value, which is so if and only if there is no value among the points from a number s <= k-2(n-1) up to the first of the window, where s depends on the history and is k-2(n-1) for a new average. So there is a value, whatever the history, if the first point of the window has one, and none as long as no point up to there has one. The average lies between the bounds of the values times the part of the window that is covered; of constant values it is only that part of the constant. Without missing values it is the mean of C49. A moving average over a length of time gives the same, over points at equal distances of which n fit into that length; over points at any distances it does so, for the window the length gives, at each point that is the last of its window.", "quantifier": "all sources with and without values, degrees, lengths, minimum steps, histories of queries, edits and domain reads, and knots", "why_tests_cant": "The package tests averages over complete data only", "anchors": ["curvepy/sma.py:SMA.y", "curvepy/integral.py:Integral._integral_scan", "curvepy/scan.py:Scan.scan"]}
{"id": "C167", "title": "Smoothed moving averages over missing values", "statement": "A smoothed moving average of degree n >= 2 over points of which the first has a value, and of which one of those from number n-1 to 2(n-1) has one if any later one has, has at every point, after any history, no value before the first point with a value at number n-1 or later; there the average of C166 of the window that ends there; and it then moves a part 1/n of the way to each further value there is. It stays within bounds of the values that include zero.", "quantifier": "all such sources, degrees, minimum steps, histories of queries, edits and domain reads, and knots", "why_tests_cant": "The package tests averages over complete data only", "anchors": ["curvepy/curve.py:Curve.smma", "curvepy/ema.py:EMA._ema_scan", "curvepy/sma.py:SMA.y", "curvepy/scan.py:Scan.scan"]}
{"id": "C168", "title": "Averages that take their first value from another curve", "statement": "An exponential moving average with an init curve follows that curve: after any history of queries and of edits of the source and of the init curve, its answer at each point of the source is the recurrence of C47 over the points up to it, begun from the present value of the init curve at the first point with a value (and at the next ones, as long as the init curve has none). Holds if the init curve has always had its present values at the points of the source. In general the recurrence is begun from a value that the init curve has had there at some time: nothing tells the average about edits of the init curve, and after a query at a point no edit of the init curve changes the answer there. No query raises.", "quantifier": "all lists of points as source and as init curve, fractions and nonzero periods, minimum steps, histories of queries, edits of both curves and domain reads, and knots", "why_tests_cant": "The package tests init only through smma, whose init curve changes with its source", "anchors": ["curvepy/ema.py:EMA.__init__", "curvepy/ema.py:EMA._ema_scan", "curvepy/scan.py:Scan.__init__", "curvepy/scan.py:Scan.y"]}
{"id": "C169", "title": "Calculating anew", "statement": "Calculating anew (begin_scan_reset, then end_scan_reset) leaves nothing of what was found before: one update of everything is announced before and one after, nothing raises, and every later answer is that of a curve made now over the present source, whatever was queried, edited or read before, and whatever rule was in use before. Holds for all accumulators, averages with another first curve, moving averages and trends with a positive minimum width; for extremas once one extremum was found.", "quantifier": "all lists of points, rules, interpolations, windows, minimum steps, histories of queries, edits, domain reads and earlier new calculations, and positions", "why_tests_cant": "The package never calls begin_scan_reset and no test does", "anchors": ["curvepy/scan.py:91-96", "curvepy/scan.py:Scan.reset_scan", "curvepy/extremas.py:65-84", "curvepy/trend.py:93-120"]}
{"id": "C170", "title": "Simple moving averages with rounded arithmetic", "statement": "When every operation on values rounds its result, the simple moving average at a point is near the mean height of the line through the points of its window, whatever was asked before: off by a few units in the last place of the values in the window. Holds with the largest value and the number of all points up to there in place of those of the window: the area under all points since the scan began is added up, and the average is a difference of two such sums. So a large value stays in the average after it has left the window, and the answer depends on what was asked before. Over a length of time, points close to each other ahead of the position multiply what is lost: the average is within about twice the length over the least distance times that much.", "quantifier": "all ways of rounding with relative error, lists of points without missing values, windows of n points and lengths of time that n equally spaced points span, minimum steps, histories of queries, edits and domain reads, and knots", "why_tests_cant": "The package tests averages of a few small numbers near the origin, where no digit is lost", "anchors": ["curvepy/sma.py:SMA.y", "curvepy/sma.py:SMA.offset_scan", "curvepy/integral.py:Integral._integral_scan", "curvepy/integral.py:Integral.scanned_y", "curvepy/line.py:Line.partial_integration"]}
{"id": "C171", "title": "Rounded simple moving averages between the points", "statement": "When every operation on values rounds its result, the simple moving average between two points is between the averages at the two. Holds without rounding (C82); with rounding it is near the mix of the two exact averages, by as much as an average at a point may be off and a few units in the last place more, whatever was asked before. It need not be between the two: of equal values nine tenths, the averages at the points are nine tenths, and between them larger.", "quantifier": "all ways of rounding with relative error, lists of points without missing values, windows of two or more points, minimum steps, histories of queries, edits and domain reads, and positions between two knots", "why_tests_cant": "The package tests compare averages at a few positions with a tolerance of several places", "anchors": ["curvepy/sma.py:SMA.y", "curvepy/sma.py:SMA.offset_scan", "curvepy/integral.py:Integral._integral_scan"]}
{"id": "C172", "title": "Moving averages over a length of time", "statement": "A moving average over a length of time is, at a point, the mean height of the line through the points within that length before it, whatever was asked before and whatever comes after. Holds for the points that the code takes in: from the first one that lies less than the length before the point (by a least step), all that lie less than the length after that one. These may lie after the point, so that the average depends on the future; if the point itself is the first of them, its value is given, not a mean. The answer does not depend on earlier queries, is within the values of these points, and is there from the last point on that lies less than the length after the first. Between points it is a mix of the mean of such a window with the average at the point next to its end, within the values of all points unless the window is made of two later points only.", "quantifier": "all lists of points without missing values at any distances of a least step or more, lengths, least steps, histories of queries, edits and domain reads, points and positions between them", "why_tests_cant": "The package tests a length of time over a few equally spaced points only", "anchors": ["curvepy/sma.py:SMA.y", "curvepy/sma.py:SMA.get_domain", "curvepy/sma.py:SMA._sma_start", "curvepy/sma.py:SMA._sma_end", "curvepy/sma.py:SMA.offset_scan"]}
{"id": "C173", "title": "Smoothed moving averages with rounded arithmetic", "statement": "With the arithmetic of floats, a smoothed moving average is near the exact one however many values there are: off by what the first simple average loses, and by a multiple of its degree of what one rounding loses. It is the same for all histories of queries and edits, and from the first average on it stays between that average and the values after it. Fails for the degree 1, where the average is not the value: 0 in place of 1 after 2^60. The average of a constant may be greater than the constant.", "quantifier": "all roundings that are monotone, odd, exact on their own results and off by a fraction at most; all degrees, histories of queries, edits and reads, and points of which the first have values", "why_tests_cant": "The package tests a few smoothed averages with exact numbers only, to within a tolerance", "anchors": ["curvepy/curve.py:Curve.smma", "curvepy/ema.py:EMA._ema_scan", "curvepy/sma.py:SMA.y", "curvepy/scan.py:Scan.y"]}
{"id": "C174", "title": "What curves are shown as", "statement": "The text that a curve is shown as, read as an expression with the precedences of Python, makes the curve again: a line is shown as its formula, and curves made of named curves by combining two, by offsets and by averages are shown as the expression that makes them, so that different ones are shown differently. Fails for averages over a length of time, which are shown as averages over so many points or with that weight, for offsets by durations, and for what is made of a line, where the call is shown on the last number of the formula only.", "quantifier": "all lines with finite slopes and positions; all nestings of combinations, offsets and averages, with any numbers", "why_tests_cant": "The package has no tests of texts, and texts of a few curves would not show that no two curves share one", "anchors": ["curvepy/curve.py:Curve.__repr__", "curvepy/line.py:Line.__repr__", "curvepy/aggregate.py:Aggregate.__repr__", "curvepy/offset.py:Offset.__repr__", "curvepy/sma.py:SMA.__repr__", "curvepy/ema.py:EMA.__repr__"]}
