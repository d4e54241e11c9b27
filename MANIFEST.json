{
 "claims": [
  {
   "property": "C01",
   "status": "proved",
   "theorems": [
    "Curvepy.Props.C01_stored_value"
   ],
   "note": ""
  },
  {
   "property": "C02",
   "status": "proved",
   "theorems": [
    "Curvepy.Props.C02_linear",
    "Curvepy.Props.C02_between"
   ],
   "note": ""
  },
  {
   "property": "C03",
   "status": "proved",
   "theorems": [
    "Curvepy.Props.C03_step"
   ],
   "note": ""
  },
  {
   "property": "C04",
   "status": "proved",
   "theorems": [
    "Curvepy.Props.C04_domain",
    "Curvepy.Props.C04_total",
    "Curvepy.Props.C04_defined"
   ],
   "note": ""
  },
  {
   "property": "C05",
   "status": "partial",
   "theorems": [
    "Curvepy.Props.C05_extensional_partial",
    "Curvepy.Props.C05_negation"
   ],
   "note": "False in general: irregular points can be reported uniform; proved whenever is_uniform is right."
  },
  {
   "property": "C06",
   "status": "proved",
   "theorems": [
    "Curvepy.Props.C06_x_next",
    "Curvepy.Props.C06_x_next_inf"
   ],
   "note": ""
  },
  {
   "property": "C07",
   "status": "proved",
   "theorems": [
    "Curvepy.Props.C07_x_previous",
    "Curvepy.Props.C07_x_previous_inf"
   ],
   "note": ""
  },
  {
   "property": "C08",
   "status": "proved",
   "theorems": [
    "Curvepy.Props.C08_sample"
   ],
   "note": ""
  },
  {
   "property": "C09",
   "status": "proved",
   "theorems": [
    "Curvepy.Props.C09_concat",
    "Curvepy.Props.C09_refuse",
    "Curvepy.Props.C09_empty"
   ],
   "note": ""
  },
  {
   "property": "C10",
   "status": "proved",
   "theorems": [
    "Curvepy.Props.C10_replace",
    "Curvepy.Props.C10_when",
    "Curvepy.Props.C10_length"
   ],
   "note": ""
  },
  {
   "property": "C100",
   "status": "partial",
   "theorems": [
    "Curvepy.Props.C100_kept",
    "Curvepy.Props.C100_iter",
    "Curvepy.Props.C100_negation_ready",
    "Curvepy.Props.C100_negation_lost",
    "Curvepy.Props.C100_negation_touch"
   ],
   "note": "Proved for what a copy keeps. A line that is not ready cannot be copied; a copy has no tolerance lines, extremas and prediction."
  },
  {
   "property": "C101",
   "status": "proved",
   "theorems": [
    "Curvepy.Props.C101_boundary",
    "Curvepy.Props.C101_between",
    "Curvepy.Props.C101_missing",
    "Curvepy.Props.C101_zero"
   ],
   "note": ""
  },
  {
   "property": "C102",
   "status": "partial",
   "theorems": [
    "Curvepy.Props.C102_partial",
    "Curvepy.Props.C102_negation"
   ],
   "note": "False for domains that end within a period or are open; proved for domains of whole periods."
  },
  {
   "property": "C103",
   "status": "partial",
   "theorems": [
    "Curvepy.Props.C103_partial",
    "Curvepy.Props.C103_negation"
   ],
   "note": "False for the opposite offset of a curve that is not straight within the periods; proved for whole periods if neither the second number nor the sum is 0."
  },
  {
   "property": "C104",
   "status": "partial",
   "theorems": [
    "Curvepy.Props.C104_own_step",
    "Curvepy.Props.C104_next_partial",
    "Curvepy.Props.C104_previous_partial",
    "Curvepy.Props.C104_negation"
   ],
   "note": "Minimum step and limit are ignored and there is no next position before the domain; proved for the positions within the domain."
  },
  {
   "property": "C105",
   "status": "partial",
   "theorems": [
    "Curvepy.Props.C105_boundary_partial",
    "Curvepy.Props.C105_append_partial",
    "Curvepy.Props.C105_negation"
   ],
   "note": "False: a change at the beginning of a period changes the neighbouring periods, and a change in (3/2, 2] is announced as an empty interval. Proved at beginnings of periods, and for growth by whole periods."
  },
  {
   "property": "C106",
   "status": "partial",
   "theorems": [
    "Curvepy.Props.C106_boundary_partial",
    "Curvepy.Props.C106_between_partial",
    "Curvepy.Props.C106_negation"
   ],
   "note": "False within periods, where derivatives are interpolated although the values are a straight line."
  },
  {
   "property": "C107",
   "status": "partial",
   "theorems": [
    "Curvepy.Props.C107_partial",
    "Curvepy.Props.C107_bounds",
    "Curvepy.Props.C107_missing",
    "Curvepy.Props.C107_small",
    "Curvepy.Props.C107_negation"
   ],
   "note": "False for the first average from degree 3 on, which is the mean height of the line through the points. Sources with missing values among the first points: C167."
  },
  {
   "property": "C108",
   "status": "partial",
   "theorems": [
    "Curvepy.Props.C108_periods",
    "Curvepy.Props.C108_degrees",
    "Curvepy.Props.C108_centered",
    "Curvepy.Props.C108_growing",
    "Curvepy.Props.C108_close",
    "Curvepy.Props.C108_negation",
    "Curvepy.Props.C108_negation_stride"
   ],
   "note": "False for strides below -1 and for windows of points with a base below 1, which raise. Proved for all strides from 0 on."
  },
  {
   "property": "C109",
   "status": "partial",
   "theorems": [
    "Curvepy.Props.C109_partial",
    "Curvepy.Props.C109_pow",
    "Curvepy.Props.C109_raised",
    "Curvepy.Props.C109_whole",
    "Curvepy.Props.C109_outside",
    "Curvepy.Props.C109_missing",
    "Curvepy.Props.C109_negation",
    "Curvepy.Props.C109_negation_complex"
   ],
   "note": "Proved for positive bases, and for all bases but 0 with whole exponents. False for 0 with a negative exponent, which raises, and for a negative base with a fraction, which gives a complex number."
  },
  {
   "property": "C11",
   "status": "proved",
   "theorems": [
    "Curvepy.Props.C11_reset",
    "Curvepy.Props.C11_reset_all",
    "Curvepy.Props.C11_reset_succeeds"
   ],
   "note": ""
  },
  {
   "property": "C110",
   "status": "proved",
   "theorems": [
    "Curvepy.Props.C110_log",
    "Curvepy.Props.C110_natural",
    "Curvepy.Props.C110_raises",
    "Curvepy.Props.C110_raised_log",
    "Curvepy.Props.C110_log_raised",
    "Curvepy.Props.C110_product",
    "Curvepy.Props.C110_power",
    "Curvepy.Props.C110_missing"
   ],
   "note": ""
  },
  {
   "property": "C111",
   "status": "proved",
   "theorems": [
    "Curvepy.Props.C111_announced"
   ],
   "note": ""
  },
  {
   "property": "C112",
   "status": "partial",
   "theorems": [
    "Curvepy.Props.C112_partial",
    "Curvepy.Props.C112_negation"
   ],
   "note": "False for replace: the values between the replaced point and the one before it change as well. Proved for all other edits."
  },
  {
   "property": "C113",
   "status": "proved",
   "theorems": [
    "Curvepy.Props.C113_order",
    "Curvepy.Props.C113_nested"
   ],
   "note": ""
  },
  {
   "property": "C114",
   "status": "partial",
   "theorems": [
    "Curvepy.Props.C114_order_partial",
    "Curvepy.Props.C114_opposite",
    "Curvepy.Props.C114_negation"
   ],
   "note": "False where a value is not a number (nan): the first one wins. Proved for all other values; the second part without exception."
  },
  {
   "property": "C115",
   "status": "partial",
   "theorems": [
    "Curvepy.Props.C115_difference",
    "Curvepy.Props.C115_distributive_partial",
    "Curvepy.Props.C115_map_twice",
    "Curvepy.Props.C115_offset",
    "Curvepy.Props.C115_negation"
   ],
   "note": "False for the distributive law with infinite values. Proved for finite ones; the other laws without exception."
  },
  {
   "property": "C116",
   "status": "partial",
   "theorems": [
    "Curvepy.Props.C116_sample",
    "Curvepy.Props.C116_after",
    "Curvepy.Props.C116_same",
    "Curvepy.Props.C116_knots_partial",
    "Curvepy.Props.C116_negation"
   ],
   "note": "The last sentence about the whole domain is proved for gaps of at least the step and no point at an odd multiple of half the step (see C38; C116_negation). Everything else without exception."
  },
  {
   "property": "C117",
   "status": "partial",
   "theorems": [
    "Curvepy.Props.C117_forwards",
    "Curvepy.Props.C117_complete_partial",
    "Curvepy.Props.C117_after_last",
    "Curvepy.Props.C117_negation"
   ],
   "note": "False backwards: the previous position depends on how much was accumulated. Proved forwards after any history, and in both directions once everything was accumulated."
  },
  {
   "property": "C118",
   "status": "partial",
   "theorems": [
    "Curvepy.Props.C118_add",
    "Curvepy.Props.C118_subtract",
    "Curvepy.Props.C118_multiply",
    "Curvepy.Props.C118_divide_partial",
    "Curvepy.Props.C118_negation"
   ],
   "note": "False for nan divided by zero, which is -inf. Everything else without exception."
  },
  {
   "property": "C119",
   "status": "partial",
   "theorems": [
    "Curvepy.Props.C119_next",
    "Curvepy.Props.C119_previous",
    "Curvepy.Props.C119_progression",
    "Curvepy.Props.C119_regression",
    "Curvepy.Props.C119_without",
    "Curvepy.Props.C119_raises",
    "Curvepy.Props.C119_negation"
   ],
   "note": "Everything but the last sentence is proved; that is false: stepping back from beyond the end goes to the last point at once."
  },
  {
   "property": "C12",
   "status": "partial",
   "theorems": [
    "Curvepy.Props.C12_ascending_partial",
    "Curvepy.Props.C12_ascending_uniform_partial",
    "Curvepy.Props.C12_step",
    "Curvepy.Props.C12_negation"
   ],
   "note": "False for curves wrongly reported uniform (replace inserts at the wrong place); proved for all other histories without late errors."
  },
  {
   "property": "C120",
   "status": "partial",
   "theorems": [
    "Curvepy.Props.C120_constant_partial",
    "Curvepy.Props.C120_tangent_partial",
    "Curvepy.Props.C120_negation_constant",
    "Curvepy.Props.C120_negation_tangent"
   ],
   "note": "The first sentence is proved for the first read of constant and tangent extensions; the second is false: the next read is None, later 0."
  },
  {
   "property": "C121",
   "status": "partial",
   "theorems": [
    "Curvepy.Props.C121_values",
    "Curvepy.Props.C121_first_partial",
    "Curvepy.Props.C121_last_partial",
    "Curvepy.Props.C121_negation",
    "Curvepy.Props.C121_few_negation",
    "Curvepy.Props.regresses_exists"
   ],
   "note": "The windows of points are proved for gaps of at least the step and no point at an odd multiple of half the step (see C38). False with too few points, which raises. The first part without exception; the fitting routine is an argument."
  },
  {
   "property": "C122",
   "status": "partial",
   "theorems": [
    "Curvepy.Props.C122_adapted",
    "Curvepy.Props.C122_called",
    "Curvepy.Props.C122_map_partial",
    "Curvepy.Props.C122_accumulator_partial",
    "Curvepy.Props.C122_observer",
    "Curvepy.Props.C122_not_callable",
    "Curvepy.Props.C122_negation",
    "Curvepy.Props.C122_negation_observer"
   ],
   "note": "Proved for functions without options; what happens with any list of parameters is proved too (C122_adapted, C122_called, C122_observer). False for functions with *args, defaults or required keywords, for builtins, and for observers of two parameters."
  },
  {
   "property": "C123",
   "status": "partial",
   "theorems": [
    "Curvepy.Props.C123_values",
    "Curvepy.Props.C123_undisturbed",
    "Curvepy.Props.C123_complete_partial",
    "Curvepy.Props.C123_operators",
    "Curvepy.Props.C117_negation"
   ],
   "note": "Looking back (x_previous, slopes backwards) is proved once everything is accumulated; before that the code answers wrongly (C117_negation)."
  },
  {
   "property": "C124",
   "status": "proved",
   "theorems": [
    "Curvepy.Props.C124_differential",
    "Curvepy.Props.C124_slope",
    "Curvepy.Props.C124_knots",
    "Curvepy.Props.C124_integral"
   ],
   "note": "Positions in the domain."
  },
  {
   "property": "C125",
   "status": "proved",
   "theorems": [
    "Curvepy.Props.C125_values",
    "Curvepy.Props.C125_domain",
    "Curvepy.Props.C125_recurrence",
    "Curvepy.Props.C125_undisturbed",
    "Curvepy.Props.C125_edit",
    "Curvepy.Props.C125_bounds"
   ],
   "note": "Transforms of the outer accumulators look at their arguments only and do not raise; the lowest one follows any rule that does not raise."
  },
  {
   "property": "C126",
   "status": "partial",
   "theorems": [
    "Curvepy.Props.C126_next_partial",
    "Curvepy.Props.C126_sample_partial",
    "Curvepy.Props.C126_previous_partial",
    "Curvepy.Props.C126_negation",
    "Curvepy.Props.C126_negation_previous"
   ],
   "note": "Next positions and samples: if no accumulator has a smaller min_step than the one below; otherwise x_next depends on what was read (C126_negation). Previous positions are positions of the points, but which one depends on what was read (C126_negation_previous)."
  },
  {
   "property": "C127",
   "status": "partial",
   "theorems": [
    "Curvepy.Props.C127_line_partial",
    "Curvepy.Props.C127_constant_partial",
    "Curvepy.Props.C127_range_partial",
    "Curvepy.Props.C127_regression",
    "Curvepy.Props.C127_rising",
    "Curvepy.Props.C127_falling",
    "Curvepy.Props.C127_constant_x",
    "Curvepy.Props.C127_negation_twice",
    "Curvepy.Props.C127_negation_open",
    "Curvepy.Props.C127_negation_x"
   ],
   "note": "False on a single position, where the point is given twice; false where the end is open, which is sampled all the same; the position that Constant.x answers may be outside the domain."
  },
  {
   "property": "C128",
   "status": "partial",
   "theorems": [
    "Curvepy.Props.C128_midpoints",
    "Curvepy.Props.C128_made",
    "Curvepy.Props.C128_value",
    "Curvepy.Props.difference_knot",
    "Curvepy.Props.C128_negation"
   ],
   "note": "Proved with the mean height of the line through the midpoints; false for the plain mean of the midpoints (C128_negation). At the quotes only: between them the averages are not monotone (C82)."
  },
  {
   "property": "C129",
   "status": "proved",
   "theorems": [
    "Curvepy.Props.C129_alligator",
    "Curvepy.Props.moved",
    "Curvepy.Props.lagged_boundary",
    "Curvepy.Props.lagged_between"
   ],
   "note": ""
  },
  {
   "property": "C13",
   "status": "partial",
   "theorems": [
    "Curvepy.Props.C13_uniform_partial",
    "Curvepy.Props.C13_negation"
   ],
   "note": "The spacing check only looks at the last x; proved for fair histories."
  },
  {
   "property": "C130",
   "status": "proved",
   "theorems": [
    "Curvepy.Props.C130_values",
    "Curvepy.Props.C130_domain",
    "Curvepy.Props.C130_undisturbed",
    "Curvepy.Props.C130_step",
    "Curvepy.Props.plain_sub",
    "Curvepy.Props.plain_mult",
    "Curvepy.Props.plain_add"
   ],
   "note": ""
  },
  {
   "property": "C131",
   "status": "partial",
   "theorems": [
    "Curvepy.Props.C131_exists",
    "Curvepy.Props.C131_once",
    "Curvepy.Props.C131_edit",
    "Curvepy.Props.C131_announced",
    "Curvepy.Props.C131_negation_once"
   ],
   "note": "Everything but the last sentence: combinations announce the end of an update once for every source that ends it (C131_negation_once)."
  },
  {
   "property": "C132",
   "status": "partial",
   "theorems": [
    "Curvepy.Props.C132_assign",
    "Curvepy.Props.C132_make",
    "Curvepy.Props.C132_values",
    "Curvepy.Props.C132_slope_partial",
    "Curvepy.Props.C132_announced_partial",
    "Curvepy.Props.C132_negation_rejected",
    "Curvepy.Props.C132_negation_announced"
   ],
   "note": "Values are proved after all histories. False for rejected assignments: the fields are overwritten, values raise, the update stays open (C132_negation_rejected), and the next success announces an end without a beginning (C132_negation_announced)."
  },
  {
   "property": "C133",
   "status": "partial",
   "theorems": [
    "Curvepy.Props.C133_nothing",
    "Curvepy.Props.C133_samples",
    "Curvepy.Props.C133_absorbing",
    "Curvepy.Props.C133_unary",
    "Curvepy.Props.C133_neutral",
    "Curvepy.Props.C133_negation"
   ],
   "note": "False only for positions of combinations: a sum with the empty curve has no values but still has next positions (C133_negation)."
  },
  {
   "property": "C134",
   "status": "partial",
   "theorems": [
    "Curvepy.Props.C134_fit",
    "Curvepy.Props.C134_few",
    "Curvepy.Props.C134_answers",
    "Curvepy.Props.C134_line",
    "Curvepy.Props.C134_negation"
   ],
   "note": "Proved for the function of the module; false for the method of trend lines, whose check is inverted (C134_negation)."
  },
  {
   "property": "C135",
   "status": "partial",
   "theorems": [
    "Curvepy.Props.C135_where",
    "Curvepy.Props.C135_none",
    "Curvepy.Props.C135_ends",
    "Curvepy.Props.C135_between",
    "Curvepy.Props.C135_negation",
    "Curvepy.Props.C135_negation_falls"
   ],
   "note": "Proved outside and at the first and last extremum; elsewhere the index is exactly one too large (C135_between, C135_negation) and so falls at the last one (C135_negation_falls)."
  },
  {
   "property": "C136",
   "status": "partial",
   "theorems": [
    "Curvepy.Props.C136_values_partial",
    "Curvepy.Props.C136_domain_partial",
    "Curvepy.Props.C136_overlap",
    "Curvepy.Props.C136_step",
    "Curvepy.Props.C136_undisturbed_partial",
    "Curvepy.Props.C136_negation"
   ],
   "note": "Proved for all edits but a replace before which another list has a point after the preceding point of the edited list; there accumulators keep old values (C136_negation). Limited to combinations of overlapping domains, accumulators whose step is at least that of their source, and spacing as in C46."
  },
  {
   "property": "C137",
   "status": "partial",
   "theorems": [
    "Curvepy.Props.C137_exists",
    "Curvepy.Props.C137_edit_partial",
    "Curvepy.Props.C137_announced_partial",
    "Curvepy.Props.C137_independent",
    "Curvepy.Props.C137_negation"
   ],
   "note": "As C136; after a replace the values are only claimed at positions of the points, because it announces only the replaced position."
  },
  {
   "property": "C138",
   "status": "partial",
   "theorems": [
    "Curvepy.Props.C138_span",
    "Curvepy.Props.C138_sampled",
    "Curvepy.Props.C138_all",
    "Curvepy.Props.C138_domain",
    "Curvepy.Props.C138_ends",
    "Curvepy.Props.C138_value_partial",
    "Curvepy.Props.C138_next",
    "Curvepy.Props.C138_previous",
    "Curvepy.Props.C138_negation"
   ],
   "note": "After the beginning of the last period there is no value, although it is sampled and belongs to the domain of the quotes (C138_negation); all else without exception, for the least step and step that do not ask for irregular sampling (that is C142)."
  },
  {
   "property": "C139",
   "status": "partial",
   "theorems": [
    "Curvepy.Props.C139_met",
    "Curvepy.Props.C139_all",
    "Curvepy.Props.C139_shown",
    "Curvepy.Props.C139_fold_partial",
    "Curvepy.Props.C139_within",
    "Curvepy.Props.C139_after",
    "Curvepy.Props.C139_ignored",
    "Curvepy.Props.C139_ema_partial",
    "Curvepy.Props.C139_negation"
   ],
   "note": "The source does not change; the points met have no accidental spacing, and are equally spaced if that was demanded. An average does not have a value everywhere where the source has one: there is none after the last point met (C139_negation)."
  },
  {
   "property": "C14",
   "status": "proved",
   "theorems": [
    "Curvepy.Props.C14_announced",
    "Curvepy.Props.C14_noop"
   ],
   "note": ""
  },
  {
   "property": "C140",
   "status": "partial",
   "theorems": [
    "Curvepy.Props.C140_plain",
    "Curvepy.Props.C140_ema_rule",
    "Curvepy.Props.C140_integral_rule",
    "Curvepy.Props.C140_fold_partial",
    "Curvepy.Props.C140_same_partial",
    "Curvepy.Props.C140_edit_partial",
    "Curvepy.Props.C140_apart",
    "Curvepy.Props.C140_ema_partial",
    "Curvepy.Props.C140_integral_partial",
    "Curvepy.Props.C140_after_partial",
    "Curvepy.Props.C140_negation"
   ],
   "note": "At each moment the points met have no accidental spacing, and are equally spaced if that was demanded. Not for a moving average with a period: it measures from points which it passed over (C140_negation)."
  },
  {
   "property": "C141",
   "status": "partial",
   "theorems": [
    "Curvepy.Props.C141_fold_partial",
    "Curvepy.Props.C141_same_partial",
    "Curvepy.Props.C141_edit_partial",
    "Curvepy.Props.C141_ema",
    "Curvepy.Props.C141_degree",
    "Curvepy.Props.C141_period",
    "Curvepy.Props.C141_value_partial",
    "Curvepy.Props.C141_least_partial",
    "Curvepy.Props.C141_greatest_partial",
    "Curvepy.Props.C141_least_period_partial",
    "Curvepy.Props.C141_greatest_period_partial",
    "Curvepy.Props.C141_negation"
   ],
   "note": "At each moment the points met have no accidental spacing, and are equally spaced if that was demanded. Windows of a period only while the gaps are at least min_step on average: when they become smaller, the answer depends on what was asked before (C141_negation)."
  },
  {
   "property": "C142",
   "status": "partial",
   "theorems": [
    "Curvepy.Props.C142_stored",
    "Curvepy.Props.C142_ends",
    "Curvepy.Props.C142_nothing",
    "Curvepy.Props.C142_steps_partial",
    "Curvepy.Props.C142_grid",
    "Curvepy.Props.C142_apart",
    "Curvepy.Props.C142_window_partial",
    "Curvepy.Props.C142_window_ends",
    "Curvepy.Props.C142_quotes_partial",
    "Curvepy.Props.C142_quotes_grid",
    "Curvepy.Props.C142_negation"
   ],
   "note": "With a least step, no position met may be an odd multiple of half of it, and a domain open at its beginning and closed at its end must have a point to meet: otherwise an exception can be raised. The end of a domain that is open there is sampled if it is met (C142_negation)."
  },
  {
   "property": "C143",
   "status": "proved",
   "theorems": [
    "Curvepy.Props.C143_course",
    "Curvepy.Props.C143_outcome",
    "Curvepy.Props.C143_no_error",
    "Curvepy.Props.C143_negation"
   ],
   "note": "C143_negation shows that the condition of C143_no_error is needed."
  },
  {
   "property": "C144",
   "status": "partial",
   "theorems": [
    "Curvepy.Props.C144_walk_partial",
    "Curvepy.Props.C144_all_partial",
    "Curvepy.Props.C144_grid_partial",
    "Curvepy.Props.C144_negation"
   ],
   "note": "Missing: edits other than at the end, sources with gaps below the least step, least steps above that of the extremas, positions at odd multiples of half the least step. C144_negation shows an extremum in the domain that is left out, and an IndexError."
  },
  {
   "property": "C145",
   "status": "partial",
   "theorems": [
    "Curvepy.Props.C145_lines",
    "Curvepy.Props.C145_unchanged",
    "Curvepy.Props.C145_ignored",
    "Curvepy.Props.C145_sides",
    "Curvepy.Props.C145_known",
    "Curvepy.Props.C145_answer",
    "Curvepy.Props.C145_fit",
    "Curvepy.Props.C145_negation"
   ],
   "note": "The parameters are passed on except the least distance of points: C145_negation shows that the lines of a trend made with a distance of 5 have none, and C145_ignored that it has no effect on scans."
  },
  {
   "property": "C146",
   "status": "partial",
   "theorems": [
    "Curvepy.Props.C146_knot",
    "Curvepy.Props.C146_linear",
    "Curvepy.Props.C146_close",
    "Curvepy.Props.C146_step",
    "Curvepy.Props.C146_either",
    "Curvepy.Props.C146_negation",
    "Curvepy.Props.C146_early",
    "Curvepy.Props.fl64_rounding",
    "Curvepy.Props.fl64_int",
    "Curvepy.Props.yR_id",
    "Curvepy.Props.xIndexR_id"
   ],
   "note": "Between equal values the result may be above them (C146_negation), and the value of a point may show right before it (C146_early); overflow and underflow are not modelled."
  },
  {
   "property": "C147",
   "status": "partial",
   "theorems": [
    "Curvepy.Props.C147_new",
    "Curvepy.Props.C147_knot",
    "Curvepy.Props.C147_linear",
    "Curvepy.Props.C147_close",
    "Curvepy.Props.C147_step",
    "Curvepy.Props.C147_whole",
    "Curvepy.Props.C147_negation",
    "Curvepy.Props.C147_knot_negation",
    "Curvepy.Props.intervalR_id",
    "Curvepy.Props.equallySpacedR_id"
   ],
   "note": "For grids that need no rounding; C147_negation and C147_knot_negation show what happens with tenths."
  },
  {
   "property": "C148",
   "status": "partial",
   "theorems": [
    "Curvepy.Props.C148_next",
    "Curvepy.Props.C148_previous",
    "Curvepy.Props.C148_forward",
    "Curvepy.Props.C148_backward",
    "Curvepy.Props.C148_negation",
    "Curvepy.Props.C148_absorbed",
    "Curvepy.Props.xNextR_id",
    "Curvepy.Props.xPreviousR_id"
   ],
   "note": "C148_negation: with far away points and the default least step the next point of a point is the point itself."
  },
  {
   "property": "C149",
   "status": "partial",
   "theorems": [
    "Curvepy.Props.C149_grid",
    "Curvepy.Props.C149_exact",
    "Curvepy.Props.C149_negation",
    "Curvepy.Props.C149_endless",
    "Curvepy.Props.stepLoopR_id"
   ],
   "note": "The loop of sample_points with a step; C149_negation: the end can be left out; C149_endless: the loop does not end if the step is lost."
  },
  {
   "property": "C15",
   "status": "partial",
   "theorems": [
    "Curvepy.Props.C15_local_partial",
    "Curvepy.Props.C15_negation"
   ],
   "note": "False for replace (announces only the point); proved for the other edits."
  },
  {
   "property": "C150",
   "status": "partial",
   "theorems": [
    "Curvepy.Props.C150_bounds",
    "Curvepy.Props.C150_period",
    "Curvepy.Props.C150_constant",
    "Curvepy.Props.C150_error",
    "Curvepy.Props.C150_negation",
    "Curvepy.Props.emaTfmR_id"
   ],
   "note": "The transform rounds; the source and the accumulator find points exactly. C150_negation: with a fraction of 1 the EMA can leave the values."
  },
  {
   "property": "C151",
   "status": "partial",
   "theorems": [
    "Curvepy.Props.C151_segment",
    "Curvepy.Props.C151_step",
    "Curvepy.Props.C151_error",
    "Curvepy.Props.C151_mean",
    "Curvepy.Props.C151_negation",
    "Curvepy.Props.segmentAreaR_id",
    "Curvepy.Props.areaStepR_id"
   ],
   "note": "The transform rounds; the source and the accumulator find points exactly. C151_negation: at positions such as today's seconds the area between two points five apart is lost altogether."
  },
  {
   "property": "C152",
   "status": "partial",
   "theorems": [
    "Curvepy.Props.C152_values",
    "Curvepy.Props.C152_points",
    "Curvepy.Props.C152_accumulator",
    "Curvepy.Props.C152_curves",
    "Curvepy.Props.C152_negation",
    "Curvepy.Props.ends_domain"
   ],
   "note": "C152_negation: on a domain that is open at its end y_end is None and last_point is not on the curve."
  },
  {
   "property": "C153",
   "status": "partial",
   "theorems": [
    "Curvepy.Props.C153_exact",
    "Curvepy.Props.C153_trend_exact",
    "Curvepy.Props.C153_first",
    "Curvepy.Props.C153_flat",
    "Curvepy.Props.C153_rising",
    "Curvepy.Props.C153_falling",
    "Curvepy.Props.C153_error",
    "Curvepy.Props.C153_second",
    "Curvepy.Props.C153_inverse",
    "Curvepy.Props.C153_trend_same",
    "Curvepy.Props.C153_own_ends",
    "Curvepy.Props.C153_negation",
    "Curvepy.Props.C153_inverse_negation",
    "Curvepy.Props.C153_coincident_negation"
   ],
   "note": "C153_negation: the second point of a line is not always on it; C153_coincident_negation: without a tolerance a line of a trend does not coincide with itself."
  },
  {
   "property": "C154",
   "status": "proved",
   "theorems": [
    "Curvepy.Props.C154_exact",
    "Curvepy.Props.C154_bounds",
    "Curvepy.Props.C154_error",
    "Curvepy.Props.C154_formula",
    "Curvepy.Props.C154_order"
   ],
   "note": "The positions of the accumulators have exact arithmetic."
  },
  {
   "property": "C155",
   "status": "proved",
   "theorems": [
    "Curvepy.Props.C155_sum",
    "Curvepy.Props.C155_product",
    "Curvepy.Props.C155_order",
    "Curvepy.Props.C155_difference",
    "Curvepy.Props.C155_quotient",
    "Curvepy.Props.C155_swap",
    "Curvepy.Props.C155_missing",
    "Curvepy.Props.C155_negation",
    "Curvepy.Props.C155_inverse_negation"
   ],
   "note": "C155_negation: the order of three curves matters; C155_inverse_negation: dividing and multiplying does not give the curve back. sum() adds one after another, as in Python before 3.12."
  },
  {
   "property": "C156",
   "status": "partial",
   "theorems": [
    "Curvepy.Props.C156_exact",
    "Curvepy.Props.C156_moved",
    "Curvepy.Props.C156_position",
    "Curvepy.Props.C156_value",
    "Curvepy.Props.C156_order",
    "Curvepy.Props.C156_domain",
    "Curvepy.Props.C156_next",
    "Curvepy.Props.C156_previous",
    "Curvepy.Props.C156_no_step",
    "Curvepy.Props.C156_derivative",
    "Curvepy.Props.C156_whole",
    "Curvepy.Props.C156_negation",
    "Curvepy.Props.C156_back_negation",
    "Curvepy.Props.C156_collapse"
   ],
   "note": "C156_negation: the end of the domain of an offset curve may have no value; C156_back_negation: the opposite offset does not give the domain back. Without duration."
  },
  {
   "property": "C157",
   "status": "partial",
   "theorems": [
    "Curvepy.Props.C157_exact",
    "Curvepy.Props.C157_exact_generic",
    "Curvepy.Props.C157_error",
    "Curvepy.Props.C157_sign",
    "Curvepy.Props.C157_exact_slope",
    "Curvepy.Props.C157_noise",
    "Curvepy.Props.C157_order",
    "Curvepy.Props.C157_nowhere",
    "Curvepy.Props.C157_differential",
    "Curvepy.Props.C157_progress",
    "Curvepy.Props.C157_usual_step",
    "Curvepy.Props.C157_swallow",
    "Curvepy.Props.C157_infinite",
    "Curvepy.Props.C157_negation"
   ],
   "note": "C157_infinite: beyond 2^37 every generic curve that is asked with the usual step has the derivative -inf before and inf after the position. Exponents are unbounded."
  },
  {
   "property": "C158",
   "status": "partial",
   "theorems": [
    "Curvepy.Props.C158_one",
    "Curvepy.Props.C158_parse_many",
    "Curvepy.Props.C158_mixed",
    "Curvepy.Props.C158_two",
    "Curvepy.Props.C158_points",
    "Curvepy.Props.C158_refused",
    "Curvepy.Props.C158_empty",
    "Curvepy.Props.C158_spread",
    "Curvepy.Props.C158_many",
    "Curvepy.Props.C158_plus",
    "Curvepy.Props.C158_none",
    "Curvepy.Props.C158_zero",
    "Curvepy.Props.C158_extension",
    "Curvepy.Props.C158_unknown",
    "Curvepy.Props.C158_period",
    "Curvepy.Props.C158_default",
    "Curvepy.Props.C158_irregular",
    "Curvepy.Props.C158_ignored",
    "Curvepy.Props.C158_points_first",
    "Curvepy.Props.C158_empty_negation",
    "Curvepy.Props.C158_negation"
   ],
   "note": "C158_irregular: points that are not equally spaced are refused; C158_ignored, C158_negation: what follows a sequence is ignored; C158_points_first: a list of points cannot be the first of several curves; C158_empty_negation: a curve without values that is extended by default raises when read."
  },
  {
   "property": "C159",
   "status": "partial",
   "theorems": [
    "Curvepy.Props.C159_line",
    "Curvepy.Props.C159_constant",
    "Curvepy.Props.C159_answer",
    "Curvepy.Props.C159_same",
    "Curvepy.Props.C159_plain",
    "Curvepy.Props.C159_least",
    "Curvepy.Props.C159_reached",
    "Curvepy.Props.C159_negation"
   ],
   "note": "C159_negation: the answer depends on what was asked before, and with equal gaps demanded (the default) unequal ones raise.  Values are rational and the positions that remain keep gaps of at least min_step without accidental equality to the average gap (AskedFit)."
  },
  {
   "property": "C16",
   "status": "partial",
   "theorems": [
    "Curvepy.Props.C16_failed_partial",
    "Curvepy.Props.C16_negation"
   ],
   "note": "False for errors raised after begin_update."
  },
  {
   "property": "C160",
   "status": "partial",
   "theorems": [
    "Curvepy.Props.C160_sum",
    "Curvepy.Props.C160_area",
    "Curvepy.Props.C160_line_partial",
    "Curvepy.Props.C160_between_partial",
    "Curvepy.Props.C160_constant_partial",
    "Curvepy.Props.C160_first",
    "Curvepy.Props.C160_uneven",
    "Curvepy.Props.C160_missing",
    "Curvepy.Props.C160_negation"
   ],
   "note": "C160_between_partial: between positions asked for earlier the integral of a line is off by s/2 (x-p)(q-x); C160_uneven: with uniform, the default, a different gap raises; C160_negation: dependence on the history, areas counted twice for positions closer than MIN_STEP, and wrong answers after an accidental gap."
  },
  {
   "property": "C161",
   "status": "partial",
   "theorems": [
    "Curvepy.Props.C161_period",
    "Curvepy.Props.C161_degree_partial",
    "Curvepy.Props.C161_valid",
    "Curvepy.Props.C161_whole",
    "Curvepy.Props.C161_negation"
   ],
   "note": "C161_negation: degrees are cut off (2.9 becomes 2) and a missing degree raises TypeError, a missing period another exception."
  },
  {
   "property": "C162",
   "status": "proved",
   "theorems": [
    "Curvepy.Props.C162_points",
    "Curvepy.Props.C162_degree",
    "Curvepy.Props.C162_period",
    "Curvepy.Props.C162_nowhere",
    "Curvepy.Props.C162_smma",
    "Curvepy.Props.C162_smma_line",
    "Curvepy.Props.C162_ema",
    "Curvepy.Props.C162_line",
    "Curvepy.Props.C162_leap",
    "Curvepy.Props.C162_none_before",
    "Curvepy.Props.C162_first",
    "Curvepy.Props.C162_first_error",
    "Curvepy.Props.C162_witness"
   ],
   "note": "Exact statement of what the code does; DESIGN.md records it as a disagreement with what an average of a line should be."
  },
  {
   "property": "C163",
   "status": "partial",
   "theorems": [
    "Curvepy.Props.C163_answer",
    "Curvepy.Props.C163_knots_partial",
    "Curvepy.Props.C163_combined",
    "Curvepy.Props.C163_weighted_partial",
    "Curvepy.Props.C163_add_partial",
    "Curvepy.Props.C163_subtract_partial",
    "Curvepy.Props.C163_calculus",
    "Curvepy.Props.C163_negation"
   ],
   "note": "Missing: combinations whose common positions lie closer than MIN_STEP or form an accidental average gap. C163_negation: products are taken as straight between the positions, and between the positions the integral runs straight."
  },
  {
   "property": "C164",
   "status": "proved",
   "theorems": [
    "Curvepy.Props.C164_joint",
    "Curvepy.Props.C164_accum",
    "Curvepy.Props.C164_points",
    "Curvepy.Props.C164_rest",
    "Curvepy.Props.C164_cache",
    "Curvepy.Props.C164_quiescent"
   ],
   "note": ""
  },
  {
   "property": "C165",
   "status": "proved",
   "theorems": [
    "Curvepy.Props.C165_price",
    "Curvepy.Props.C165_joins",
    "Curvepy.Props.C165_numbers",
    "Curvepy.Props.C165_raised",
    "Curvepy.Props.C165_positions"
   ],
   "note": "Lines through two points, powers and dates are named by a contract, with an instance over functions"
  },
  {
   "property": "C166",
   "status": "partial",
   "theorems": [
    "Curvepy.Props.C166_answer",
    "Curvepy.Props.C166_value",
    "Curvepy.Props.C166_none",
    "Curvepy.Props.C166_fresh",
    "Curvepy.Props.C166_period_partial",
    "Curvepy.Props.C166_period_fresh_partial",
    "Curvepy.Props.C166_length_partial",
    "Curvepy.Props.C166_length_value_partial",
    "Curvepy.Props.C166_length_fresh_partial",
    "Curvepy.Props.C166_length_bounds_partial",
    "Curvepy.Props.C166_bounds",
    "Curvepy.Props.C166_constant",
    "Curvepy.Props.C166_whole",
    "Curvepy.Props.C166_negation",
    "Curvepy.Props.C166_order_negation"
   ],
   "note": "Proved as stated, for windows by number, and for windows by length over equally spaced points and, where the point is the last of its window, over points at any distances; partial as a description of an average: with missing values the answer is not an average of the values there are, and depends on what was asked before. Missing: windows by length that reach beyond the point."
  },
  {
   "property": "C167",
   "status": "partial",
   "theorems": [
    "Curvepy.Props.C167_answer_partial",
    "Curvepy.Props.C167_bounds",
    "Curvepy.Props.C167_whole",
    "Curvepy.Props.C167_negation"
   ],
   "note": "Missing: sources without such a beginning, where the first average depends on the history as in C166."
  },
  {
   "property": "C168",
   "status": "partial",
   "theorems": [
    "Curvepy.Props.C168_answer_partial",
    "Curvepy.Props.C168_some_time",
    "Curvepy.Props.C168_quiet",
    "Curvepy.Props.C168_stale",
    "Curvepy.Props.C168_negation"
   ],
   "note": "The code violates it: the init curve is not observed (C168_stale, C168_negation). Proved for init curves that keep their values at the points of the source; for all histories with a value that the init curve has had."
  },
  {
   "property": "C169",
   "status": "partial",
   "theorems": [
    "Curvepy.Props.C169_announced",
    "Curvepy.Props.C169_fold",
    "Curvepy.Props.C169_as_new",
    "Curvepy.Props.C169_since",
    "Curvepy.Props.C169_init",
    "Curvepy.Props.C169_sma",
    "Curvepy.Props.C169_extremas",
    "Curvepy.Props.C169_trend",
    "Curvepy.Props.C169_trend_again",
    "Curvepy.Props.C169_negation"
   ],
   "note": "The code violates it: a possible extremum is not forgotten if no extremum was found yet (C169_negation). Proved for all accumulators, averages and trends; for extremas with at least one found."
  },
  {
   "property": "C17",
   "status": "proved",
   "theorems": [
    "Curvepy.Props.C17_tokens_unique",
    "Curvepy.Props.C17_add",
    "Curvepy.Props.C17_order"
   ],
   "note": ""
  },
  {
   "property": "C170",
   "status": "partial",
   "theorems": [
    "Curvepy.Props.C170_error",
    "Curvepy.Props.C170_one",
    "Curvepy.Props.C170_history",
    "Curvepy.Props.C170_period",
    "Curvepy.Props.C170_length",
    "Curvepy.Props.C170_length_history",
    "Curvepy.Props.C170_negation",
    "Curvepy.Props.C170_negation_history",
    "Curvepy.Props.C170_length_negation"
   ],
   "note": "The code violates it: values that have left the window stay in the average (C170_negation), and the answer depends on earlier queries (C170_negation_history). Proved with a bound by all values and the number of points up to the knot. Where windows begin and end is found with exact arithmetic in the model; between knots see C171. Over a length of time at any distances the loss grows with the length over the least distance (C170_length), and it does grow (C170_length_negation)."
  },
  {
   "property": "C171",
   "status": "partial",
   "theorems": [
    "Curvepy.Props.C171_between",
    "Curvepy.Props.C171_history",
    "Curvepy.Props.C171_mix",
    "Curvepy.Props.C171_negation"
   ],
   "note": "The code violates it: a rounded mix of two equal values may be another value (C171_negation). Proved near the exact mix, which more than a step after a knot has the proportions the wrong way round (C82)."
  },
  {
   "property": "C172",
   "status": "partial",
   "theorems": [
    "Curvepy.Props.C172_answer",
    "Curvepy.Props.C172_before",
    "Curvepy.Props.C172_bounds",
    "Curvepy.Props.C172_constant",
    "Curvepy.Props.C172_past_partial",
    "Curvepy.Props.C172_negation",
    "Curvepy.Props.C172_negation_first",
    "Curvepy.Props.C172_between",
    "Curvepy.Props.C172_between_bounds_partial",
    "Curvepy.Props.C172_between_negation"
   ],
   "note": "The code violates it: the window may reach beyond the position (C172_negation), and at a point that is the first of its window the value is given (C172_negation_first). Proved exactly which mean it is; only the past counts if the next point lies too far from the first of the window. Between points: exactly which mix of averages it is (C172_between); it is within the values unless its window is two later points (C172_between_bounds_partial), else it may leave them (C172_between_negation)."
  },
  {
   "property": "C173",
   "status": "partial",
   "theorems": [
    "Curvepy.Props.C173_answer",
    "Curvepy.Props.C173_same",
    "Curvepy.Props.C173_error",
    "Curvepy.Props.C173_between",
    "Curvepy.Props.C173_negation",
    "Curvepy.Props.C173_negation_constant"
   ],
   "note": "The code violates it for the degree 1 (C173_negation), and constants are not kept (C173_negation_constant). Proved for degrees from 2 on, at the points; C173_answer and C173_same for all degrees. Missing: positions between points, and rounding in the search for where windows begin."
  },
  {
   "property": "C174",
   "status": "partial",
   "theorems": [
    "Curvepy.Props.C174_line",
    "Curvepy.Props.C174_back_partial",
    "Curvepy.Props.C174_differ_partial",
    "Curvepy.Props.C174_negation_period",
    "Curvepy.Props.C174_negation_weight",
    "Curvepy.Props.C174_negation_zero",
    "Curvepy.Props.C174_negation_duration",
    "Curvepy.Props.C174_negation_line"
   ],
   "note": "The code violates it for averages over a length of time (C174_negation_period, C174_negation_weight), averages with the weight 0 (C174_negation_zero), offsets by durations (C174_negation_duration) and what is made of a line (C174_negation_line). Proved for lines, and for all nestings of named curves, combinations of two, offsets by numbers, averages over numbers of points and with weights other than 0. Texts are lists of tokens; how numbers and names are written is not modelled."
  },
  {
   "property": "C18",
   "status": "proved",
   "theorems": [
    "Curvepy.Props.C18_token",
    "Curvepy.Props.C18_object",
    "Curvepy.Props.C18_death",
    "Curvepy.Props.C18_dead"
   ],
   "note": ""
  },
  {
   "property": "C19",
   "status": "proved",
   "theorems": [
    "Curvepy.Props.C19_begin",
    "Curvepy.Props.C19_end"
   ],
   "note": ""
  },
  {
   "property": "C20",
   "status": "proved",
   "theorems": [
    "Curvepy.Props.C20_end",
    "Curvepy.Props.C20_begin",
    "Curvepy.Props.C20_updating"
   ],
   "note": ""
  },
  {
   "property": "C21",
   "status": "proved",
   "theorems": [
    "Curvepy.Props.C21_quiescent"
   ],
   "note": ""
  },
  {
   "property": "C22",
   "status": "proved",
   "theorems": [
    "Curvepy.Props.C22_domain_fresh"
   ],
   "note": "For any curve whose data changes only while it is updating, as every mutator of Points and Constant does."
  },
  {
   "property": "C23",
   "status": "proved",
   "theorems": [
    "Curvepy.Props.C23_edit_reaches_dependents",
    "Curvepy.Props.C23_edits_leave_idle"
   ],
   "note": ""
  },
  {
   "property": "C24",
   "status": "partial",
   "theorems": [
    "Curvepy.Props.C24_one_end_per_edit_partial",
    "Curvepy.Props.C24_negation",
    "Curvepy.Props.C24_negation_identity"
   ],
   "note": "False when several paths lead to a curve; proved for forests."
  },
  {
   "property": "C25",
   "status": "proved",
   "theorems": [
    "Curvepy.Props.C25_add",
    "Curvepy.Props.C25_subtract",
    "Curvepy.Props.C25_multiply",
    "Curvepy.Props.C25_outside",
    "Curvepy.Props.C25_domain",
    "Curvepy.Props.C25_number"
   ],
   "note": ""
  },
  {
   "property": "C26",
   "status": "proved",
   "theorems": [
    "Curvepy.Props.C26_total",
    "Curvepy.Props.C26_divide"
   ],
   "note": ""
  },
  {
   "property": "C27",
   "status": "proved",
   "theorems": [
    "Curvepy.Props.C27_min",
    "Curvepy.Props.C27_max",
    "Curvepy.Props.C27_domain"
   ],
   "note": ""
  },
  {
   "property": "C28",
   "status": "proved",
   "theorems": [
    "Curvepy.Props.C28_first"
   ],
   "note": "For curves that are None outside their domains."
  },
  {
   "property": "C29",
   "status": "proved",
   "theorems": [
    "Curvepy.Props.C29_next",
    "Curvepy.Props.C29_previous"
   ],
   "note": ""
  },
  {
   "property": "C30",
   "status": "partial",
   "theorems": [
    "Curvepy.Props.C30_map",
    "Curvepy.Props.C30_refused",
    "Curvepy.Props.C30_neg",
    "Curvepy.Props.C30_abs",
    "Curvepy.Props.C30_recip",
    "Curvepy.Props.C30_next_partial",
    "Curvepy.Props.C30_negation"
   ],
   "note": "Next/previous positions differ for steps below the step of the map; everything else proved."
  },
  {
   "property": "C31",
   "status": "partial",
   "theorems": [
    "Curvepy.Props.C31_shift",
    "Curvepy.Props.C31_compose",
    "Curvepy.Props.C31_next_partial",
    "Curvepy.Props.C31_negation"
   ],
   "note": "Limits are not shifted and positions before the domain are dropped; values, domain, composition and unlimited next/previous proved. Without duration."
  },
  {
   "property": "C32",
   "status": "partial",
   "theorems": [
    "Curvepy.Props.C32_value",
    "Curvepy.Props.C32_domain",
    "Curvepy.Props.C32_refused",
    "Curvepy.Props.C32_next_partial",
    "Curvepy.Props.C32_next_exact",
    "Curvepy.Props.C32_previous_exact",
    "Curvepy.Props.C32_negation"
   ],
   "note": "Next/previous positions found in a piece are never returned."
  },
  {
   "property": "C33",
   "status": "proved",
   "theorems": [
    "Curvepy.Props.C33_blend",
    "Curvepy.Props.C33_between",
    "Curvepy.Props.C33_continuous"
   ],
   "note": "Given the contract of Interval.partition."
  },
  {
   "property": "C34",
   "status": "partial",
   "theorems": [
    "Curvepy.Props.C34_generic",
    "Curvepy.Props.C34_constant_partial",
    "Curvepy.Props.C34_negation"
   ],
   "note": "A constant with an explicit domain has its value outside of it."
  },
  {
   "property": "C35",
   "status": "proved",
   "theorems": [
    "Curvepy.Props.C35_points",
    "Curvepy.Props.C35_slope",
    "Curvepy.Props.C35_inverse",
    "Curvepy.Props.C35_set",
    "Curvepy.Props.C35_rejected"
   ],
   "note": ""
  },
  {
   "property": "C36",
   "status": "proved",
   "theorems": [
    "Curvepy.Props.C36_area",
    "Curvepy.Props.C36_additive"
   ],
   "note": ""
  },
  {
   "property": "C37",
   "status": "proved",
   "theorems": [
    "Curvepy.Props.C37_step",
    "Curvepy.Props.C37_endless"
   ],
   "note": ""
  },
  {
   "property": "C38",
   "status": "partial",
   "theorems": [
    "Curvepy.Props.C38_partial",
    "Curvepy.Props.C38_ends",
    "Curvepy.Props.C38_generic_partial",
    "Curvepy.Props.C38_infinite",
    "Curvepy.Props.C38_negation"
   ],
   "note": "False when positions are odd multiples of half the step (round to even raises), for open starts without inner knots (IndexError), one-point domains (duplicate) and open ends (included); proved for all other cases."
  },
  {
   "property": "C39",
   "status": "partial",
   "theorems": [
    "Curvepy.Props.C39_range_partial",
    "Curvepy.Props.C39_none_raises",
    "Curvepy.Props.C39_negation"
   ],
   "note": "None values after a defined one raise TypeError; proved for the rest."
  },
  {
   "property": "C40",
   "status": "partial",
   "theorems": [
    "Curvepy.Props.C40_open",
    "Curvepy.Props.C40_closed_partial",
    "Curvepy.Props.C40_negation"
   ],
   "note": "open=False counts but omits the point at x."
  },
  {
   "property": "C41",
   "status": "proved",
   "theorems": [
    "Curvepy.Props.C41_minimise",
    "Curvepy.Props.C41_maximise",
    "Curvepy.Props.C41_maximise_eq",
    "Curvepy.Props.C41_edge"
   ],
   "note": ""
  },
  {
   "property": "C42",
   "status": "proved",
   "theorems": [
    "Curvepy.Props.C42_regression",
    "Curvepy.Props.C42_least",
    "Curvepy.Props.C42_vertical"
   ],
   "note": "Least squares of three or more points relative to the contract of numpy.linalg.lstsq."
  },
  {
   "property": "C43",
   "status": "proved",
   "theorems": [
    "Curvepy.Props.C43_quotient",
    "Curvepy.Props.C43_none",
    "Curvepy.Props.C43_straight",
    "Curvepy.Props.C43_same"
   ],
   "note": ""
  },
  {
   "property": "C44",
   "status": "partial",
   "theorems": [
    "Curvepy.Props.C44_step",
    "Curvepy.Props.C44_next",
    "Curvepy.Props.C44_previous",
    "Curvepy.Props.C44_no_step",
    "Curvepy.Props.C44_after",
    "Curvepy.Props.C44_negation"
   ],
   "note": "Fully characterised; the next position is not after x when the step is infinite and x is at or past the domain end, or the limit is before x."
  },
  {
   "property": "C45",
   "status": "partial",
   "theorems": [
    "Curvepy.Props.C45_calls_partial",
    "Curvepy.Props.C45_negation"
   ],
   "note": "Points closer than min_step are passed over (C45_negation). Proved for points with gaps of at least min_step, no accidental average gap, equally spaced if uniform, and a transform that does not raise."
  },
  {
   "property": "C46",
   "status": "partial",
   "theorems": [
    "Curvepy.Props.C46_fold_partial",
    "Curvepy.Props.C46_same_partial",
    "Curvepy.Props.C46_edit_partial",
    "Curvepy.Props.C46_negation_fluke",
    "Curvepy.Props.C46_negation_uniform",
    "Curvepy.Props.C46_negation_callback"
   ],
   "note": "For sources that are always fit for accumulation (gaps of at least min_step, no accidental average gap, equally spaced if uniform) and queries outside of callbacks. False otherwise."
  },
  {
   "property": "C47",
   "status": "partial",
   "theorems": [
    "Curvepy.Props.C47_alpha_partial",
    "Curvepy.Props.C47_period_partial",
    "Curvepy.Props.C47_alpha_bounds_partial",
    "Curvepy.Props.C47_period_bounds_partial",
    "Curvepy.Props.C47_constant_partial",
    "Curvepy.Props.C48_negation"
   ],
   "note": "Points closer than min_step do not count (C48_negation). For the sources of C46; proved in every state reached by queries and edits."
  },
  {
   "property": "C48",
   "status": "partial",
   "theorems": [
    "Curvepy.Props.C48_area_partial",
    "Curvepy.Props.C48_sum_partial",
    "Curvepy.Props.C48_monotone",
    "Curvepy.Props.C48_linear",
    "Curvepy.Props.C48_negation"
   ],
   "note": "Points closer than min_step do not count (C48_negation). For the sources of C46 with min_step at least MIN_STEP; proved in every state reached by queries and edits."
  },
  {
   "property": "C49",
   "status": "partial",
   "theorems": [
    "Curvepy.Props.C49_mean_partial",
    "Curvepy.Props.C49_domain",
    "Curvepy.Props.C49_bounds",
    "Curvepy.Props.C49_constant",
    "Curvepy.Props.C49_period_partial",
    "Curvepy.Props.C49_period_domain_partial",
    "Curvepy.Props.C49_negation",
    "Curvepy.Props.C49_negation_history",
    "Curvepy.Props.C49_negation_period"
   ],
   "note": "False: the value is the mean height of the line through the last n points, where the two ends count half, not the mean of the values; with missing values it depends on earlier queries; with a period it is defined at the last point before the period is over. Proved: mean height, bounds, constants, domain; period over equally spaced points."
  },
  {
   "property": "C50",
   "status": "partial",
   "theorems": [
    "Curvepy.Props.C50_trailing_min_partial",
    "Curvepy.Props.C50_trailing_max_partial",
    "Curvepy.Props.C50_trailing_min_period_partial",
    "Curvepy.Props.C50_trailing_max_period_partial",
    "Curvepy.Props.C50_negation"
   ],
   "note": "For the sources of C46 without missing values; a missing value raises TypeError."
  },
  {
   "property": "C51",
   "status": "proved",
   "theorems": [
    "Curvepy.Props.C51_assign"
   ],
   "note": ""
  },
  {
   "property": "C52",
   "status": "partial",
   "theorems": [
    "Curvepy.Props.C52_leaves_partial",
    "Curvepy.Props.C52_number_partial",
    "Curvepy.Props.C52_add_partial",
    "Curvepy.Props.C52_negation_args",
    "Curvepy.Props.C52_negation_named",
    "Curvepy.Props.C52_negation_base",
    "Curvepy.Props.C52_negation_nested"
   ],
   "note": "False for numbers in @args (logarithm taken twice), arguments by name (not taken), other bases and nested logarithms. Proved for nested sequences under one logarithm with base e, 2 or 10."
  },
  {
   "property": "C53",
   "status": "proved",
   "theorems": [
    "Curvepy.Props.C53_restored",
    "Curvepy.Props.C53_raised",
    "Curvepy.Props.C53_members"
   ],
   "note": ""
  },
  {
   "property": "C54",
   "status": "partial",
   "theorems": [
    "Curvepy.Props.C54_chain_partial",
    "Curvepy.Props.C54_rejected",
    "Curvepy.Props.C54_plain",
    "Curvepy.Props.C54_negation_false",
    "Curvepy.Props.C54_negation_log"
   ],
   "note": "False if the last function gives 0 (the result is an empty mapping) and for arguments of $log without a name (ignored)."
  },
  {
   "property": "C55",
   "status": "proved",
   "theorems": [
    "Curvepy.Props.C55_flatten",
    "Curvepy.Props.C55_extend",
    "Curvepy.Props.C55_extend_raises",
    "Curvepy.Props.C55_extend_unique"
   ],
   "note": ""
  },
  {
   "property": "C56",
   "status": "proved",
   "theorems": [
    "Curvepy.Props.C56_sorted",
    "Curvepy.Props.C56_leftmost",
    "Curvepy.Props.C56_no_repeat",
    "Curvepy.Props.C56_bound"
   ],
   "note": ""
  },
  {
   "property": "C57",
   "status": "proved",
   "theorems": [
    "Curvepy.Props.C57_line_y_ends",
    "Curvepy.Props.C57_line_y",
    "Curvepy.Props.C57_line_x",
    "Curvepy.Props.C57_line_x_level",
    "Curvepy.Props.C57_intersection"
   ],
   "note": ""
  },
  {
   "property": "C58",
   "status": "partial",
   "theorems": [
    "Curvepy.Props.C58_value_partial",
    "Curvepy.Props.C58_value_abs",
    "Curvepy.Props.C58_missing",
    "Curvepy.Props.C58_value_rel",
    "Curvepy.Props.C58_value_none",
    "Curvepy.Props.C58_on_line_partial",
    "Curvepy.Props.C58_abs_partial",
    "Curvepy.Props.C58_width_abs_partial",
    "Curvepy.Props.C58_width_rel_partial",
    "Curvepy.Props.C58_negation_value",
    "Curvepy.Props.C58_negation_negative",
    "Curvepy.Props.C58_negation_ahead",
    "Curvepy.Props.C58_negation_wide",
    "Curvepy.Props.C58_negation_within"
   ],
   "note": "False for negative values with a relative tolerance: the band is inverted. Proved for positive lines or without a relative tolerance."
  },
  {
   "property": "C59",
   "status": "proved",
   "theorems": [
    "Curvepy.Props.C59_success",
    "Curvepy.Props.C59_exclusive",
    "Curvepy.Props.C59_recorded",
    "Curvepy.Props.C59_final",
    "Curvepy.Props.C59_marks"
   ],
   "note": ""
  },
  {
   "property": "C60",
   "status": "partial",
   "theorems": [
    "Curvepy.Props.C60_found",
    "Curvepy.Props.C60_order",
    "Curvepy.Props.C60_alternate",
    "Curvepy.Props.C60_values_partial",
    "Curvepy.Props.C60_same_partial",
    "Curvepy.Props.C60_recorded_partial",
    "Curvepy.Props.C60_x_next_partial",
    "Curvepy.Props.C60_x_previous_partial",
    "Curvepy.Props.C60_negation_repeats",
    "Curvepy.Props.C60_negation_stale",
    "Curvepy.Props.C60_negation_withdrawn",
    "Curvepy.Props.C60_zero_reference",
    "Curvepy.Props.C60_zero_raises"
   ],
   "note": "Proved for a scan, and for every history of queries and edits that add points at the end, with gaps of at least min_step and a reference without zeros. False in general: repeated records after an append, stale possible extremas and extremas that are not withdrawn after other edits."
  },
  {
   "property": "C61",
   "status": "proved",
   "theorems": [
    "Curvepy.Props.C61_inside",
    "Curvepy.Props.C61_constant",
    "Curvepy.Props.C61_tangent",
    "Curvepy.Props.C61_tangent_joins"
   ],
   "note": "Every state reached by reads and edits, given that edits denied by is_in_extension (interval comparison operators of intervalpy, not known here) leave the extended edges alone. Tangents without regression."
  },
  {
   "property": "C62",
   "status": "proved",
   "theorems": [
    "Curvepy.Props.C62_fit"
   ],
   "note": ""
  },
  {
   "property": "C63",
   "status": "partial",
   "theorems": [
    "Curvepy.Props.C63_bounded",
    "Curvepy.Props.C63_reached",
    "Curvepy.Props.C63_period",
    "Curvepy.Props.C63_frequency",
    "Curvepy.Props.C63_phase_x",
    "Curvepy.Props.C63_rejects",
    "Curvepy.Props.C63_errors",
    "Curvepy.Props.C63_flat",
    "Curvepy.Props.C63_slope_partial",
    "Curvepy.Props.C63_negation",
    "Curvepy.Props.C63_negation_general"
   ],
   "note": "d_y lacks the factor x_coef, so it is the derivative only for the period 2*pi; the rest is proved."
  },
  {
   "property": "C64",
   "status": "partial",
   "theorems": [
    "Curvepy.Props.C64_stored_twice",
    "Curvepy.Props.C64_stored_partial",
    "Curvepy.Props.C64_stored_batches",
    "Curvepy.Props.C64_encoder_raises",
    "Curvepy.Props.C64_negation_append",
    "Curvepy.Props.C64_components",
    "Curvepy.Props.C64_no_quote",
    "Curvepy.Props.C64_outside",
    "Curvepy.Props.C64_component_curve",
    "Curvepy.Props.C64_trailing_high",
    "Curvepy.Props.C64_trailing_low_is_max",
    "Curvepy.Props.C64_trailing_new",
    "Curvepy.Props.C64_negation_trailing_low"
   ],
   "note": "False: append encodes twice and trailing_low is the maximum of the lows; the rest is proved."
  },
  {
   "property": "C65",
   "status": "partial",
   "theorems": [
    "Curvepy.Props.C65_no_others",
    "Curvepy.Props.C65_removed_partial",
    "Curvepy.Props.C65_negation",
    "Curvepy.Props.C65_extension_negation"
   ],
   "note": "Tokens are paired with the wrong sources when the set is iterated in another order or a source is repeated; extensions never unregister."
  },
  {
   "property": "C66",
   "status": "partial",
   "theorems": [
    "Curvepy.Props.C66_end_partial",
    "Curvepy.Props.C66_negation_begin",
    "Curvepy.Props.C66_negation_end"
   ],
   "note": "begin_update iterates over the live list, end_update looks up removed tokens."
  },
  {
   "property": "C67",
   "status": "partial",
   "theorems": [
    "Curvepy.Props.C67_pairs_partial",
    "Curvepy.Props.C67_negation"
   ],
   "note": "False for overlapping updates: an end without a begin is announced."
  },
  {
   "property": "C68",
   "status": "partial",
   "theorems": [
    "Curvepy.Props.C68_set_partial",
    "Curvepy.Props.C68_negation"
   ],
   "note": "False: the new points are compared with the spacing of the old ones. The exact condition is proved."
  },
  {
   "property": "C69",
   "status": "partial",
   "theorems": [
    "Curvepy.Props.C69_minimise",
    "Curvepy.Props.C69_negation"
   ],
   "note": "Proved for strictly falling-then-rising values; level values make it oscillate."
  },
  {
   "property": "C70",
   "status": "proved",
   "theorems": [
    "Curvepy.Props.C70_points_local"
   ],
   "note": ""
  },
  {
   "property": "C71",
   "status": "partial",
   "theorems": [
    "Curvepy.Props.C71_constant_partial",
    "Curvepy.Props.C71_tangent_partial",
    "Curvepy.Props.C71_negation",
    "Curvepy.Props.C71_negation_empty"
   ],
   "note": "Proved before the first read or when the extension is up to date; false after an edit (the old interval is kept until the next read beyond the domain) and for the empty curve."
  },
  {
   "property": "C72",
   "status": "partial",
   "theorems": [
    "Curvepy.Props.C72_quiet_partial",
    "Curvepy.Props.C72_negation"
   ],
   "note": "False: the check runs before the interval is computed, so the first read beyond the domain always raises."
  },
  {
   "property": "C73",
   "status": "partial",
   "theorems": [
    "Curvepy.Props.C73_range_partial",
    "Curvepy.Props.C73_negation"
   ],
   "note": "False: raises AttributeError as soon as a quote is sampled."
  },
  {
   "property": "C74",
   "status": "partial",
   "theorems": [
    "Curvepy.Props.C74_partial",
    "Curvepy.Props.C74_precise",
    "Curvepy.Props.C74_ends",
    "Curvepy.Props.C74_rounds",
    "Curvepy.Props.C74_query",
    "Curvepy.Props.C74_negation"
   ],
   "note": "False with the default tolerance: points at -1 make the scan endless (C74_negation). Proved without a tolerance (y_tol_abs = 0) and with a search over the whole line, for all histories: at most 2(k+1)^2+1 rounds, and every query ends. With a tolerance proved while there are fewer than min_points points."
  },
  {
   "property": "C75",
   "status": "partial",
   "theorems": [
    "Curvepy.Props.C75_partial",
    "Curvepy.Props.C75_negation"
   ],
   "note": "False: coincident points are added in the order of pruning. Proved for the first and the last point."
  },
  {
   "property": "C76",
   "status": "partial",
   "theorems": [
    "Curvepy.Props.C76_choice_partial",
    "Curvepy.Props.C76_partial",
    "Curvepy.Props.C76_least",
    "Curvepy.Props.C76_negation",
    "Curvepy.Props.C76_negation_boundary"
   ],
   "note": "False with a tolerance: pruned points add up, and boundary points are deleted at positions of another list. Proved with tolerance 0."
  },
  {
   "property": "C77",
   "status": "partial",
   "theorems": [
    "Curvepy.Props.C77_partial",
    "Curvepy.Props.C77_enough",
    "Curvepy.Props.C77_negation"
   ],
   "note": "False for lines of a trend, to which the distance is not passed on. Proved for sorted trend points of a single line."
  },
  {
   "property": "C78",
   "status": "partial",
   "theorems": [
    "Curvepy.Props.C78_partial",
    "Curvepy.Props.C78_negation"
   ],
   "note": "False: an update can delete a level on one side only, and the next scan fails with an IndexError. Proved without updates."
  },
  {
   "property": "C79",
   "status": "partial",
   "theorems": [
    "Curvepy.Props.C79_partial",
    "Curvepy.Props.C79_negation"
   ],
   "note": "False: a call of update_prediction counts again the tangent at which the call before stopped. Proved for a single call."
  },
  {
   "property": "C80",
   "status": "partial",
   "theorems": [
    "Curvepy.Props.C80_partial",
    "Curvepy.Props.C80_negation"
   ],
   "note": "False: a point on the line resets the prediction. Proved for points off the line."
  },
  {
   "property": "C81",
   "status": "proved",
   "theorems": [
    "Curvepy.Props.C81_least",
    "Curvepy.Props.C81_fails"
   ],
   "note": ""
  },
  {
   "property": "C82",
   "status": "partial",
   "theorems": [
    "Curvepy.Props.C82_between_partial",
    "Curvepy.Props.C82_bounds",
    "Curvepy.Props.C82_negation"
   ],
   "note": "False: more than min_step after a knot the two weights are swapped. The exact formula and the bounds are proved."
  },
  {
   "property": "C83",
   "status": "partial",
   "theorems": [
    "Curvepy.Props.C83_past_partial",
    "Curvepy.Props.C83_negation"
   ],
   "note": "Proved for a number of points and data without missing values up to the position. False for a period over irregular points."
  },
  {
   "property": "C84",
   "status": "proved",
   "theorems": [
    "Curvepy.Props.C84_search"
   ],
   "note": ""
  },
  {
   "property": "C85",
   "status": "partial",
   "theorems": [
    "Curvepy.Props.C85_points_partial",
    "Curvepy.Props.C85_tangent",
    "Curvepy.Props.C85_touched",
    "Curvepy.Props.C85_crossing",
    "Curvepy.Props.C85_negation",
    "Curvepy.Props.C85_negation_known"
   ],
   "note": "The whole effect of one update is proved. False for the history of a line: a new line is looked at in the search interval of the line before it, and a change of side across a known tangent point is missed."
  },
  {
   "property": "C86",
   "status": "partial",
   "theorems": [
    "Curvepy.Props.C86_within",
    "Curvepy.Props.C86_missing",
    "Curvepy.Props.C86_three",
    "Curvepy.Props.C86_coincident",
    "Curvepy.Props.C86_convex_partial",
    "Curvepy.Props.C86_negation",
    "Curvepy.Props.C86_negation_no_tolerance"
   ],
   "note": "Convexity with a relative tolerance is proved where the middle value is not negative; among negative values it is false. Without tolerances every point is convex."
  },
  {
   "property": "C87",
   "status": "proved",
   "theorems": [
    "Curvepy.Props.C87_thin",
    "Curvepy.Props.C87_keep"
   ],
   "note": ""
  },
  {
   "property": "C88",
   "status": "partial",
   "theorems": [
    "Curvepy.Props.C88_partial",
    "Curvepy.Props.C88_edit",
    "Curvepy.Props.C88_negation"
   ],
   "note": "False: after a replacement of the last point, even by itself, the next query scans all points again and records them twice. Proved for histories whose edits add points at the end."
  },
  {
   "property": "C89",
   "status": "partial",
   "theorems": [
    "Curvepy.Props.C89_partial",
    "Curvepy.Props.C89_answer_partial",
    "Curvepy.Props.C89_negation",
    "Curvepy.Props.C89_negation_state"
   ],
   "note": "False: after a replacement of the last point by itself a line is lost. Proved for histories whose edits add points at the end."
  },
  {
   "property": "C90",
   "status": "proved",
   "theorems": [
    "Curvepy.Props.C90_lines",
    "Curvepy.Props.C90_query"
   ],
   "note": ""
  },
  {
   "property": "C91",
   "status": "partial",
   "theorems": [
    "Curvepy.Props.C91_points_partial",
    "Curvepy.Props.C91_boundary_partial",
    "Curvepy.Props.C91_negation",
    "Curvepy.Props.C91_negation_unsorted"
   ],
   "note": "False for lines crossed before their last point and for points recorded twice. Proved for sorted points and for boundary points of lines searched in the updated interval."
  },
  {
   "property": "C92",
   "status": "partial",
   "theorems": [
    "Curvepy.Props.C92_fold_partial",
    "Curvepy.Props.C92_iterations",
    "Curvepy.Props.C92_points",
    "Curvepy.Props.C92_map",
    "Curvepy.Props.C92_number_partial",
    "Curvepy.Props.C92_negation"
   ],
   "note": "False for curves combined with numbers when asked between knots: the query position is processed as a knot, so answers depend on the history, or raise. Proved for points and mapped curves at all positions, and for curves combined with a number at knots."
  },
  {
   "property": "C93",
   "status": "proved",
   "theorems": [
    "Curvepy.Props.C93_bounds"
   ],
   "note": ""
  },
  {
   "property": "C94",
   "status": "proved",
   "theorems": [
    "Curvepy.Props.C94_bounds",
    "Curvepy.Props.C94_degree_needed"
   ],
   "note": "The second theorem shows that the bound on the degree is needed."
  },
  {
   "property": "C95",
   "status": "partial",
   "theorems": [
    "Curvepy.Props.C95_knots_partial",
    "Curvepy.Props.C95_no_fall_partial",
    "Curvepy.Props.C95_no_rise_partial",
    "Curvepy.Props.C95_negation",
    "Curvepy.Props.C95_negation_constant"
   ],
   "note": "False after queries between points: the answer changes, or with the default demand for equal spacing raises. Proved for histories of queries at points. The slope at the first point counts as 0."
  },
  {
   "property": "C96",
   "status": "partial",
   "theorems": [
    "Curvepy.Props.C96_extent_partial",
    "Curvepy.Props.C96_failure_partial",
    "Curvepy.Props.C88_negation"
   ],
   "note": "For sources that change by points added at the end only; with other edits the trend is no scan of its source (C88, C89)."
  },
  {
   "property": "C97",
   "status": "partial",
   "theorems": [
    "Curvepy.Props.C97_again_partial",
    "Curvepy.Props.C97_partial",
    "Curvepy.Props.C97_negation"
   ],
   "note": "False: a query stops as soon as all lines known are searched after the position, but later points can bring a line back. Proved for the same query again, and for positions at which the trend is not settled before the end of the source, which includes all from the last point on."
  },
  {
   "property": "C98",
   "status": "partial",
   "theorems": [
    "Curvepy.Props.C98_next",
    "Curvepy.Props.C98_previous_partial",
    "Curvepy.Props.C98_previous_some",
    "Curvepy.Props.C98_negation"
   ],
   "note": "False backwards: the accumulated points are asked first, which end where the scan did."
  },
  {
   "property": "C99",
   "status": "partial",
   "theorems": [
    "Curvepy.Props.C99_plain",
    "Curvepy.Props.C99_none",
    "Curvepy.Props.C99_partial",
    "Curvepy.Props.C99_reach",
    "Curvepy.Props.C99_multiple",
    "Curvepy.Props.C99_negation"
   ],
   "note": "False for an index below -1 and a line without intersections, which raises an IndexError."
  }
 ]
}