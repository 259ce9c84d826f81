{
 "claims": [
  {
   "property": "C01",
   "status": "proved",
   "theorems": [
    "River.Path.traverse_build",
    "River.Path.traverse_replays",
    "River.Path.traverse_replays_cmds"
   ],
   "note": ""
  },
  {
   "property": "C02",
   "status": "proved",
   "theorems": [
    "River.Path.traverse_null_callbacks"
   ],
   "note": ""
  },
  {
   "property": "C03",
   "status": "proved",
   "theorems": [
    "River.Path.traverse_safe_iff",
    "River.Path.traverse_build_safe"
   ],
   "note": ""
  },
  {
   "property": "C04",
   "status": "proved",
   "theorems": [
    "River.Path.moveConstruct_spec"
   ],
   "note": ""
  },
  {
   "property": "C05",
   "status": "proved",
   "theorems": [
    "River.MakePath.makePath_print",
    "River.MakePath.makePath_print_junk",
    "River.MakePath.groups_flatten",
    "River.MakePath.groups_shape",
    "River.Numeral.lex_numeral",
    "River.Numeral.lex_lone_letter",
    "River.Numeral.numeral_cases",
    "River.Numeral.lex_only"
   ],
   "note": "lex_numeral: every way of writing a decimal number (signs, point, small or capital exponent letter) is read as its value; lex_lone_letter: a letter without digits after it is left for what follows. lex_only: nothing else is read as a number."
  },
  {
   "property": "C06",
   "status": "proved",
   "theorems": [
    "River.MakePath.makePath_spec",
    "River.MakePath.makePath_of_cmdsAt",
    "River.MakePath.makePath_print_junk"
   ],
   "note": ""
  },
  {
   "property": "C07",
   "status": "proved",
   "theorems": [
    "River.MakePath.makePath_ub_iff"
   ],
   "note": ""
  },
  {
   "property": "C08",
   "status": "proved",
   "theorems": [
    "River.Rect.of_isBBox",
    "River.Rect.IsBBox.unique",
    "River.Rect.IsBBox.valid",
    "River.Rect.foldl_extend",
    "River.rect_from_doubles"
   ],
   "note": "Any totally ordered coordinates; rect_from_doubles: all lists of finite IEEE doubles, signed zeros included."
  },
  {
   "property": "C09",
   "status": "proved",
   "theorems": [
    "River.Rect.intersect_comm",
    "River.Rect.intersect_iff",
    "River.Rect.around_mem",
    "River.intersect_doubles"
   ],
   "note": "Any totally ordered coordinates; intersect_doubles: all IEEE doubles but NaN, infinities and signed zeros included."
  },
  {
   "property": "C10",
   "status": "partial",
   "theorems": [
    "River.Rect.inflated_contains_iff_partial",
    "River.Rect.inflated_not_contains",
    "River.Rect.inflated_mem"
   ],
   "note": "False of the code (uses min twice): the partial theorem characterises exactly when it holds, inflated_not_contains is the negation with a witness."
  },
  {
   "property": "C11",
   "status": "proved",
   "theorems": [
    "River.lineIntersect_sound"
   ],
   "note": "First segment of positive length; exact arithmetic with IEEE special values."
  },
  {
   "property": "C12",
   "status": "proved",
   "theorems": [
    "River.lineIntersect_nonparallel",
    "River.lineIntersect_complete"
   ],
   "note": ""
  },
  {
   "property": "C13",
   "status": "partial",
   "theorems": [
    "River.lineIntersect_collinear_partial",
    "River.lineIntersect_collinear_spec",
    "River.lineIntersect_collinear_iff",
    "River.lineIntersect_misses",
    "River.lineIntersect_asymmetric"
   ],
   "note": "False of the code in general (misses overlaps not covering the first point); the partial theorem covers the case where the first point is on the second segment, and lineIntersect_collinear_iff shows that this is exactly when nothing is missed."
  },
  {
   "property": "C14",
   "status": "partial",
   "theorems": [
    "River.lineIntersect_fits_partial",
    "River.lineIntersect_overflow_iff",
    "River.lineIntersect_overflow"
   ],
   "note": "Holds when the first segment has positive length; lineIntersect_overflow exhibits the overflow for a degenerate first segment, and lineIntersect_overflow_iff says exactly for which arguments it happens."
  },
  {
   "property": "C15",
   "status": "partial",
   "theorems": [
    "River.dist2PointLine_segment",
    "River.dist2PointLine_degenerate",
    "River.dist2_zero_iff",
    "River.dist2PointLine_not_line",
    "River.dist2PointLine_line_partial",
    "River.pointProject_partial",
    "River.pointProject_not_inside",
    "River.generalFrom_spec",
    "River.dist2PointLine_line_iff_partial",
    "River.pointProject_iff_partial",
    "River.foot_case"
   ],
   "note": "dist2_point_line measures to the finite segment, point_project_in_segment checks one side only: both proved exactly, negations witnessed. Exactly: the result is the distance to the line if and only if the foot of the point falls into the segment, and the projection test is right if and only if the foot does not lie beyond the end it leaves unchecked."
  },
  {
   "property": "C16",
   "status": "proved",
   "theorems": [
    "River.Cubic.pointAt_eq_eval",
    "River.Cubic.pointAt_casteljau",
    "River.Cubic.pointAt_zero",
    "River.Cubic.pointAt_one",
    "River.Cubic.pointAt_halfplane",
    "River.Cubic.pointAt_mem_box"
   ],
   "note": ""
  },
  {
   "property": "C17",
   "status": "proved",
   "theorems": [
    "River.Cubic.split_eval",
    "River.Cubic.splitMany_eval",
    "River.Cubic.splitMany_joins",
    "River.Cubic.split_joins"
   ],
   "note": ""
  },
  {
   "property": "C18",
   "status": "partial",
   "theorems": [
    "River.Cubic.readPieces_monotone_partial",
    "River.Cubic.readPieces_monotone_iff",
    "River.Cubic.readPieces_joins",
    "River.Cubic.readPieces_not_monotone"
   ],
   "note": "False of the code: the extremum parameters are handed to the splitter in descending order when the leading coefficient of the derivative is positive (readPieces_not_monotone). The partial theorem covers the ascending case outside the tolerance band; readPieces_monotone_iff shows that the other case always fails."
  },
  {
   "property": "C19",
   "status": "proved",
   "theorems": [
    "River.Cubic.getBoundary_contains",
    "River.Cubic.getBoundary_contains_exact",
    "River.Cubic.getBoundary_touched",
    "River.Cubic.getBoundary_isBBox"
   ],
   "note": "Containment up to 2e-8 in general and exact outside the tolerance band; every side is touched."
  },
  {
   "property": "C20",
   "status": "proved",
   "theorems": [
    "River.resolvQuad_length",
    "River.resolvQuad_quadratic",
    "River.resolvQuad_linear",
    "River.resolvQuad_const",
    "River.resolvQuad_numbers"
   ],
   "note": "Outside the 1e-8 tolerance bands."
  },
  {
   "property": "C21",
   "status": "partial",
   "theorems": [
    "River.resolvCubic_length",
    "River.resolvCubic_quadratic",
    "River.resolvCubic_multiple",
    "River.resolvCubic_single_partial",
    "River.resolvCubic_three_partial",
    "River.resolvCubic_nan",
    "River.resolvCubic_nan_general",
    "River.resolvCubic_numbers_iff",
    "River.resolvCubic_exact_iff_partial"
   ],
   "note": "False of the code: when the depressed cubic is y^3+q with q>0 the answer is NaN (resolvCubic_nan_general), and only then (resolvCubic_numbers_iff). Exact for one root otherwise and for multiple roots; three roots within 3e-10 because of the truncated pi. Exactly: outside the tolerances and without three different solutions an equation is solved if and only if it is not one of these (resolvCubic_exact_iff_partial)."
  },
  {
   "property": "C22",
   "status": "partial",
   "theorems": [
    "River.Cubic.pointAtY_length",
    "River.Cubic.pointAtY_range",
    "River.Cubic.pointAtY_exact_partial",
    "River.Cubic.pointAtY_three_partial",
    "River.Cubic.pointAtY_misses",
    "River.solverExact_of",
    "River.Cubic.pointAtY_numbers",
    "River.Cubic.pointAtY_fails",
    "River.Cubic.pointAtY_iff_partial",
    "River.rootIff_case"
   ],
   "note": "False of the code where the solver returns NaN (pointAtY_misses). Exactly, without three solutions: all parameters and no others are found if and only if the solver does not fail at the height or the curve does not reach it."
  },
  {
   "property": "C23",
   "status": "partial",
   "theorems": [
    "River.Seg.currX_line",
    "River.Seg.linX_on_line",
    "River.Seg.linX_ends",
    "River.Seg.linX_between",
    "River.Seg.linX_mono",
    "River.Seg.linX_symm",
    "River.Seg.currX_cubic_partial",
    "River.Seg.currX_cubic_wrong",
    "River.Seg.currX_number",
    "River.Seg.currX_chord",
    "River.Seg.currX_iff_partial"
   ],
   "note": "Complete for lines; for cubics where the solver is exact; refuted in general (currX_cubic_wrong). Exactly: at a height the curve has in one point only the answer is right if and only if the solver does not fail there or the chord has the same abscissa."
  },
  {
   "property": "C24",
   "status": "partial",
   "theorems": [
    "River.lineCubicIntersect_fits",
    "River.lineCubicIntersect_exact_partial",
    "River.lineCubicIntersect_misses",
    "River.lineCubicIntersect_iff_partial",
    "River.lineCubicIntersect_fails"
   ],
   "note": "Never overflows; exact where the solver is; refuted in general (lineCubicIntersect_misses). Exactly, without three solutions: every common point is reported if and only if the solver does not fail or there is none."
  },
  {
   "property": "C25",
   "status": "proved",
   "theorems": [
    "River.ccLoop_terminates",
    "River.cubicIntersect_fits",
    "River.cubicIntersect_sound",
    "River.cubicIntersect_complete"
   ],
   "note": "For every implementation of std::sort. Completeness holds as long as the nine-record array is not full."
  },
  {
   "property": "C26",
   "status": "proved",
   "theorems": [
    "River.scanProcess_spec",
    "River.insertAddr_sorted",
    "River.scanProcess_doubles"
   ],
   "note": "Any totally ordered coordinates, any address order; scanProcess_doubles: all boxes of IEEE doubles without NaN."
  },
  {
   "property": "C27",
   "status": "proved",
   "theorems": [
    "River.addPath1_spec",
    "River.addPaths_spec",
    "River.intake_polygon",
    "River.intake_outline",
    "River.insertVertexList_none_iff",
    "River.addPath1_lineto_first"
   ],
   "note": "A path starting with a lineto away from the origin is undefined behaviour (addPath1_lineto_first); intake_outline is over exact arithmetic."
  },
  {
   "property": "C28",
   "status": "proved",
   "theorems": [
    "River.insertVertexList_flags",
    "River.insertVertexList_alternate",
    "River.insertVertexList_has_min",
    "River.insertVertexList_doubles"
   ],
   "note": "Any totally ordered coordinates; insertVertexList_doubles: all IEEE heights but NaN."
  },
  {
   "property": "C29",
   "status": "proved",
   "theorems": [
    "River.processIntersect_spec",
    "River.breakNode_chain",
    "River.breakNode_trace",
    "River.demoEnv_ok"
   ],
   "note": "Structure in any ordered arithmetic and for any addresses and sort implementation; breakNode_trace (pieces trace the old curve) in exact arithmetic for break points that lie on the segment at their parameter."
  },
  {
   "property": "C30",
   "status": "proved",
   "theorems": [
    "River.intersectVtx_spec",
    "River.processIntersect_shared",
    "River.lineCubicIntersect_point",
    "River.cubicIntersect_point"
   ],
   "note": ""
  },
  {
   "property": "C31",
   "status": "proved",
   "theorems": [
    "River.popScan_spec",
    "River.insertAll_spec",
    "River.scanRun_increasing",
    "River.popScan_length",
    "River.scanRun_doubles"
   ],
   "note": "Any totally ordered coordinates; scanRun_doubles: all IEEE heights but NaN, the two zeros being one height."
  },
  {
   "property": "C32",
   "status": "partial",
   "theorems": [
    "River.insertAel_sorted",
    "River.resortAel_sorted",
    "River.insertAel_doubles",
    "River.resortAel_doubles",
    "River.insert_both_sorted_partial",
    "River.insert_both_unordered",
    "River.touching_minimum_wrong",
    "River.touching_minimum_mirrored",
    "River.flat_crossing_wrong",
    "River.insert_both_iff_partial",
    "River.insert_both_cases"
   ],
   "note": "False of the code for local minima whose flat bottom runs from right to left (insert_both_unordered) and for a local minimum standing on a vertex of another contour, which makes union and intersection wrong (touching_minimum_wrong), and for sides that cross on a horizontal side running right, which are not re-sorted (flat_crossing_wrong); otherwise the order is kept. Exactly: the two edges of a minimum leave the list in order if and only if no edge left of the place of the descending edge lies to the right of the beginning of the ascending one (insert_both_iff_partial)."
  },
  {
   "property": "C33",
   "status": "proved",
   "theorems": [
    "River.Links.insertAfter_spec",
    "River.Links.insert_spec",
    "River.Links.insertLeft_spec",
    "River.Links.take_spec",
    "River.Links.delete_spec",
    "River.Links.insertMany_spec",
    "River.Links.resortTake_spec",
    "River.Links.deleteObl_spec",
    "River.Links.rebuildObl_spec",
    "River.Links.oblWalk_endless"
   ],
   "note": "The rebuilt list of output bounds is a proper list exactly when the last bound's old successor was null (rebuildObl_spec); oblWalk_endless exhibits the loop otherwise."
  },
  {
   "property": "C34",
   "status": "proved",
   "theorems": [
    "River.calcWind_ok",
    "River.recalc_windcnt_ok",
    "River.recalc_windcnt_doubles"
   ],
   "note": "Any totally ordered coordinates; recalc_windcnt_doubles: all IEEE doubles but NaN."
  },
  {
   "property": "C35",
   "status": "proved",
   "theorems": [
    "River.isContributing_iff",
    "River.contributing_iff_changes"
   ],
   "note": ""
  },
  {
   "property": "C36",
   "status": "proved",
   "theorems": [
    "River.inside_iff_odd",
    "River.contributing_even",
    "River.inside_at_iff_odd",
    "River.inside_at_doubles"
   ],
   "note": "Any totally ordered coordinates; inside_at_doubles: all IEEE doubles but NaN."
  },
  {
   "property": "C37",
   "status": "proved",
   "theorems": [
    "River.process_none_ends",
    "River.process_none_ends_any",
    "River.process_none",
    "River.process_empty",
    "River.run_none"
   ],
   "note": "Given that the search for intersections is defined for the contours (C14)."
  },
  {
   "property": "C38",
   "status": "proved",
   "theorems": [
    "River.swap_roles",
    "River.countsOk_swap",
    "River.calcWind_swap"
   ],
   "note": ""
  },
  {
   "property": "C39",
   "status": "proved",
   "theorems": [
    "River.process_wellformed",
    "River.contours_length",
    "River.run_union"
   ],
   "note": ""
  },
  {
   "property": "C40",
   "status": "partial",
   "theorems": [
    "River.difference_not_closed",
    "River.intersection_not_closed",
    "River.process_wellformed",
    "River.process_boundary",
    "River.contours_closed_partial",
    "River.closed_demo"
   ],
   "note": "False of whole calls in general: witnesses. It holds for arranged, consistently directed contours (process_boundary, see C56)."
  },
  {
   "property": "C41",
   "status": "partial",
   "theorems": [
    "River.difference_ub",
    "River.xor_ub",
    "River.union_ub",
    "River.union_ub_in_sweep",
    "River.clockwise_union_ub",
    "River.directed_positive",
    "River.directed_negative",
    "River.process_boundary",
    "River.directions_partial",
    "River.closed_demo"
   ],
   "note": "False of the code in general: witnesses. It holds for arranged contours with union and intersection under the positive and negative rule (C56)."
  },
  {
   "property": "C42",
   "status": "proved",
   "theorems": [
    "River.Seg.reverse_trace",
    "River.Seg.reverse_target",
    "River.Seg.reverse_reverse",
    "River.Seg.reverse_isCubic"
   ],
   "note": ""
  },
  {
   "property": "C43",
   "status": "partial",
   "theorems": [
    "River.isSame_iff",
    "River.isSame_complete",
    "River.controls_reverse",
    "River.isSame_sound_partial",
    "River.isSame_false_positive",
    "River.isSame_sound_iff_partial"
   ],
   "note": "Exactly: two edges taken for the same pass the same points if and only if they are straight or their control points agree from below (isSame_sound_iff_partial). Recognition is complete; for curves it also accepts control points in the wrong order (witness), so soundness is proved for lines and for curves whose control points agree in order. Soundness in exact arithmetic."
  },
  {
   "property": "C44",
   "status": "partial",
   "theorems": [
    "River.process_twice_differs",
    "River.process_again_partial",
    "River.process_nth",
    "River.processed_any",
    "River.again_demo",
    "River.process_twice_iff_partial",
    "River.twice_demo"
   ],
   "note": "False of the code: the output list is not cleared, so the second call delivers the contours of the first call again. Proved for polygons in general position: every further call delivers the sum of what all calls so far have found, so the n-th equal call multiplies the winding numbers by n. Exactly: two equal calls deliver the same winding numbers if and only if no point belongs to the result (process_twice_iff_partial)."
  },
  {
   "property": "C45",
   "status": "proved",
   "theorems": [
    "River.Cubic.circle_radius",
    "River.Cubic.circle_closed",
    "River.Cubic.circle_mirror"
   ],
   "note": ""
  },
  {
   "property": "C46",
   "status": "partial",
   "theorems": [
    "River.arc_start",
    "River.arc_end",
    "River.arc_radius",
    "River.arc_points",
    "River.clamp2pi_spec",
    "River.arc_endRad_partial",
    "River.arc_endRad_wrong",
    "River.arc_reverse",
    "River.arc_reverse_wrong",
    "River.arc_endRad_iff_partial",
    "River.arc_reverse_iff_partial",
    "River.arc_quarter_case"
   ],
   "note": "Exact real arithmetic. end_rad is wrong unless the centre is the origin, reverse keeps the sign of the sweep: both negations proved. Exactly: end_rad is right if and only if the centre lies on the line through the origin and the end, not beyond the end (arc_endRad_iff_partial, for arcs that do not end in the origin); where it is right, reverse passes the points backwards only if nothing is swept (arc_reverse_iff_partial)."
  },
  {
   "property": "C47",
   "status": "proved",
   "theorems": [
    "River.process_callbacks",
    "River.process_null_callback",
    "River.run_null_cubic",
    "River.run_null_line"
   ],
   "note": ""
  },
  {
   "property": "C48",
   "status": "proved",
   "theorems": [
    "River.vec2Less_total",
    "River.findOrAdd_spec",
    "River.findOrAdd_again",
    "River.insertBreak_spec",
    "River.chain_spec",
    "River.breakLess_lerp",
    "River.breakLess_not_order",
    "River.cross_break",
    "River.dcelIntersect_breaks",
    "River.dcelIntersect_overlap"
   ],
   "note": "The chain passes the break points in the order std::sort leaves them; that order is the one along the edge for exact points on it."
  },
  {
   "property": "C49",
   "status": "proved",
   "theorems": [
    "River.splitFace_spec",
    "River.eight_split"
   ],
   "note": ""
  },
  {
   "property": "C50",
   "status": "proved",
   "theorems": [
    "River.process_terminates",
    "River.reach_ok",
    "River.skipHorz_defined",
    "River.horzGo_defined",
    "River.run_bound",
    "River.process_steady",
    "River.process_terminates_any",
    "River.reach_live",
    "River.skipHorz_defined_any",
    "River.horzGo_defined_any",
    "River.dbl_eqPer",
    "River.oddPolys_end",
    "River.oddPolys_ends_always"
   ],
   "note": "The bound on the scan lines holds in any arithmetic whatever the comparisons and sorts return (process_terminates_any), so for all doubles with infinities and NaN; the loop over horizontal edges at a minimum needs a symmetric and transitive ==, which doubles have (dbl_eqPer). Where a height is NaN the C++ sorts and priority queue are undefined; the theorem is then about the model's order of popping. Paths and custom readers. Walking a corrupted list of output bounds (Links.oblWalk_endless) is an undefined outcome in the model and not covered here."
  },
  {
   "property": "C51",
   "status": "partial",
   "theorems": [
    "River.splitNum_pos",
    "River.splitNum_wrong",
    "River.splitNum_right_iff_partial",
    "River.splitNum_half",
    "River.splitNum_half_wrong",
    "River.splitNum_error_partial",
    "River.splitNum_right_iff_before_partial",
    "River.splitNum_right_iff_across_partial",
    "River.splitNum_quarter",
    "River.splitNum_upper_half_wrong",
    "River.splitNum_eighth",
    "River.splitInt_num",
    "River.splitInt_ub_iff_partial",
    "River.splitInt_sweep_partial",
    "River.splitInt_cases",
    "River.splitInt_fits"
   ],
   "note": "False of the code: the count is wrong and split_y is empty (witnesses). Proved: the lower bound, and for every arc exactly when the count is right, in three theorems: the arc lies at or after the top of the circle, before it, or across it; for all arcs the count exceeds the number of half turns by at most three. The quotients are ints, so that counting is undefined for huge angles: splitInt_ub_iff_partial says exactly when, splitInt_sweep_partial gives bounds on the angle, splitInt_num says that otherwise the number is the one of the other theorems."
  },
  {
   "property": "C52",
   "status": "proved",
   "theorems": [
    "River.rotated_spec",
    "River.normalization_spec"
   ],
   "note": "Exact real arithmetic."
  },
  {
   "property": "C53",
   "status": "proved",
   "theorems": [
    "River.buildTwins_spec",
    "River.cross_twins"
   ],
   "note": ""
  },
  {
   "property": "C54",
   "status": "proved",
   "theorems": [
    "River.splitAll_spec",
    "River.eight_split"
   ],
   "note": ""
  },
  {
   "property": "C55",
   "status": "partial",
   "theorems": [
    "River.break_loses_type",
    "River.break_zero_length",
    "River.chain_type",
    "River.pieces_partial",
    "River.pieces_iff_partial"
   ],
   "note": "False of the code: pieces take the current path type and edges sharing an end point get pieces of length zero (witnesses). Proved if the type is still the current one and no break point is an end of the edge. pieces_iff_partial says exactly when the pieces are right."
  },
  {
   "property": "C56",
   "status": "proved",
   "theorems": [
    "River.process_boundary",
    "River.process_boundary_steep",
    "River.hboundary_none",
    "River.directed_positive",
    "River.directed_negative",
    "River.star_region",
    "River.plus_region"
   ],
   "note": "Any number type with a total order. Arranged is the precondition on the broken pieces (horizontal ones and coinciding ones included); star_region and plus_region meet it. Without it the code is wrong: see the witnesses of C40, touching_minimum_wrong and flat_crossing_wrong."
  },
  {
   "property": "C57",
   "status": "proved",
   "theorems": [
    "River.process_region",
    "River.star_region",
    "River.plus_region"
   ],
   "note": ""
  },
  {
   "property": "C58",
   "status": "proved",
   "theorems": [
    "River.coincident_cancel",
    "River.isSame_equiv",
    "River.coincident_demo"
   ],
   "note": "Coincident in the sense of is_same (see C43 for what that means)."
  },
  {
   "property": "C59",
   "status": "proved",
   "theorems": [
    "River.process_polygons",
    "River.consistent_positive",
    "River.consistent_negative",
    "River.consistent_nonzero",
    "River.consistent_nonzero_clockwise",
    "River.consistent_difference",
    "River.oriented_nonzero",
    "River.oriented_evenOdd",
    "River.oriented_difference",
    "River.demo_union",
    "River.rects_general",
    "River.rects_intersection",
    "River.tiles_general",
    "River.tiles_overlap",
    "River.tiles_signed",
    "River.tiles_union",
    "River.generalPolygons_iff",
    "River.conditions_needed"
   ],
   "note": "The conditions meet, corner, start, overlap and minima cannot be dropped (conditions_needed: for each a call that meets all others and fails); proper and turn can (C90); whether along can is open. Exact arithmetic, horizontal and overlapping sides included (tiles_union: squares that share sides). For results that are not oriented the code is wrong (see difference_wrong, difference_not_closed)."
  },
  {
   "property": "C60",
   "status": "proved",
   "theorems": [
    "River.break_exact"
   ],
   "note": "Exact arithmetic, straight sides."
  },
  {
   "property": "C61",
   "status": "partial",
   "theorems": [
    "River.direction_irrelevant_partial",
    "River.direction_demo",
    "River.direction_ieee_partial",
    "River.diamonds_direction",
    "River.clockwise_union_ub",
    "River.clockwise_union_loses"
   ],
   "note": "False of the code: the union of two clockwise squares is undefined behaviour or loses one of them. Proved for union and intersection with the non-zero rule of polygons in general position (as in C59) that all run counter-clockwise (they may share sides), or have non-negative winding numbers and no overlapping sides."
  },
  {
   "property": "C62",
   "status": "proved",
   "theorems": [
    "River.process_faces",
    "River.process_faces_exact",
    "River.plainOrder_ok",
    "River.squareDiagonal_faces",
    "River.squareDiagonal_count",
    "River.finite_calls"
   ],
   "note": "process_faces holds in any arithmetic provided no pair of lines overruns the array of the line intersection; process_faces_exact shows this for finite coordinates in exact arithmetic with IEEE special values. Lines sharing an end point make additional faces of one zero-length half edge (squareDiagonal_count, C55)."
  },
  {
   "property": "C63",
   "status": "proved",
   "theorems": [
    "River.next_sharpest",
    "River.angle_away",
    "River.angularOrder_ok",
    "River.corner_turn",
    "River.getNext_sharpest",
    "River.sortAngle_spec",
    "River.threeWays_sharpest",
    "River.squareDiagonal_faces",
    "River.getPrev_spec",
    "River.sortAngle_left"
   ],
   "note": "Faces therefore lie on the right of their half edges, contrary to the comment in dcel.h:91 (squareDiagonal_faces)."
  },
  {
   "property": "C64",
   "status": "partial",
   "theorems": [
    "River.face_null",
    "River.face_partial",
    "River.face_exact_partial",
    "River.cross_face_wrong",
    "River.squareDiagonal_face_null"
   ],
   "note": "False of the code for every input: the last half edge of a walk is never given its face (face_null). face_exact_partial says exactly which half edges name the right face after faces have been taken apart: those that keep the beginning of the walk and were not last in it. cross_face_wrong: of two crossing lines every half edge but one names a wrong face or none."
  },
  {
   "property": "C65",
   "status": "proved",
   "theorems": [
    "River.addReader_path",
    "River.addReader_spec",
    "River.addReader_undefined_iff",
    "River.square_read",
    "River.reader_wrong_from",
    "River.reader_no_move"
   ],
   "note": ""
  },
  {
   "property": "C66",
   "status": "proved",
   "theorems": [
    "River.processor_memory",
    "River.processor_copy",
    "River.copied_processor",
    "River.copied_used",
    "River.assigned_processor",
    "River.twoProcessors_ok",
    "River.twoProcessors_run"
   ],
   "note": "The implicit copy of a class that deletes a raw pointer: copying can never be survived (processor_copy), which is a defect of the interface. Undefined behaviour inside add_path or process is a separate outcome (Fault.call)."
  },
  {
   "property": "C67",
   "status": "proved",
   "theorems": [
    "River.processors_independent",
    "River.processors_interleave",
    "River.twoProcessors_run"
   ],
   "note": ""
  },
  {
   "property": "C68",
   "status": "proved",
   "theorems": [
    "River.process_divides",
    "River.plainOrder_ok",
    "River.plainOrder_sorts",
    "River.crossTouch_spread",
    "River.crossTouch_divided",
    "River.overlap_undivided"
   ],
   "note": "Without the condition it is false of the code: overlapping lines are not broken (overlap_undivided)."
  },
  {
   "property": "C69",
   "status": "proved",
   "theorems": [
    "River.process_traced",
    "River.rects_general",
    "River.tiles_general",
    "River.tiles_signed"
   ],
   "note": "Same hypotheses as C59."
  },
  {
   "property": "C70",
   "status": "proved",
   "theorems": [
    "River.presentation_irrelevant",
    "River.presentation_demo",
    "River.presentation_ieee",
    "River.boxes_presentation",
    "River.presentation_untidy",
    "River.presentation_untidy_demo"
   ],
   "note": "Same hypotheses as C59 for the first presentation; they are shown to hold for the second. presentation_ieee: with IEEE doubles, hypotheses of C92, the representation of zeros may differ, too. presentation_untidy: also for polygons with superfluous commands (C90)."
  },
  {
   "property": "C71",
   "status": "proved",
   "theorems": [
    "River.process_stretch",
    "River.stretch_demo",
    "River.process_ieee_moved",
    "River.boxes_moved"
   ],
   "note": "Same hypotheses as C59 for the original; they are shown to hold for the image. process_ieee_moved: moving on the grid, with IEEE doubles, hypotheses of C92."
  },
  {
   "property": "C72",
   "status": "partial",
   "theorems": [
    "River.doubles_rectangles_ub",
    "River.doubles_triangles_lost",
    "River.doubles_squares",
    "River.doubles_off_grid",
    "River.doubles_boundary_partial",
    "River.Dbl.agree",
    "River.rndMag_rep",
    "River.rndMag_nearest",
    "River.doubles_clamp",
    "River.Dbl.neg_spec",
    "River.Dbl.lit_spec",
    "River.Dbl.lit_max",
    "River.Dbl.lt_iff",
    "River.Dbl.le_iff",
    "River.Dbl.eq_iff",
    "River.Dbl.nan_tests",
    "River.Dbl.finite_iff",
    "River.Dbl.of_spec",
    "River.Dbl.add_inf",
    "River.Dbl.add_zero_sign",
    "River.Dbl.mul_inf",
    "River.Dbl.div_special",
    "River.Dbl.remainder_spec",
    "River.Dbl.remainder_special",
    "River.Dbl.toInt_spec"
   ],
   "note": "False of the code: with correctly rounded binary64 arithmetic the union of three rectangles with small integer coordinates is undefined behaviour, and the union of two triangles delivers nothing (witnesses; both are polygons as in C59). Proved: the rounding of the model is to nearest; with doubles the call is right whenever the broken pieces are arranged as the code computes them. For polygons on a grid that do not cross it is true (C75). For crossing polygons on a grid the conditions of C79, C80 and C92 suffice."
  },
  {
   "property": "C73",
   "status": "proved",
   "theorems": [
    "River.vector_laws",
    "River.products_angle",
    "River.products_zero",
    "River.cross_pos_iff"
   ],
   "note": "Exact arithmetic."
  },
  {
   "property": "C74",
   "status": "proved",
   "theorems": [
    "River.process_curved",
    "River.loops_positive",
    "River.loops_negative",
    "River.loops_nonzero",
    "River.loops_difference",
    "River.CurvedDemo.demo_intersection",
    "River.Upright.process_upright",
    "River.Upright.fine_cubic",
    "River.Upright.fine_quadratic",
    "River.Upright.fine_even",
    "River.Upright.nonCrossing_even",
    "River.Upright.loopWinding_even",
    "River.Upright.demo_union"
   ],
   "note": "Exact arithmetic. `process_upright` is the general form, `process_curved` the one for curves whose four points are at equally spaced heights (`nonCrossing_even`: a special case). The conditions on the curves mention the library's own `curr_x` and `split_y`; `fine_cubic`, `fine_quadratic`, `fine_even` establish them from the control points. That the curve/curve and line/curve intersection functions report nothing but ends (`quiet`) is a hypothesis for pairs of sides whose boxes overlap; `noReport_cubics` and `noReport_parabola` prove it for curves that stay apart, and `demo_nonCrossing` for a concrete case."
  },
  {
   "property": "C75",
   "status": "proved",
   "theorems": [
    "River.process_doubles",
    "River.lineIntersect_grid",
    "River.processIntersect64",
    "River.process_ieee",
    "River.dblFrame_grid",
    "River.dblFrame_union",
    "River.dblFrame_union_ieee"
   ],
   "note": "`process_ieee` is the property for IEEE 754 doubles (`Dbl`, with overflow, NaN and signed zeros); it is obtained from `process_doubles`, over the ordered model of finite doubles (`R64`: correctly rounded binary64, +0 and -0 taken together). `dblFrame_union` and `dblFrame_union_ieee` apply them to a concrete case."
  },
  {
   "property": "C76",
   "status": "proved",
   "theorems": [
    "River.process_area",
    "River.process_areas",
    "River.area_mono",
    "River.area_eq",
    "River.rects_areas",
    "River.process_ieee_area",
    "River.process_ieee_areas",
    "River.boxes_areas"
   ],
   "note": "Exact arithmetic, same hypotheses as C59; the `ieee` theorems: IEEE doubles, hypotheses of C92. `rects_areas` and `boxes_areas` apply them to two overlapping rectangles."
  },
  {
   "property": "C77",
   "status": "proved",
   "theorems": [
    "River.text_to_region",
    "River.text_to_region_ieee",
    "River.prints_poly",
    "River.rectA_text",
    "River.rects_text",
    "River.crossDiamond_text",
    "River.crossDiamond_text_scaled",
    "River.cross_text",
    "River.text_to_region_untidy",
    "River.text_to_region_untidy_ieee",
    "River.closedText_read",
    "River.closedText_demo",
    "River.text_to_file",
    "River.crossSquare_text",
    "River.cross_text_file"
   ],
   "note": "text_to_region: exact arithmetic; text_to_region_ieee: IEEE doubles. The number syntax is a parameter (`NumLex`, `Printer`) with the decimal notation as instance. `rectA_text`, `rects_text`, `crossDiamond_text` and `cross_text` show concrete texts. Texts that lead back to the first corner, repeat corners or draw points: text_to_region_untidy and, with IEEE doubles, text_to_region_untidy_ieee."
  },
  {
   "property": "C78",
   "status": "partial",
   "theorems": [
    "River.process_leak_partial",
    "River.process_leak",
    "River.leak_zero_iff",
    "River.scanBlocks_eq",
    "River.triangle_leak"
   ],
   "note": "False of the code: the broad phase allocates one record per side and one per different abscissa and never frees them; process_leak gives the exact number, leak_zero_iff says that only calls without contours leave nothing behind."
  },
  {
   "property": "C79",
   "status": "proved",
   "theorems": [
    "River.process_doubles_crossing",
    "River.process_ieee_crossing",
    "River.exactMeet_dyadic",
    "River.lineIntersect_cross",
    "River.processIntersect_cross",
    "River.cross_polygons",
    "River.cross_union",
    "River.cross_union_ieee"
   ],
   "note": "For the ordered model of finite doubles and, `process_ieee_crossing`, for IEEE 754 doubles, as C75. `cross_union` and `cross_union_ieee` apply it to a concrete case. Without the condition on the crossings the property is false (C72)."
  },
  {
   "property": "C80",
   "status": "proved",
   "theorems": [
    "River.process_tiles",
    "River.process_whole_tiles",
    "River.process_doubles_tiles",
    "River.process_ieee_tiles",
    "River.tile_winding",
    "River.wholeTiles_intersection",
    "River.dyadicTiles_union",
    "River.dyadicTiles_union_ieee",
    "River.clockwise_tiles_ub"
   ],
   "note": "wholeTiles_intersection and dyadicTiles_union apply it to concrete families. `clockwise_tiles_ub` shows that the direction matters: clockwise rectangles under the negative rule can be undefined behaviour, also in exact arithmetic; `doubles_rectangles_ub` (C72) that with doubles the sizes matter."
  },
  {
   "property": "C81",
   "status": "proved",
   "theorems": [
    "River.svg_shows",
    "River.svg_undefined_iff",
    "River.svg_inside",
    "River.svg_scale",
    "River.svg_polygons",
    "River.addInput_eq",
    "River.output_drawn",
    "River.svg_rects",
    "River.svg_stray"
   ],
   "note": "Numbers stand in the drawing as they are; C94 is about the text with the six decimals of %f."
  },
  {
   "property": "C82",
   "status": "proved",
   "theorems": [
    "River.Upright.process_upright_crossing",
    "River.process_curved_crossing",
    "River.Upright.crossingLoops_even",
    "River.Upright.fine_part_cubic",
    "River.Upright.fine_part_quadratic",
    "River.Upright.truthful_line",
    "River.truthful_parabola",
    "River.truth_roots",
    "River.boxed_exact",
    "River.CrossDemo.demo_crossing",
    "River.CrossDemo.demo_intersection",
    "River.Upright.cut_crossing",
    "River.Upright.cut_intersection"
   ],
   "note": "Exact real arithmetic. `process_upright_crossing` is the general form, `process_curved_crossing` the one for curves whose four points are at equally spaced heights (`crossingLoops_even`: a special case). That the library finds the point of a curve's part at a height is a hypothesis; `fine_part_cubic` and `fine_part_quadratic` establish it from the control points. That the library finds the intersections of a curve with another side at the right place (`truthful`) is a hypothesis for pairs of sides whose boxes overlap and of which one is curved; `truthful_line` and `truthful_parabola` prove it for lines and curves, `truth_roots` for every line and curve for which the solver is right. Two curves that really cross are found up to a tolerance only (C25), so they do not meet the hypothesis in general. Straight sides need no hypothesis."
  },
  {
   "property": "C83",
   "status": "proved",
   "theorems": [
    "River.Viewer.shape_arrives",
    "River.Viewer.route_iff",
    "River.Viewer.bad_request",
    "River.Viewer.unknown_type",
    "River.Viewer.point_disc",
    "River.Viewer.ratFormats_faithful"
   ],
   "note": "Any arithmetic; the discs of points in exact arithmetic. Qt's stream operators enter as a hypothesis (`Faithful`: reading gives back what was written); ratFormats_faithful gives formats that meet it."
  },
  {
   "property": "C84",
   "status": "proved",
   "theorems": [
    "River.Viewer.viewer_order",
    "River.Viewer.viewer_complete",
    "River.Viewer.viewer_screen",
    "River.Viewer.viewer_steps",
    "River.Viewer.viewer_progress",
    "River.Viewer.sent_sublist",
    "River.Viewer.viewer_interleaved"
   ],
   "note": "Threads interleave freely; a request refused is skipped by its program, as the code ignores the result of curl. viewer_interleaved is a concrete schedule in which one program overtakes another."
  },
  {
   "property": "C85",
   "status": "proved",
   "theorems": [
    "River.Viewer.viewer_safe",
    "River.Viewer.viewer_cross",
    "River.Viewer.viewer_screen"
   ],
   "note": ""
  },
  {
   "property": "C86",
   "status": "partial",
   "theorems": [
    "River.Viewer.close_while_drawing",
    "River.Viewer.close_after_signal",
    "River.Viewer.no_restart",
    "River.Viewer.start_twice",
    "River.Viewer.close_safe_partial",
    "River.Viewer.close_case",
    "River.Viewer.close_safe_iff_partial",
    "River.Viewer.close_signal_case"
   ],
   "note": "False of the code: a request being handled while the window is closed calls a destroyed view (`quit_loop` does not wait), and after a signal has stopped the server the controller uses a deleted worker. close_safe_partial: safe without signals when all accepted requests have been handed over before the window goes. Exactly: a run ends in undefined behaviour if and only if its last act is a request reaching the view after the window has gone, or the destruction of the controller after the worker has been deleted (close_safe_iff_partial)."
  },
  {
   "property": "C87",
   "status": "partial",
   "theorems": [
    "River.Viewer.path_drawn",
    "River.Viewer.paths_drawn",
    "River.Viewer.path_drawn_ub",
    "River.Viewer.line_moved",
    "River.Viewer.cubic_not_moved",
    "River.Viewer.cubic_moved_partial",
    "River.Viewer.cubic_moved_iff_partial"
   ],
   "note": "False for a single curve, whose offset is ignored (cubic_not_moved); proved for paths, lists of paths and lines with all offsets, and for a single curve without offset. Exactly: a single curve is drawn where it should be if and only if there is no offset (cubic_moved_iff_partial)."
  },
  {
   "property": "C88",
   "status": "proved",
   "theorems": [
    "River.Viewer.frames_apart",
    "River.Viewer.frame_size",
    "River.Viewer.frame_point",
    "River.Viewer.next_move",
    "River.Viewer.frame_line"
   ],
   "note": "Exact arithmetic."
  },
  {
   "property": "C89",
   "status": "proved",
   "theorems": [
    "River.curves_read",
    "River.sixth_near",
    "River.sixth_exact",
    "River.circle_text",
    "River.main_circle"
   ],
   "note": "The numbers written are doubles (with rounding); the reader gives the exact decimal value (DecLex), its rounding to double is not modelled. main_circle is the text of the circle in main."
  },
  {
   "property": "C90",
   "status": "proved",
   "theorems": [
    "River.redundant_irrelevant",
    "River.tidies_addPaths",
    "River.tidies_winding",
    "River.tidies_exists",
    "River.process_untidy",
    "River.untidy_demo",
    "River.process_ieee_untidy",
    "River.untidy_ieee"
   ],
   "note": "redundant_irrelevant and tidies_addPaths hold for any arithmetic with ordered numbers (no NaN), process_untidy for exact arithmetic, process_ieee_untidy for IEEE doubles, where a corner repeated may differ from it in the signs of its zeros."
  },
  {
   "property": "C91",
   "status": "proved",
   "theorems": [
    "River.process_chain",
    "River.processPaths_polygons",
    "River.chain_demo",
    "River.process_ieee_chain",
    "River.chain_ieee_demo",
    "River.written_inj",
    "River.two_calls",
    "River.two_calls_order",
    "River.two_calls_demo"
   ],
   "note": "process_chain is for exact arithmetic, process_ieee_chain for IEEE doubles. The hypothesis of the second call (general position of the delivered polygons) is not implied by that of the first; chain_demo and chain_ieee_demo show cases. two_calls, two_calls_order: union and intersection of three sets by two calls, in either order."
  },
  {
   "property": "C92",
   "status": "proved",
   "theorems": [
    "River.process_ieee",
    "River.process_ieee_crossing",
    "River.process_ieee_tiles",
    "River.process_ieee_scaled",
    "River.process_ieee_crossing_scaled",
    "River.process_ieee_tiles_scaled",
    "River.cross_union_scaled",
    "River.process_ieee_run",
    "River.ieeeEnv_ok",
    "River.ieeeSort_ok",
    "River.dblFrame_union_ieee",
    "River.cross_union_ieee",
    "River.dyadicTiles_union_ieee"
   ],
   "note": "For the model of IEEE 754 doubles with overflow, infinities, NaN and signed zeros. `ieeeEnv_ok` and `ieeeSort_ok` show that sorts as required exist also where NaN may occur; the other examples meet the remaining hypotheses. The `_scaled` theorems are the general ones; without the suffix: the power of two is 1."
  },
  {
   "property": "C93",
   "status": "proved",
   "theorems": [
    "River.process_sound",
    "River.process_sound_exact",
    "River.dcel_leak",
    "River.crossApart_memory"
   ],
   "note": "Any arithmetic; process_sound_exact: exact arithmetic with special values, all finite lines. A use of a freed half edge would make the model undefined. dcel_leak is the last sentence of the property. `finite_calls` (C62) meets the hypotheses of process_sound_exact."
  },
  {
   "property": "C94",
   "status": "proved",
   "theorems": [
    "River.svg_text",
    "River.svgFile_doc",
    "River.readData_str",
    "River.readPaths_doc",
    "River.svgFile_polygons",
    "River.round6_near",
    "River.cross_file",
    "River.triangle_text",
    "River.curve_text",
    "River.text_to_file",
    "River.cross_text_file"
   ],
   "note": "svgFile_doc: `hfin` excludes infinities and NaN among the coordinates, which %f writes as words; sizes may be infinite (a flat picture). `cross_file` meets the hypotheses of svgFile_polygons and, through it, of svgFile_doc. The text is that of the C locale. text_to_file: from the two texts given to make_path to the text of the file; cross_text_file is a concrete run of it."
  },
  {
   "property": "C95",
   "status": "proved",
   "theorems": [
    "River.process_size",
    "River.process_calls",
    "River.processIntersect_count",
    "River.addPath_count",
    "River.star_calls",
    "River.oddPolys_calls"
   ],
   "note": "Any arithmetic, no hypothesis on the input; of the sorts only that they permute. process_calls: every processor that has not run yet. star_calls: two crossing quadrilaterals; oddPolys_calls: contours with infinities and NaN. As in C50, where a height is NaN the C++ sorts and priority queue are undefined; the theorem is then about the model's order of popping."
  },
  {
   "property": "C96",
   "status": "partial",
   "theorems": [
    "River.dcel_again_partial",
    "River.dcel_twice_doubles",
    "River.history_first",
    "River.dcel_again_dangling",
    "River.dcel_more_dangling",
    "River.dcel_more_apart",
    "River.dcel_line_twice",
    "River.dcel_history_faced",
    "River.dcel_again_undefined",
    "River.dcel_again_exact",
    "River.dcel_apart_always",
    "River.apartSteps_apart",
    "River.apartSteps_runs",
    "River.dcel_crossing_once",
    "River.crossTouch_once"
   ],
   "note": "The property is false of the code. dcel_again_partial says exactly when the next call ends: if and only if it breaks none of the half edges that existed after the last call; otherwise faces of the last call name deleted half edges and are followed. If it ends, twins and faces are as they should be. dcel_twice_doubles: a second call in a row always changes a structure that is not empty. Witnesses: dcel_again_dangling (two lines with a common end, processed twice), dcel_more_dangling (a crossing line added), dcel_line_twice; dcel_more_apart meets the hypotheses and ends. history_first: the first call is that of C62. dcel_history_faced: in any arithmetic, whenever a call in any history has ended, twins and faces are right. In exact arithmetic, stated with the lines: dcel_crossing_once: if two lines that are not parallel have a point in common, process is defined once and undefined behaviour the next time, whatever is added in between (case: crossTouch_once); dcel_apart_always: if no two different lines have a common point, process may be called any number of times (cases: apartSteps_apart, apartSteps_runs); dcel_again_undefined and dcel_again_exact: the same for the half edges of any history."
  },
  {
   "property": "C97",
   "status": "partial",
   "theorems": [
    "River.Viewer.zoom_factor",
    "River.Viewer.zoom_perm",
    "River.Viewer.zoom_upright_iff_partial",
    "River.Viewer.zoom_back",
    "River.Viewer.zoom_doubles_shape",
    "River.Viewer.zoom_doubles_upright_partial",
    "River.Viewer.zoom_vanishes",
    "River.Viewer.zoom_overflow",
    "River.Viewer.zoom_case",
    "River.Viewer.factor_sign",
    "River.Viewer.zoom_doubles_never_turned_partial",
    "River.Viewer.zoom_doubles_turned",
    "River.Viewer.zoom_turned_case"
   ],
   "note": "False as stated in two places. An event of -2000 or less makes the picture vanish or turns it over (zoom_vanishes), and zoom_upright_iff_partial says that these events are the only ones that do, in exact arithmetic. Turning back by the same angle never restores the scale unless the angle is zero (zoom_back). The rest is proved: zoom_factor, zoom_perm (exact), zoom_doubles_shape (IEEE doubles, every sequence). zoom_doubles_upright_partial: with doubles the picture stays upright and does not vanish if every event is at least -999 (a whole turn of the wheel is 2880, a notch 120); missing: events between -1999 and -1000, of which some sequences do vanish by underflow (last part of zoom_vanishes). zoom_overflow: made larger for long enough, the scale is infinite. Scrolling and the point Qt keeps in place are not modelled. With doubles the picture is turned over by the first event below -2000 and by none above it (zoom_doubles_never_turned_partial, zoom_doubles_turned)."
  }
 ]
}