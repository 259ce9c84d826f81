{"id": "C01", "title": "Path replay", "statement": "Traversing a path that was built by any sequence of moveto/lineto/cubicto calls invokes the callbacks for exactly those commands, in order, with exactly the recorded coordinates; each callback's `from` argument is the end point of the command before it ((0,0) for the first one).", "quantifier": "every finite sequence of moveto/lineto/cubicto calls, every coordinate value (any arithmetic, including NaN)", "why_tests_cant": "the number and mix of commands is unbounded; a stride error in the flat coordinate buffer only shows for particular mixes", "anchors": ["src/src/path.cpp: path::moveto, path::lineto, path::cubicto, path::traverse", "src/include/river.h: struct path"]}
{"id": "C02", "title": "Null callbacks are skipped safely", "statement": "traverse() with some of move_to/line_to/cubic_to left null never calls through a null pointer and delivers exactly the events of the non-null callbacks, with the same arguments (in particular the same `from` points) they would have received with all callbacks set.", "quantifier": "every path built through the API and each of the eight subsets of null callbacks", "why_tests_cant": "combinations of skipped commands with following commands are unbounded", "anchors": ["src/src/path.cpp: path::traverse", "src/include/river.h: path_traverse_funcs"]}
{"id": "C03", "title": "Traversal stays inside the coordinate buffer", "statement": "For a path built only through the API, traverse() never reads coordinates outside the stored buffer and consumes all of it; a path whose buffers were tampered with so that coordinates are missing does make traverse() read out of bounds.", "quantifier": "every API-built path; every element/coordinate buffer pair for the converse", "why_tests_cant": "memory safety over all lengths cannot be sampled", "anchors": ["src/src/path.cpp: path::traverse"]}
{"id": "C04", "title": "Moving a path", "statement": "Move-constructing a path transfers the complete command sequence to the new path and leaves the old one empty (its traversal makes no callback).", "quantifier": "every path", "why_tests_cant": "universal over contents", "anchors": ["src/src/path.cpp: path::path(path&&)"]}
{"id": "C05", "title": "make_path round trip", "statement": "Printing any list of drawing commands that starts with a moveto in the m/l/c text syntax and parsing it with make_path yields the paths holding exactly those commands: a new path per moveto, then its lines and cubics in order.", "quantifier": "every command list starting with moveto, every decimal coordinate, every amount of white space between tokens", "why_tests_cant": "unbounded inputs; backtracking and skipper behaviour", "anchors": ["src/src/river.cpp: make_path"]}
{"id": "C06", "title": "make_path takes the longest valid prefix and never rejects", "statement": "make_path never reports a syntax error: on malformed text it silently returns the paths of the longest well-formed prefix of commands, so res.clear() on failure is unreachable, and appending text that cannot continue the last number (it starts with white space or with one of m, l, a, c) and does not start with a valid command changes nothing.", "quantifier": "every input string", "why_tests_cant": "needs all malformed strings", "anchors": ["src/src/river.cpp: make_path"]}
{"id": "C07", "title": "make_path is only safe when drawing starts with a moveto", "statement": "make_path performs an out-of-range access (back() of an empty vector) exactly when the first drawing command that takes effect (line or cubic) is not preceded by a moveto; on all other strings it is free of it.", "quantifier": "every input string", "why_tests_cant": "unsafe inputs form an infinite family", "anchors": ["src/src/river.cpp: make_path, writer::lineto, writer::cubicto"]}
{"id": "C08", "title": "rect::from is the tight bounding box", "statement": "rect::from(points) contains every given point, and each of its four sides passes through one of them, for any non-empty list of points with finite coordinates.", "quantifier": "every non-empty list of points in double range", "why_tests_cant": "unbounded lists", "anchors": ["src/include/rmath.h: rect::from"]}
{"id": "C09", "title": "rect::intersect decides overlap", "statement": "rect::intersect is symmetric and, for boxes with min<=max, returns true exactly when the two closed boxes share a point.", "quantifier": "every pair of boxes", "why_tests_cant": "all coordinate combinations incl. touching edges and corners", "anchors": ["src/src/rmath.cpp: rect::intersect"]}
{"id": "C10", "title": "rect::inflated grows the box", "statement": "A box inflated by n>=0 contains the original box. (Expected by name; the code uses `min` twice.)", "quantifier": "every box and every n>=0", "why_tests_cant": "universal; the failing case depends on box size relative to n", "anchors": ["src/include/rmath.h: rect::inflated"]}
{"id": "C11", "title": "Line/line intersection is sound", "statement": "Every point reported by intersect(p0,p1,p2,p3) lies on both segments, its t0 is its parameter on p0p1 and t1 its parameter on p2p3, and both parameters are in [0,1].", "quantifier": "every pair of segments, the first one of positive length, exact arithmetic", "why_tests_cant": "continuum of configurations (crossing, touching, parallel, collinear)", "anchors": ["src/src/rmath.cpp: intersect(vec2,vec2,vec2,vec2)"]}
{"id": "C12", "title": "Line/line intersection is complete for non-parallel segments", "statement": "When the two segments are not parallel, intersect reports exactly one point if they have a common point and none otherwise.", "quantifier": "every pair of non-parallel segments, exact arithmetic", "why_tests_cant": "continuum of configurations incl. T- and end-point contacts", "anchors": ["src/src/rmath.cpp: intersect(vec2,vec2,vec2,vec2)"]}
{"id": "C13", "title": "Collinear overlaps are reported", "statement": "When two collinear segments overlap, every end point of one that lies strictly inside the other is reported as an intersection.", "quantifier": "every pair of collinear non-degenerate segments, both argument orders", "why_tests_cant": "needs all relative placements; the code tests only one end against the finite other segment", "anchors": ["src/src/rmath.cpp: intersect(vec2,vec2,vec2,vec2), dist2_point_line"]}
{"id": "C14", "title": "Line/line results fit the result array", "statement": "intersect(p0,p1,p2,p3) never writes past the two-element result array.", "quantifier": "every four points, including zero-length segments", "why_tests_cant": "memory safety over all inputs", "anchors": ["src/src/rmath.cpp: intersect(vec2,vec2,vec2,vec2)", "src/include/rmath.h: line_intersect_result"]}
{"id": "C15", "title": "Distance and projection helpers mean what they say", "statement": "dist2_point_line returns the squared distance from the point to the (infinite) line, point_project_in_segment tells whether the projection of the point falls inside the segment, line::general_from returns coefficients of a line through both points.", "quantifier": "every point and every non-degenerate line", "why_tests_cant": "continuum of inputs", "anchors": ["src/src/rmath.cpp: dist2_point_line, point_project_in_segment, line::general_from"]}
{"id": "C16", "title": "Bezier evaluation", "statement": "bezier_cubic::point_at(0) and point_at(1) are the end points, point_at(t) for t in [0,1] stays in the bounding box of the four control points, and evaluation agrees with de Casteljau's construction.", "quantifier": "every cubic and every t", "why_tests_cant": "continuum", "anchors": ["src/src/rmath.cpp: bezier_cubic::point_at, rough_rect"]}
{"id": "C17", "title": "Bezier splitting traces the same curve", "statement": "split(t) returns two curves that trace exactly the part before and the part after t, meeting at point_at(t); splitting at a list of parameters returns consecutive pieces that trace the curve between consecutive parameters and join end to end.", "quantifier": "every cubic, every list of parameters different from 1", "why_tests_cant": "unbounded list length, continuum of curves", "anchors": ["src/src/rmath.cpp: bezier_cubic::split (both)"]}
{"id": "C18", "title": "Cubic pieces fed to the sweep are y-monotone", "statement": "After add_path has split a cubic at the parameters returned by split_y, every piece is monotone in y.", "quantifier": "every cubic", "why_tests_cant": "depends on sign of the leading coefficient and number of interior extrema; needs all curves", "anchors": ["src/src/rmath.cpp: bezier_cubic::split_y", "src/src/vatti.cpp: read_cubicto"]}
{"id": "C19", "title": "get_boundary encloses the curve", "statement": "bezier_cubic::get_boundary() contains point_at(t) for all t in [0,1] (up to the solver tolerance), and each side is touched by the curve.", "quantifier": "every cubic and every t in [0,1]", "why_tests_cant": "continuum", "anchors": ["src/src/rmath.cpp: bezier_cubic::get_boundary"]}
{"id": "C20", "title": "Quadratic solver", "statement": "resolv_quad_equa returns exactly the real roots whenever no coefficient/discriminant falls in the zero tolerance, never more than two, and nothing for the zero polynomial.", "quantifier": "every coefficient triple", "why_tests_cant": "continuum; tolerance boundaries", "anchors": ["src/src/rmath.cpp: resolv_quad_equa"]}
{"id": "C21", "title": "Cubic solver", "statement": "resolv_cubic_equa returns real roots only (up to the stated tolerance), all of them, at most three, in the three regimes of the discriminant.", "quantifier": "every coefficient quadruple", "why_tests_cant": "continuum; regime boundaries", "anchors": ["src/src/rmath.cpp: resolv_cubic_equa"]}
{"id": "C22", "title": "point_at_y", "statement": "bezier_cubic::point_at_y(y) returns at most three parameters, all in [0,1], and (exact regimes) the curve has ordinate y at each of them and nowhere else.", "quantifier": "every cubic and every y", "why_tests_cant": "continuum", "anchors": ["src/src/rmath.cpp: bezier_cubic::point_at_y"]}
{"id": "C23", "title": "Abscissa of a segment at a given height", "statement": "segment::curr_x(from,y) of a non-horizontal line is the abscissa of the line at height y: it equals the end points' abscissae at their heights, lies between them in between, and is monotone in y; for a cubic it is the abscissa of a curve point at height y whenever that point is unique.", "quantifier": "every segment and height", "why_tests_cant": "continuum", "anchors": ["src/src/segment.h: seg_lineto::curr_x", "src/src/segment.cpp: seg_cubicto::curr_x"]}
{"id": "C24", "title": "Line/cubic intersection", "statement": "Every point reported by intersect(line,cubic) is on the curve at its t1 (in [0,1]) and on the segment at its t0 (in [0,1]); at most three points are reported; every common point found by the root solver is reported.", "quantifier": "every line segment and cubic", "why_tests_cant": "continuum", "anchors": ["src/src/rmath.cpp: intersect(line,bezier_cubic), line::general_from"]}
{"id": "C25", "title": "Cubic/cubic intersection search", "statement": "intersect(cubic,cubic,precise) terminates, reports at most nine points, with parameters in [0,1] and each reported point on the first curve; the subdivision never discards a cell containing a real common point.", "quantifier": "every pair of cubics and every precision", "why_tests_cant": "unbounded recursion depth, continuum of curves", "anchors": ["src/src/rmath.cpp: intersect(bezier_cubic,bezier_cubic,int), data::subdive"]}
{"id": "C26", "title": "Broad phase reports every overlapping pair exactly once", "statement": "scan_line::process calls the pair callback exactly once for every unordered pair of distinct added segments whose bounding boxes intersect, and for no other pair, whatever the memory addresses of the segments are.", "quantifier": "every list of segments with any boxes, every address order", "why_tests_cant": "quadratic number of pairs, order dependence on pointer values (address space layout)", "anchors": ["src/src/scan_line.h: scan_line::add_segment, get_point, process"]}
{"id": "C27", "title": "Contour intake", "statement": "Feeding a contour through add_path produces a closed ring that visits the given points in order with consecutive duplicates dropped, closes back to the start with a line if the last point differs from the first, and drops the duplicated last point otherwise; every ring segment starts where the previous one ends. Contours with fewer than two distinct vertices are ignored.", "quantifier": "every callback sequence starting with a move_to", "why_tests_cant": "unbounded sequences", "anchors": ["src/src/vatti.cpp: read_moveto, read_lineto, read_cubicto, clipper::add_path, insert_vertex_list, set_segment"]}
{"id": "C28", "title": "Local extrema are classified correctly", "statement": "After intake, a vertex is flagged as local minimum exactly when the outline goes down into it (ignoring horizontal steps) and up out of it, and as local maximum symmetrically; minima and maxima alternate around the ring and are equally many; a fully horizontal contour contributes nothing.", "quantifier": "every closed ring, every start vertex, any horizontal runs (also across the start vertex)", "why_tests_cant": "unbounded rings; wrap-around and horizontal run cases", "anchors": ["src/src/vatti.cpp: clipper::insert_vertex_list, add_local_min"]}
{"id": "C29", "title": "Breaking at intersections keeps the outline", "statement": "process_intersect replaces each segment by a chain through its break points in order of parameter, ending in the old end vertex; old vertices keep position and flags, new ones have none; for cubics the pieces trace the old curve.", "quantifier": "every ring and every list of break records", "why_tests_cant": "unbounded number of breaks per segment", "anchors": ["src/src/vatti.cpp: clipper::process_intersect"]}
{"id": "C30", "title": "Intersecting segments get the identical vertex", "statement": "For each intersection found between two segments, both are broken at the bit-identical point, unless the intersection is within 1e-6 of an end parameter; the recorded parameter belongs to the segment it is recorded for, whatever the kinds (line/cubic) and order of the two segments.", "quantifier": "every pair of segments of every kind", "why_tests_cant": "all kind/order combinations and all parameters", "anchors": ["src/src/vatti.cpp: clipper::intersect", "src/src/util.h: flags"]}
{"id": "C31", "title": "Scan lines are visited in strictly increasing order, once each", "statement": "Successive heights returned by pop_scanline during process are distinct; when no height below the current one is inserted they strictly increase, each inserted height is visited exactly once, and the sweep loop terminates.", "quantifier": "every history of insert_scanline/pop_scanline calls", "why_tests_cant": "unbounded histories with duplicates", "anchors": ["src/src/vatti.cpp: clipper::pop_scanline, insert_scanline, process, reset"]}
{"id": "C32", "title": "Active edges stay ordered from left to right", "statement": "Inserting an edge into an active edge list ordered by abscissa keeps it ordered and keeps all other edges in their relative order; both edges of a new local minimum end up in order.", "quantifier": "every active edge list and every newcomer", "why_tests_cant": "all list lengths and ties; horizontals shift one of the two edges", "anchors": ["src/src/vatti.cpp: clipper::insert_into_ael (both), is_valid_ael_order, insert_local_minima_to_ael"]}
{"id": "C33", "title": "Active list linkage", "statement": "insert_into_ael, take_from_ael, delete_active_edge and delete_obl_bound keep the doubly linked lists consistent (next/prev inverse, head correct, no node lost or duplicated) and have the effect of list insertion/removal.", "quantifier": "every well-formed linked list and every node position", "why_tests_cant": "pointer structures of any length", "anchors": ["src/src/vatti.cpp: insert_into_ael, take_from_ael, delete_active_edge, delete_obl_bound"]}
{"id": "C34", "title": "Winding counts are right", "statement": "After recalc_windcnt, every active edge carries the winding number of its own path type on its more-wound side and the winding number of the other path type at its position (parity for even-odd), for every fill rule, provided the edges not marked for recalculation already were right.", "quantifier": "every active edge list (any number of edges, types, directions), every set of marked positions, every fill rule", "why_tests_cant": "unbounded lists; incremental recalculation", "anchors": ["src/src/vatti.cpp: clipper::calc_windcnt, recalc_windcnt"]}
{"id": "C35", "title": "An edge bounds the result exactly when the boolean operation changes across it", "statement": "An active edge is used for output exactly when membership in (subject OP clip), under the chosen fill rule, differs between its left and right side.", "quantifier": "all five operations, four fill rules, both path types and all winding numbers", "why_tests_cant": "winding numbers are unbounded", "anchors": ["src/src/vatti.cpp: clipper::is_contributing"]}
{"id": "C36", "title": "On every scan line the output boundaries delimit exactly the boolean result", "statement": "On every scan line, a position is inside the result region exactly when the number of output-bounding active edges left of it is odd; in particular the number of bounding edges is even when all paths are closed.", "quantifier": "every active edge list, operation, fill rule and position", "why_tests_cant": "unbounded lists", "anchors": ["src/src/vatti.cpp: clipper::update_ouput_bound, is_contributing, calc_windcnt"]}
{"id": "C37", "title": "clip_type::none and empty input give empty output", "statement": "process with clip_type::none, or with no (non-degenerate) input, calls no output callback and terminates.", "quantifier": "every input for none; every fill rule and operation for empty input", "why_tests_cant": "universal over inputs", "anchors": ["src/src/vatti.cpp: clipper::process, is_contributing, build_output"]}
{"id": "C38", "title": "Swapping subject and clip", "statement": "For union, intersection and xor, exchanging the roles of subject and clip paths leaves the set of output-bounding edges unchanged; difference becomes the opposite difference.", "quantifier": "every active edge list and fill rule", "why_tests_cant": "unbounded lists", "anchors": ["src/src/vatti.cpp: clipper::is_contributing, calc_windcnt"]}
{"id": "C39", "title": "Emitted contours are well formed", "statement": "Each emitted contour is one move_to followed by at least one line_to/cubic_to; the `from` passed to each callback equals the `to` of the callback before it; polygons merged into others or incomplete are not emitted.", "quantifier": "every list of output polygons", "why_tests_cant": "unbounded outputs", "anchors": ["src/src/vatti.cpp: clipper::build_output, write_path"]}
{"id": "C40", "title": "Emitted contours are closed", "statement": "Each emitted contour ends at the point where its move_to started, for every history of opening, extending, re-attaching and joining output bounds whose bounds have opposite directions.", "quantifier": "every history of new_output/append/update_bound/join_output", "why_tests_cant": "unbounded histories of merges", "anchors": ["src/src/vatti.cpp: new_output, update_bound, join_output, do_top_of_scanbeam, build_output"]}
{"id": "C41", "title": "Difference, xor and mixed orientations produce the right boundary directions", "statement": "The two bounds of a new output polygon always have opposite directions (required by new_output), for every operation and fill rule.", "quantifier": "every active edge list, operation and fill rule", "why_tests_cant": "all combinations of orientation", "anchors": ["src/src/vatti.cpp: clipper::new_output, update_ouput_bound"]}
{"id": "C42", "title": "Reversing a segment", "statement": "Reversing a segment with its start point and then traversing it visits the same points in the opposite order; reversing twice restores it.", "quantifier": "every line and cubic", "why_tests_cant": "continuum", "anchors": ["src/src/segment.h: seg_lineto::reverse, seg_cubicto::reverse", "src/src/vatti.cpp: clipper::copy_seg, get_seg"]}
{"id": "C43", "title": "Coincident edges are recognised correctly", "statement": "is_same(a,b) returns true only if the two edges trace the same point set between the same end points, and true for an edge and its exact copy or reversal.", "quantifier": "every pair of edges", "why_tests_cant": "all control point combinations", "anchors": ["src/src/vatti.cpp: is_same"]}
{"id": "C44", "title": "process can be repeated", "statement": "Calling process twice on the same processor with the same arguments delivers the same contours both times.", "quantifier": "every input and operation", "why_tests_cant": "history dependence", "anchors": ["src/src/vatti.cpp: clipper::process, reset", "src/src/processor.cpp: processor::process"]}
{"id": "C45", "title": "Circle approximation", "statement": "bezier_cubic::circle returns four cubics that join end to end into a closed curve, are mirror images of each other, and stay within 0.03% of the radius.", "quantifier": "every centre, radius and parameter", "why_tests_cant": "continuum", "anchors": ["src/src/rmath.cpp: bezier_cubic::circle"]}
{"id": "C46", "title": "Arc geometry", "statement": "arc(start,center,sweep) ends on the circle through start at the swept angle; start_rad/end_rad are the angles of the end points around the centre; reverse() is the same arc traversed backwards.", "quantifier": "every start, centre and sweep", "why_tests_cant": "continuum", "anchors": ["src/src/rmath.cpp: arc::arc, arc::reverse, clamp_0_2pi"]}
{"id": "C47", "title": "Custom writer callbacks", "statement": "process with user supplied callbacks delivers the same contours as process into paths; a null callback that is needed is called through a null pointer.", "quantifier": "every output state and callback set", "why_tests_cant": "universal over outputs", "anchors": ["src/src/vatti.cpp: clipper::process (both), write_moveto, write_lineto, write_cubicto, build_output"]}
{"id": "C48", "title": "Half-edge structure: points are unique and breaks preserve edges", "statement": "dcel::find_or_add_point returns the same point object for equal coordinates and never two; vec2 comparison is a strict total order; breaking an edge at its break points yields a chain from its start to its end.", "quantifier": "every sequence of insertions and every set of break points", "why_tests_cant": "unbounded histories", "anchors": ["src/src/decl.cpp: vec2_compare_func, find_or_add_point, line_half_edge::process_break_point, new_line_edge"]}
{"id": "C49", "title": "Face splitting", "statement": "split_face at a repeated vertex splits one cycle into two cycles that together contain exactly the same half edges, and reports nothing exactly when no vertex repeats.", "quantifier": "every face cycle", "why_tests_cant": "unbounded cycles", "anchors": ["src/src/decl.cpp: dcel::split_face"]}
{"id": "C50", "title": "process ends", "statement": "The main loop of process visits a bounded number of scan lines, whatever was added before and in whatever order add_path and process were called; walking along horizontal edges at minima and at the top of a scan beam ends within the contour.", "quantifier": "every reachable processor state, operation, fill rule and callback set; any arithmetic for the coordinates, all IEEE doubles in particular", "why_tests_cant": "termination over unbounded inputs and call histories", "anchors": ["src/src/vatti.cpp: clipper::process, pop_scanline, do_top_of_scanbeam, insert_local_minima_to_ael"]}
{"id": "C51", "title": "Splitting an arc into monotone pieces", "statement": "split_y_num is at least one and is the number of pieces of the arc between its highest and lowest points; split_y writes that many pieces.", "quantifier": "every arc", "why_tests_cant": "continuum", "anchors": ["src/src/rmath.cpp: arc_split_y::arc_split_y, split_y_num, split_y"]}
{"id": "C52", "title": "Rotating and normalising vectors", "statement": "Rotation keeps the length, rotations by two angles add up, rotating back restores the vector; normalising any vector but zero gives length one in the same direction.", "quantifier": "every vector and angle", "why_tests_cant": "continuum", "anchors": ["src/include/rmath.h: vec2::rotated, vec2::normalization, vec2::dist"]}
{"id": "C53", "title": "Twins of half edges", "statement": "After build_twin every half edge has exactly one twin between the same two points in the opposite direction, and the twin of the twin is the edge itself.", "quantifier": "every structure and every order of the edge set", "why_tests_cant": "unbounded structures, address order", "anchors": ["src/src/decl.cpp: dcel::build_twin, line_half_edge::build_twin"]}
{"id": "C54", "title": "All faces become simple", "statement": "The splitting loop at the end of build_face ends, keeps every half edge in exactly one face, and no vertex repeats in any face afterwards.", "quantifier": "every set of disjoint face cycles", "why_tests_cant": "unbounded cycles, termination", "anchors": ["src/src/decl.cpp: dcel::build_face, split_face"]}
{"id": "C55", "title": "Pieces of an edge keep its path type", "statement": "The half edges an edge is broken into have the path type the edge was added with and run from point to point without degenerate pieces.", "quantifier": "every edge, break points and current path type", "why_tests_cant": "history dependence", "anchors": ["src/src/decl.cpp: dcel::new_line_edge, process_break_point, intersect"]}
{"id": "C56", "title": "The output is the boundary of the result", "statement": "For paths whose pieces are in general position after breaking at intersections (pieces meet only in common end points or coincide entirely; horizontal pieces are allowed), process makes no undefined step, and the callbacks draw exactly the non-horizontal pieces that separate the inside of the result (operation and fill rule) from its outside - of several that coincide exactly one -, each once and in its own direction, and horizontal lines exactly where the result lies on one side of them only, all as closed contours.", "quantifier": "every such input of lines and cubics, every operation and fill rule whose boundary is consistently directed (always so for union and intersection with the positive or negative rule); every coordinate type with a total order, arithmetic unspecified", "why_tests_cant": "unbounded inputs; global correctness of the sweep", "anchors": ["src/src/vatti.cpp: clipper::process, insert_local_minima_to_ael, recalc_windcnt, update_ouput_bound, do_top_of_scanbeam, close_output, join_output, new_output, update_bound, build_output"]}
{"id": "C57", "title": "The output encloses exactly the result", "statement": "Under the same conditions the winding number of the delivered contours around any point is one (or minus one for the negative rule) if the point belongs to the result of the operation on the input paths, and zero otherwise.", "quantifier": "every point of the plane not on a side to its left at equal height, every such input, operation and fill rule", "why_tests_cant": "continuum of points, unbounded inputs", "anchors": ["src/src/vatti.cpp: clipper::process", "src/include/river.h: clip_type, fill_rule"]}
{"id": "C58", "title": "Edges lying on each other cancel in pairs", "statement": "Where contributing edges of the inputs coincide, they cancel in pairs: the edges left are contributing edges in order, no two neighbours coincide, and of the edges coinciding with any given one an even number is dropped.", "quantifier": "every active edge list, operation and fill rule", "why_tests_cant": "unbounded lists, any number of coincident edges", "anchors": ["src/src/vatti.cpp: clipper::update_ouput_bound, is_same"]}
{"id": "C59", "title": "Polygons in, polygons out", "statement": "For polygons given as corner lists, added to a new processor as subject and clip: add_path and process make no undefined step and end; what process delivers are closed polygons; and the winding number of the delivered polygons around any point is one (minus one for the negative rule) if the point belongs to the result of the operation on the input polygons, zero otherwise. The polygons may have horizontal sides and may cross, touch and overlap each other and themselves (also share whole sides, like the tiles of a floor), except for several sides leading up out of another contour's local minimum, several sides crossing each other on a horizontal side, overlapping horizontal ledges, ends of a side inside a parallel side that no third side passes, and crossings within 1e-6 of a side's length of its end.", "quantifier": "every such set of polygons, every operation and fill rule whose result lies to the same side of its whole boundary (union and intersection with the positive or negative rule always, with the nonzero rule if all polygons run the same way round, difference against clip polygons running the other way round, all also where sides overlap; without overlapping sides also nonzero if no winding number is negative, even-odd if all are 0 or 1); exact arithmetic in any ordered field", "why_tests_cant": "unbounded inputs, continuum of points; the whole pipeline at once", "anchors": ["src/src/processor.cpp: processor::add_path, process", "src/src/vatti.cpp: clipper::add_path, process_intersect, process", "src/src/scan_line.h: scan_line::process", "src/src/rmath.cpp: intersect"]}
{"id": "C60", "title": "Breaking separates the contours without changing what they enclose", "statement": "After the intersections have been processed, the sides of straight contours have at most end points in common or coincide, every contour consists of the pieces of its sides in order, and every winding number is what it was before.", "quantifier": "every set of straight contours in the position described before, exact arithmetic in any ordered field, any order of equal elements in the sorts", "why_tests_cant": "unbounded inputs, unbounded numbers of crossings per side", "anchors": ["src/src/vatti.cpp: clipper::process_intersect, intersect", "src/src/scan_line.h: scan_line::process"]}
{"id": "C61", "title": "Drawing direction", "statement": "With the non-zero and the even-odd rule the points enclosed by the result do not depend on the direction in which the contours are drawn: drawing every contour backwards changes no point of the result.", "quantifier": "all polygons, operations, the non-zero and even-odd fill rules", "why_tests_cant": "continuum of points, unbounded inputs; relation between two runs", "anchors": ["src/src/vatti.cpp: clipper::insert_local_minima_to_ael, insert_into_ael, recalc_windcnt, resort_ael"]}
{"id": "C62", "title": "Faces of the half-edge structure", "statement": "After lines have been added in any order, dcel::process ends without undefined behaviour; afterwards every half edge has a twin and belongs to exactly one face, and every face is a closed cycle of half edges, linked in both directions, each starting where the one before it ends, that passes no point twice.", "quantifier": "every sequence of add_line and set_current_path_type calls with finite coordinates, every order in which sets of pointers are visited and sorts place equal elements", "why_tests_cant": "unbounded histories, termination of a walk that rewires what it walks on, address order", "anchors": ["src/src/decl.cpp: dcel::process, process_break, build_twin, build_face, point::get_next, split_face", "src/src/dcel.h: half_edge::next, prev"]}
{"id": "C63", "title": "The next half edge of a face", "statement": "Of the half edges that leave a point and are not yet part of a face, a face continues along the first one met turning counter-clockwise from the way it came.", "quantifier": "every point, every number of half edges around it, every state of the walk", "why_tests_cant": "unbounded degree, cyclic order of angles", "anchors": ["src/src/decl.cpp: point::sort, point::get_next, line_half_edge::get_sort_data"]}
{"id": "C64", "title": "Every half edge knows its face", "statement": "After dcel::process the face of every half edge is the face whose cycle it lies on.", "quantifier": "every sequence of added lines", "why_tests_cant": "unbounded histories", "anchors": ["src/src/decl.cpp: dcel::build_face, split_face", "src/src/dcel.h: half_edge::face"]}
{"id": "C65", "title": "Custom readers", "statement": "A user supplied path reader that reports contours (move_to, then line_to / cubic_to) has the same effect as add_path with the path drawn by these calls; each call is taken with the start point the reader reports, and the code never checks that it is the end of the call before. Reporting a line or curve before the first move_to, or an arc, is undefined behaviour; nothing else is.", "quantifier": "every sequence of calls a reader may make, any arithmetic", "why_tests_cant": "unbounded call sequences of user code", "anchors": ["src/include/river.h: path_moveto_func, path_lineto_func, path_cubicto_func, path_arcto_func, path_traverse_funcs, processor::add_path(read_path_func)", "src/src/vatti.cpp: clipper::add_path, path_moveto, path_lineto, path_cubicto"]}
{"id": "C66", "title": "Memory of processor objects", "statement": "As long as processors are neither copied nor assigned from another one, every program that uses each processor during its life time only frees the object behind every processor exactly once, never touches a freed one and leaves none behind (for what process itself allocates see C78). A program that does copy one or assigns one to another never runs to its end without misusing freed memory or leaking.", "quantifier": "every program over any number of processor variables: creation, copying, assignment, destruction, add_path with a path or a reader, process, in any order", "why_tests_cant": "unbounded programs; object life times", "anchors": ["src/include/river.h: class processor", "src/src/processor.cpp: processor::processor, ~processor, add_path, process"]}
{"id": "C67", "title": "Processors are independent", "statement": "However operations on different processors are interleaved, every processor delivers what it delivers when only its own operations are carried out; the program as a whole fails only if one of these does.", "quantifier": "every program over any number of processors without copies, every interleaving", "why_tests_cant": "all interleavings of unbounded histories", "anchors": ["src/src/processor.cpp: processor::add_path, process", "src/src/vatti.h: class clipper"]}
{"id": "C68", "title": "The half edges divide the plane", "statement": "After dcel::process the half edges cover exactly the points of the lines that were added, and two half edges that are neither the same nor twins of each other have at most end points in common. The lines may cross and touch each other in any number, but must not overlap.", "quantifier": "every sequence of added lines with finite coordinates of which no two parallel ones share more than end points, every order of addresses and every result of the sorts; exact arithmetic in any ordered field", "why_tests_cant": "unbounded numbers of lines and crossings, continuum of points", "anchors": ["src/src/decl.cpp: dcel::process, process_break, intersect, line_half_edge::process_break_point, add_break_point, build_twin", "src/src/scan_line.h: scan_line::process"]}
{"id": "C69", "title": "The result is drawn along the input", "statement": "Every sloping side of the polygons process delivers lies on a side of an input polygon and runs in the same direction; it begins and ends at corners of input polygons or points where input sides meet. Every horizontal side delivered lies on horizontal sides of the input. Different sides delivered meet at most in their ends, except that a side may end on the inside of a horizontal one.", "quantifier": "every set of polygons, operation and fill rule as in C59", "why_tests_cant": "unbounded inputs, continuum of points", "anchors": ["src/src/vatti.cpp: clipper::process, process_intersect, write"]}
{"id": "C70", "title": "Presentation of the input does not matter", "statement": "The points enclosed by the result depend neither on the order in which polygons are given, nor on the corner a polygon is begun at, nor on how the sorts place equal elements; and for union, intersection and xor not on which polygons are the subject and which the clip.", "quantifier": "every set of polygons, operation and fill rule as in C59, exact arithmetic, or as in C92, IEEE doubles; all permutations and rotations", "why_tests_cant": "relation between two runs, unbounded inputs, continuum of points", "anchors": ["src/src/processor.cpp: processor::add_path, process", "src/src/vatti.cpp: clipper::process"]}
{"id": "C71", "title": "Moving and stretching", "statement": "Moving all polygons, or stretching them in one or both directions, moves or stretches the enclosed points of the result in the same way.", "quantifier": "every set of polygons, operation and fill rule as in C59; every displacement and every positive factor in each direction that leave the coordinates within the range of doubles; exact arithmetic. With IEEE doubles: polygons as in C92, every displacement that keeps them on the grid", "why_tests_cant": "relation between two runs, unbounded inputs, continuum of points", "anchors": ["src/src/processor.cpp: processor::add_path, process", "src/src/vatti.cpp: clipper::process", "src/src/rmath.cpp: intersect"]}
{"id": "C72", "title": "Polygons with double arithmetic", "statement": "Computing with IEEE doubles instead of exact numbers, process takes no undefined step on polygons as in C59 and delivers the boundary of the result with coordinates off by rounding only.", "quantifier": "every set of polygons, operation and fill rule as in C59, all roundings that IEEE binary64 prescribes", "why_tests_cant": "unbounded inputs; the failing cases are rare among random coordinates", "anchors": ["src/src/vatti.cpp: clipper::process, process_intersect", "src/src/rmath.cpp: intersect", "src/src/segment.cpp: seg_lineto::curr_x"]}
{"id": "C73", "title": "Points and vectors compute as in the plane", "statement": "Sums, differences and multiples of vectors obey the laws of a vector space and undo each other; adding a number adds it to both coordinates; dot and cross give the products of the lengths with cosine and sine of the angle; cross is positive exactly for a turn to the left and zero exactly for vectors on one line; dist2 is zero for the zero vector only.", "quantifier": "all vectors and factors; exact arithmetic in any ordered field", "why_tests_cant": "continuum of values", "anchors": ["src/include/rmath.h: vec2", "src/src/rmath.cpp: operator*"]}
{"id": "C74", "title": "Curved contours", "statement": "For closed contours of straight lines and cubic curves that do not cross, process ends without undefined behaviour; the contours it delivers are closed and made of sides of the input, unchanged and each used at most once; and they wind exactly once around the points that belong to the result and not at all around the others.", "quantifier": "every number of contours of lines and curves, every side rising or falling all the way, with curves for which the library finds the point at a height (in exact arithmetic: all whose height is a cubic polynomial of the parameter with one real root throughout, a quadratic one not flat at the ends, or linear), sides meeting at common ends only and no more than two leading up from a point; every operation and fill rule whose result lies to one side of its boundary; exact arithmetic in any ordered field with roots, any order of equal elements in the sorts", "why_tests_cant": "unbounded inputs, continuum of points", "anchors": ["src/src/vatti.cpp: clipper::add_path, process, process_intersect, write", "src/src/segment.cpp: seg_cubicto::curr_x", "src/src/rmath.cpp: cubic_intersect, line_cubic_intersect"]}
{"id": "C75", "title": "Polygons that do not cross, with double arithmetic", "statement": "Computing with IEEE doubles, process takes no undefined step and ends on polygons with whole-number corners whose sides meet at most in common corners; the polygons delivered wind exactly once around the points that belong to the result and not at all around the others, with no rounding error at all; and every side delivered, other than level ones, is a given side.", "quantifier": "every number of polygons with whole coordinates of magnitude at most 32768, sides meeting at common ends only, otherwise as in C59; every operation and fill rule whose result lies to one side of its boundary; every point of the plane; all roundings that IEEE binary64 prescribes; any order of equal elements in the sorts", "why_tests_cant": "unbounded inputs, continuum of points; rounding makes failures rare and irregular", "anchors": ["src/src/vatti.cpp: clipper::process, process_intersect", "src/src/rmath.cpp: intersect", "src/src/segment.cpp: seg_lineto::curr_x"]}
{"id": "C76", "title": "Areas", "statement": "The area of the polygons process delivers (by the shoelace formula) is the area of the result: any other polygons that wind once around its points have the same area. Union and intersection together have the area of subject and clip together; the union has at least, the intersection at most the area of each.", "quantifier": "every set of polygons as in C59, for the second part every two sets that wind around each point once or not at all; exact arithmetic in any ordered field. With IEEE doubles: polygons as in C92", "why_tests_cant": "unbounded inputs; relation between two runs", "anchors": ["src/src/processor.cpp: processor::add_path, process", "src/src/vatti.cpp: clipper::process"]}
{"id": "C77", "title": "From text to polygons", "statement": "Two texts in the path notation that draw polygons, with any white space and any notation of the numbers the stream accepts, are read without undefined behaviour as exactly these polygons; added as subject and clip, process ends and delivers polygons that wind once around the points that belong to the result and not at all around the others. With IEEE doubles the same holds for polygons as in C75 and C79.", "quantifier": "every set of polygons, operation and fill rule as in C59 (with doubles: as in C75 and C79), every text for them; exact arithmetic, or IEEE doubles and any reader of numbers that gives back the doubles written", "why_tests_cant": "unbounded texts and inputs, continuum of points; the whole chain from text to region", "anchors": ["src/src/river.cpp: make_path", "src/src/processor.cpp: processor::add_path, process", "src/src/vatti.cpp: clipper::process"]}
{"id": "C78", "title": "Memory of a call of process", "statement": "A call of process gives back all memory it takes, at the latest when the processor is destroyed.", "quantifier": "every set of contours and curves, all orders of the comparisons", "why_tests_cant": "unbounded inputs; a leak has no visible effect on results", "anchors": ["src/src/scan_line.h: scan_line::add_segment, get_point", "src/src/vatti.cpp: clipper::process_intersect"]}
{"id": "C79", "title": "Polygons that cross, with double arithmetic", "statement": "Computing with IEEE doubles, process takes no undefined step and ends on polygons with whole-number corners whose sides cross in points with whole coordinates, at positions that doubles can hold (for instance because the parallelogram of the two sides has an area that is a power of two); the polygons delivered wind exactly once around the points that belong to the result and not at all around the others, with no rounding error at all; every side delivered, other than level ones, is a part of a given side between points with whole coordinates.", "quantifier": "every number of polygons with whole coordinates of magnitude at most 32768, any two sides of which meet at common ends only or cross as described, otherwise as in C59; every operation and fill rule whose result lies to one side of its boundary; every point of the plane; all roundings that IEEE binary64 prescribes; any order of equal elements in the sorts", "why_tests_cant": "unbounded inputs, continuum of points; rounding makes failures rare and irregular", "anchors": ["src/src/vatti.cpp: clipper::process, process_intersect", "src/src/rmath.cpp: intersect", "src/src/segment.cpp: seg_lineto::curr_x"]}
{"id": "C80", "title": "Rectangles", "statement": "The union and the intersection of any two families of rectangles parallel to the axes, drawn counterclockwise, however they overlap, touch, share sides or coincide, are computed without undefined behaviour, and the polygons delivered wind exactly once around the points that lie in one of the rectangles (in one of each family) and not at all around the others. Computing with doubles the same holds for rectangles whose widths and heights are powers of two and whose sides do not overlap.", "quantifier": "all finite families of rectangles, no side of which runs within a millionth of the width or height of another close to a parallel side of it (in particular all with whole coordinates less than a million wide and high); positive and nonzero rule; exact arithmetic in any ordered field; with doubles: whole coordinates of magnitude at most 32768", "why_tests_cant": "unbounded numbers of rectangles in every relative position, continuum of points", "anchors": ["src/src/processor.cpp: processor::add_path, process", "src/src/vatti.cpp: clipper::process, process_intersect", "src/src/rmath.cpp: intersect"]}
{"id": "C81", "title": "The drawing of the test program", "statement": "The SVG file the test program writes for a subject and a clip has one path element for every contour of the subject, of the clip and of what process delivers, in this order, each with the commands of the contour and the style of its group; the corners of the result, and the handles of its curves, are marked; all points named are shown inside the view box; the picture keeps the proportions, lines are one and marks four pixels wide. It is undefined exactly if the first command drawn is not a move_to. For polygons as in C59 the elements of the third group enclose exactly the result.", "quantifier": "all paths built through the API, in any arithmetic; the position of points and the last sentence in exact arithmetic", "why_tests_cant": "unbounded inputs and outputs; the effect of a sequence of callbacks", "anchors": ["src/test/main.cpp: svg_data, svg_moveto, svg_lineto, svg_cubicto, read_input, svg_process"]}
{"id": "C82", "title": "Curved contours that cross", "statement": "For closed contours of straight lines and cubic curves that may cross each other and themselves, process ends without undefined behaviour; the contours it delivers are closed and made of parts of sides of the input, each from one end or crossing to the next and none drawn twice; and they wind exactly once around the points that belong to the result and not at all around the others. A line and a curve whose meeting points are given by a polynomial of degree at most two, or one of degree three with one real root, are cut exactly where they meet.", "quantifier": "every number of contours of lines and curves, every side rising or falling all the way, with curves for whose parts between meeting points the library finds the point at a height, no meeting point of two sides closer than a millionth of the side to an end without being that end, no more than two sides leading up from a point, and the intersections of curves with other sides that are neither apart nor straight found by the library at the right place; every operation and fill rule whose result lies to one side of its boundary; exact real arithmetic, any order of equal elements in the sorts", "why_tests_cant": "unbounded inputs, continuum of points", "anchors": ["src/src/vatti.cpp: clipper::add_path, process, process_intersect, set_segment, write", "src/src/segment.cpp: seg_cubicto::curr_x", "src/src/rmath.cpp: cubic_intersect, line_cubic_intersect, bezier_cubic::split"]}
{"id": "C83", "title": "Shapes sent to the debug viewer", "statement": "Each call of show_line, show_rect, show_cubic or show_point makes a request that the viewer's server accepts and answers with success, and for which the window draws exactly the shape asked for: lines, rectangles and curves with the coordinates, pen and brush given (the pen made independent of the scale), points as discs of diameter 1 around them in the pen's colour. Requests with no file or several, and files of an unknown type, draw nothing.", "quantifier": "all shapes, pens and brushes, every binary format for which reading gives back what was written", "why_tests_cant": "unbounded domain of values; two programs that must agree on a format", "anchors": ["debug_util/debug_util.cpp: show_line, show_rect, show_cubic, show_point, push_data", "test/http_server.cpp: User::get_file", "test/qtview.cpp: QtView::paser_file, draw_line, draw_rect, draw_cubic, draw_point"]}
{"id": "C84", "title": "Order of the shapes in the debug viewer", "statement": "Whatever the programs, the server's threads and the window do, in whatever order: what the window has drawn for a program is a beginning of what that program has sent, in the same order, nothing twice and nothing left out; when the program has made all its calls, none refused, and nothing is on its way, its whole drawing has been drawn. The window shows what was drawn since it was last cleared. A shape takes at most four steps, and as long as one has not been drawn some thread can go on.", "quantifier": "any number of programs with any number of calls, all interleavings of programs, server threads, window, button and mouse, all patterns of refused requests", "why_tests_cant": "schedules of threads; unbounded numbers of programs and calls", "anchors": ["debug_util/debug_util.cpp: push_data", "test/http_server.cpp: User::get_file", "test/qtview.cpp: QtView::paser_file_thread, QtView::paser_file, QtView::clear", "test/web_server.cpp: run_web_server"]}
{"id": "C85", "title": "Cross-hair of the debug viewer", "statement": "However drawing, clearing and mouse movements follow each other, the cross-hair is never reached through a pointer to a deleted object; after a movement there is exactly one cross-hair, through the mouse and across the view, and the shapes are untouched.", "quantifier": "all histories of drawing, clearing and mouse events", "why_tests_cant": "unbounded histories; lifetime of objects owned by the scene", "anchors": ["test/qtview.cpp: QtView::mouseMoveEvent, QtView::clear"]}
{"id": "C86", "title": "Closing the debug viewer", "statement": "The viewer can be closed at any time: no thread uses the window or the server object after it has been destroyed.", "quantifier": "all interleavings of requests, server thread, event loop, signals to the process and the end of main", "why_tests_cant": "schedules at the end of the program; lifetimes across threads", "anchors": ["test/web_server.cpp: web_server_controller, web_server_worker::quit_loop", "test/main.cpp: main", "test/http_server.cpp: User::get_file"]}
{"id": "C87", "title": "Drawing paths for debugging", "statement": "draw_path sends the lines and curves of its argument in order, each moved by the offset given, and nothing for moves; for several paths one after the other.", "quantifier": "all paths built through the API, single lines and single curves, all offsets, any arithmetic", "why_tests_cant": "unbounded paths", "anchors": ["src/src/util.cpp: draw_path"]}
{"id": "C88", "title": "Frames side by side", "statement": "The frames handed out by offset_rect have the size asked for, fill columns of five, and no two of them have an inner point in common; what lies in the first frame lies in the n-th after moving it there.", "quantifier": "every size with positive sides, every number of frames, exact arithmetic", "why_tests_cant": "unbounded number of frames", "anchors": ["src/src/util.h: offset_rect"]}
{"id": "C89", "title": "Circles as text", "statement": "The text the test program makes of the four curves of a circle, or of any sequence of curves, with six decimals per number, is read by make_path as one path that starts at the first point and has one curve per curve, in that order; every coordinate has moved by at most half a millionth, numbers with six decimals not at all; equal numbers are read as equal, so that the circle is closed.", "quantifier": "every non-empty sequence of curves with finite double coordinates, every circle", "why_tests_cant": "unbounded domain of numbers; writer and reader must agree on every one", "anchors": ["src/test/main.cpp: main", "src/src/river.cpp: make_path", "src/src/rmath.cpp: bezier_cubic::circle"]}
{"id": "C90", "title": "Commands that draw nothing", "statement": "Lines and curves from the pen position to itself, a line that closes a contour explicitly, and contours all of whose points have the same height (single points and empty contours among them) make no difference: the path is stored exactly as without them, so that every later call behaves the same. Polygons with repeated corners, with the first corner given again at the end, and with flat polygons among them are therefore processed as in C59, the result being the one for the polygons as given.", "quantifier": "every path built through the API with lines and curves, any number of superfluous commands at any places, any arithmetic with ordered numbers; the last sentence: every list of polygons that is as in C59 once the superfluous corners and polygons are gone (every list can be cleaned up so that no side has length zero and no polygon is flat), exact arithmetic; or as in C92 once they are gone, IEEE doubles", "why_tests_cant": "unbounded paths; superfluous commands in any combination", "anchors": ["src/src/vatti.cpp: read_moveto, read_lineto, read_cubicto, clipper::insert_vertex_list, clipper::add_path", "src/src/processor.cpp: processor::add_path, process"]}
{"id": "C91", "title": "Results as input", "statement": "The paths process writes can be added to another processor: the second call sees the polygons delivered by the first, and encloses exactly the points of the second operation applied to the result of the first operation and to the other polygons.", "quantifier": "all polygons as in C59 for the first call; for the second all polygons that are as in C59 together with those delivered by the first; every pair of operations and fill rules whose results lie to one side of their boundaries; exact arithmetic, or IEEE doubles and C92 in the place of C59", "why_tests_cant": "two calls in sequence on unbounded inputs, continuum of points", "anchors": ["src/src/processor.cpp: processor::process, add_path", "src/src/vatti.cpp: write_moveto, write_lineto, clipper::process, clipper::add_path"]}
{"id": "C92", "title": "No infinities and no NaN", "statement": "Given in IEEE doubles, polygons as in C75, C79 or C80 (for doubles), or those with all coordinates multiplied by the same power of two, are processed without undefined behaviour, whatever the signs of the zeros among their coordinates; every coordinate delivered is a finite number, and the values delivered, taken as points of the plane, enclose exactly the result.", "quantifier": "all polygons as in C75, C79 and C80, times every power of two from 2^-100 to 2^100, all representations of their coordinates in doubles; every operation and fill rule whose result lies to one side of its boundary; IEEE binary64 with overflow, infinities, NaN and signed zeros; any order of equal elements in the sorts", "why_tests_cant": "unbounded inputs, continuum of points; comparisons with NaN and the sign of zero matter only in rare cases", "anchors": ["src/src/vatti.cpp: clipper::process, process_intersect, add_path", "src/src/rmath.cpp: intersect", "src/src/segment.cpp: seg_lineto::curr_x"]}
{"id": "C93", "title": "Memory of the half-edge structure", "statement": "dcel::process never touches a half edge it has freed, frees none twice, and leaves no link to a freed one: every entry in the list of a point, every twin, every next and previous half edge and every start of a face is a half edge that exists, points list the half edges at them exactly once, and links in the opposite direction lead back. It frees exactly the half edges for which the broad phase found break points; two half edges exist for every line and break point afterwards. Nothing else is ever freed: when the structure is destroyed its points, half edges and faces stay behind, unless no line was added.", "quantifier": "every sequence of added lines of which no pair overruns the result array of the line intersection (in exact arithmetic: all finite lines), any arithmetic, every order of addresses and every result of the sorts", "why_tests_cant": "unbounded inputs; object life times", "anchors": ["src/src/decl.cpp: dcel::process_break, new_line_edge, find_or_add_point, build_face, split_face, point::remove", "src/src/dcel.h: class dcel"]}
{"id": "C94", "title": "The SVG file as text", "statement": "The text of the SVG file the test program makes for a subject and a clip, numbers written with six decimals: between an svg and a g element that carry the view box, the size, the reflection and the width of lines there is one path element for every contour of the subject, of the clip and of what process delivers, in this order, in the colours of its group; make_path reads the data of each (in lower case) as that contour with every coordinate rounded to six decimals; then come a rect element for every corner and control point of the result and a line element for every handle, and nothing else. For polygons as in C92 the third group, read again, is a rounded copy of polygons that enclose exactly the result.", "quantifier": "all paths built through the API with finite double coordinates for which process delivers finite coordinates; the last sentence: all polygons as in C92 (crossing), every operation and fill rule as there; IEEE binary64", "why_tests_cant": "unbounded inputs and texts; writer and reader must agree on every number", "anchors": ["src/test/main.cpp: svg_data::get_svg, svg_data::hints_add_line, svg_moveto, svg_lineto, svg_cubicto, svg_process", "src/src/river.cpp: make_path"]}
{"id": "C95", "title": "Size of the result", "statement": "The callbacks process makes on a new processor are bounded in number by a polynomial in the number of commands of the paths added: every command is stored as at most three vertices, breaking at crossings adds at most eighteen vertices for every pair of vertices stored, and for v vertices after breaking there are at most s (s + 1) (2 s + 1) callbacks with s = v (2 v + 3) + 1; no input, however badly conditioned, makes the output grow beyond this.", "quantifier": "all paths built through the API with lines and curves, every operation and fill rule, any arithmetic (IEEE doubles with infinities and NaN among them), any order the sorts may leave equal elements in", "why_tests_cant": "unbounded inputs; a bound that must hold for every rounding error", "anchors": ["src/src/vatti.cpp: clipper::process, process_intersect, clipper::intersect, new_output, build_output", "src/src/scan_line.h: scan_line::process", "src/src/rmath.cpp: intersect"]}
{"id": "C96", "title": "Processing the half-edge structure again", "statement": "dcel::process can be called again, with or without lines added since: every call ends without undefined behaviour, and afterwards every half edge has a twin and lies in exactly one face, faces being closed, connected and passing no point twice; a call that finds nothing to do leaves the structure as it is.", "quantifier": "every history of adding lines and calling process, of which no pair of lines overruns the result array of the line intersection, any arithmetic, every order of addresses and every result of the sorts", "why_tests_cant": "unbounded histories; object life times", "anchors": ["src/src/decl.cpp: dcel::process, process_break, build_twin, build_face, split_face", "src/src/dcel.h: class dcel"]}
{"id": "C97", "title": "Zooming in the debug viewer", "statement": "Turning the wheel with Alt pressed enlarges or reduces the picture without distorting it: both directions are scaled by the same amount, 1 plus a twentieth of a percent for every eighth of a degree, y still points up, and the picture never vanishes or turns over; the order of the events does not matter; without Alt the scale stays as it is; turning the wheel back by the same angle gives the former scale.", "quantifier": "every sequence of wheel events, exact arithmetic; the shape and the sign also for IEEE doubles", "why_tests_cant": "unbounded histories of events; rounding accumulates", "anchors": ["test/qtview.cpp: QtView::QtView, QtView::wheelEvent"]}
