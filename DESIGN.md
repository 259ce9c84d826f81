# Formal model of drink-crow/river in Lean 4

Source under study: `/repo` (C++17), read as text and never run. The model is in `/verif/lean/Verif`, the properties in
`/verif/properties.jsonl`, the status of each in `/verif/MANIFEST.json`, the edits tried against the theorems in
`/verif/seeded/LOG.jsonl`.

* `Verif/Num.lean`: the number interface. `Verif/Model/*`: the code, function by function, each definition citing its lines.
* `Verif/Spec/*`: small definitions used to state properties, independent of the model's helper functions.
* `Verif/Lemmas/*`: auxiliary facts. `Verif/Props/*`: the property theorems, each with a concrete case that meets its
  hypotheses.

## Number model

The library computes with `double`. Every function is modelled once, generically over a type `K` with
`[FNum K]` (`Verif/Num.lean`): the operations the code uses (`+ - * /`, negation, `<`, `<=`, `==`, literals,
`isfinite`, and for the solvers `sqrt`, `cbrt`, `cos`, `atan`, ...) **without any law**. Theorems come at three levels:

1. *any arithmetic* - `[FNum K]`, no law: holds for IEEE doubles with rounding, overflow and NaN as well.
2. *ordered* - `[FNum K] [LinearOrder K] [LawfulOrd K]`: comparisons agree with a linear order (doubles without NaN,
   `-0 = +0`), arithmetic still arbitrary (any rounding).
3. *exact* - `K = Ext ℝ` (or a field): arithmetic without rounding, in `Ext` with IEEE special values: division
   by zero gives ±inf/NaN, comparisons with NaN are false, so error branches are the code's, not those of a totalised
   division. Zero is unsigned in `Ext` (signed zero is not modelled unless said).

4. *doubles* - `Dbl` (`Verif/Model/Double.lean`): IEEE binary64 with signed zeros, infinities, NaN and rounding to nearest
   even, computed exactly inside the kernel; `+ - * /` and comparisons are complete, roots and trigonometric functions are
   dummies that the straight-line code does not call. Used for the witnesses of C72 and for C92. What the comparisons, the special values,
   `std::remainder` and the conversion to `int` compute is stated and proved separately in `Props/DoubleOrder.lean`.
   The parts of the code that only compare numbers (C08, C09, C26, C28, C31, C32, C34, C36) are proved right for all doubles but NaN in
   `Props/IeeeOrder.lean`, in terms of the values of the doubles as extended reals (`Spec/IeeeOrder.lean`).

5. *finite doubles* - `R64` (`Verif/Props/Double.lean`): correctly rounded, `+0 = -0`, no overflow; a linear order, so the ordered
   theorems apply. C75, C79 and C80 are proved here, with an analysis of the rounding errors for polygons on a grid, and carried over to
   level 4 (`Dbl`) by a simulation: on small multiples of a power of two every step gives the same with both (`Lemmas/Sim*.lean`, C92).

Elsewhere rounding error analysis is *not* done; exact theorems are labelled as such.

Undefined behaviour (null or end iterator dereferenced, array overflow, `back()` of an empty vector) and inner loops that
never end are the distinct outcome `none`. Unspecified choices are universally quantified: addresses of objects (iteration
order of pointer sets), the result of `std::sort` on equivalent elements.

## Properties and proof plan

Where the unchanged code violates a property, the negation is proved on a concrete witness and the
strongest true part found is proved with suffix `_partial`.

| Id | Property | What is modelled | How it is proved | Status |
|---|---|---|---|---|
| C01 | Path replay | `path` as two lists; commands append, `traverse` reads by index | induction over the commands with the read offset as invariant | proved |
| C02 | Null callbacks are skipped safely | the four callbacks as optional functions | same induction, callbacks replaced one by one | proved |
| C03 | Traversal stays inside the coordinate buffer | a read past the end of the coordinate list is `none` | exact condition on the tag list, by induction | proved |
| C04 | Moving a path | move constructor returns new and old object | by cases | proved |
| C05 | make_path round trip | recursive descent model of the Qi grammar, skipper and semantic actions | round trip with an independent printer, induction over commands | proved |
| C06 | make_path takes the longest valid prefix and never rejects | as C05; the parse result is the longest valid prefix | induction over the input length against a separate grammar relation | proved |
| C07 | make_path is only safe when drawing starts with a moveto | `back()` of an empty vector is undefined | exact condition on the parsed commands | proved |
| C08 | rect::from is the tight bounding box | `rect::from` as a fold | fold invariant: least box containing all points | proved |
| C09 | rect::intersect decides overlap | the four comparisons | order reasoning | proved |
| C10 | rect::inflated grows the box | as written (min twice) | exact condition plus counterexample | partial |
| C11 | Line/line intersection is sound | `intersect` over numbers with infinities and NaN | case analysis of the branches, field arithmetic | proved |
| C12 | Line/line intersection is complete for non-parallel segments | as C11 | Cramer's rule | proved |
| C13 | Collinear overlaps are reported | as C11 | exact description of the collinear branch, counterexamples for the rest | partial |
| C14 | Line/line results fit the result array | a third entry in the array of two is `none` | case analysis, counterexample for a degenerate segment | partial |
| C15 | Distance and projection helpers mean what they say | three helpers as written | algebra; counterexamples where the name promises more | partial |
| C16 | Bezier evaluation | `point_at` | polynomial identity, convexity | proved |
| C17 | Bezier splitting traces the same curve | `split`, loop over parameters | polynomial identities, induction over the parameters | proved |
| C18 | Cubic pieces fed to the sweep are y-monotone | `split_y`, `split` as used by intake | sign of the derivative between its roots; counterexample for descending roots | partial |
| C19 | get_boundary encloses the curve | `get_boundary` | monotonicity between extrema | proved |
| C20 | Quadratic solver | `resolv_quadratic_equa` | algebra | proved |
| C21 | Cubic solver | `resolv_cubic_equa`, real `cbrt`, `atan`, `cos` | Cardano, trigonometry; counterexample (NaN) | partial |
| C22 | point_at_y | `point_at_y` | from C20, C21 | partial |
| C23 | Abscissa of a segment at a given height | `curr_x` of both segment kinds | algebra; from C22 for curves | partial |
| C24 | Line/cubic intersection | rotation and solver call as written | from C22 | partial |
| C25 | Cubic/cubic intersection search | work list loop, tolerance, 9-entry array, `std::sort` = any sorted permutation | measure for termination, loop invariant for soundness and completeness | proved |
| C26 | Broad phase reports every overlapping pair exactly once | event list, current set in any address order | invariant over the events | proved |
| C27 | Contour intake | callbacks of the path reader building rings | induction over callbacks | proved |
| C28 | Local extrema are classified correctly | flagging loop | induction along the ring | proved |
| C29 | Breaking at intersections keeps the outline | break records, sorting, ring refinement | induction over records and rings | proved |
| C30 | Intersecting segments get the identical vertex | dispatch over segment kinds | by cases, then C29 | proved |
| C31 | Scan lines are visited in strictly increasing order, once each | priority queue as sorted list | induction | proved |
| C32 | Active edges stay ordered from left to right | insertion with the order test as parameter, then with the code's test | induction; counterexample for flat minima | partial |
| C33 | Active list linkage | `prev`/`next` as functions on node numbers | refinement: pointer operations realise list operations | proved |
| C34 | Winding counts are right | `calc_windcnt`, `recalc_windcnt` on the list | induction, specification = prefix sums of directions | proved |
| C35 | An edge bounds the result exactly when the boolean operation changes across it | `is_contributing` | finite case analysis over integers with unbounded counts | proved |
| C36 | On every scan line the output boundaries delimit exactly the boolean result | contributing edges of a counted list | parity induction | proved |
| C37 | clip_type::none and empty input give empty output | whole `process` | invariant of the sweep: no bound is ever created | proved |
| C38 | Swapping subject and clip | role exchange on lists | equivariance | proved |
| C39 | Emitted contours are well formed | `build_output`, callbacks | induction over polygons | proved |
| C40 | Emitted contours are closed | the store of bounds and polygons, every operation on it | invariant over histories; counterexamples for whole calls | partial |
| C41 | Difference, xor and mixed orientations produce the right boundary directions | whole `process` | alternation of contributing edges; counterexamples | partial |
| C42 | Reversing a segment | `segment::reverse` | algebra | proved |
| C43 | Coincident edges are recognised correctly | `is_same` | exact condition; counterexample | partial |
| C44 | process can be repeated | two and more calls of `process` on one `Clipper` | counterexample; invariant between the calls (broken contours stay in general position, the finished polygons are kept), C56/C57 started from any finished polygons | partial |
| C45 | Circle approximation | `make_circle` constants | polynomial bounds | proved |
| C46 | Arc geometry | `arc` over the reals, `atan2` = argument | trigonometry; counterexamples | partial |
| C47 | Custom writer callbacks | `process` with arbitrary callbacks | simulation against the list writer | proved |
| C48 | Half-edge structure: points are unique and breaks preserve edges | point set with the code's comparator, break chains | induction over operations | proved |
| C49 | Face splitting | links of a face as functions | loop invariant: indexed prefix of a cycle | proved |
| C50 | process ends | main loop with a round counter | measure: steps each edge has left to a local maximum of its contour; minima and maxima alternate in any arithmetic | proved |
| C51 | Splitting an arc into monotone pieces | count as written, empty `split_y` | counterexamples; floor and ceiling of the angles in half turns | partial |
| C52 | Rotating and normalising vectors | `rotated`, `normalization` | trigonometry | proved |
| C53 | Twins of half edges | `build_twin` | induction over edges | proved |
| C54 | All faces become simple | stack of faces | measure: number of repeated points | proved |
| C55 | Pieces of an edge keep its path type | as C48 | counterexamples | partial |
| C56 | The output is the boundary of the result | the whole of `process` after breaking | invariant of the sweep: active edges are the sides at each height in order, counts are winding numbers, of coinciding contributing edges all but at most one cancel, open output polygons are chains ending at contributing edges; horizontal runs are walked by the edges that meet them and drawn when an output polygon changes hands at a height; induction over scan lines | proved |
| C57 | The output encloses exactly the result | as C56 | winding number along a horizontal line through the sorted sides | proved |
| C58 | Edges lying on each other cancel in pairs | first loop of `update_ouput_bound` | stack invariant, parity | proved |
| C59 | Polygons in, polygons out | intake, `process_intersect`, sweep and output together | C27, C28 for the stored rings, C60 for the broken ones, C56/C57 for the sweep; orientation from winding numbers of points just left and right of a side; where sides overlap, from the signs of the winding numbers of each polygon, which breaking preserves | proved |
| C60 | Breaking separates the contours without changing what they enclose | `process_intersect` with exact line intersection | every common point of two sides is an end or recorded as a break of both; pieces are parameter intervals; telescoping sum of crossings | proved |
| C61 | Drawing direction | two runs of `process` | counterexamples; C59 for both directions; the sides of a reversed polygon are the swapped sides | partial |
| C62 | Faces of the half-edge structure | the whole of `dcel::process`: broad phase, breaking, twins, sorting, walking, splitting | invariant: point lists name exactly the existing half edges; twins balance arrivals and departures at every point, so the walk always finds a free half edge; measure: free half edges | proved |
| C63 | The next half edge of a face | `point::sort` as any sorted permutation, `get_next` | first match in a rotated sorted list | proved |
| C64 | Every half edge knows its face | `face` assignments of `build_face` | counterexample for every input; exact description of the field | partial |
| C65 | Custom readers | the reader interface as a list of calls with their arguments | simulation of `add_path`; induction over the calls | proved |
| C66 | Memory of processor objects | heap and variables of type `processor`; freed objects are distinguished | ownership invariant; counting objects against variables | proved |
| C67 | Processors are independent | as C66 | projection of a run to one variable, induction over the program | proved |
| C68 | The half edges divide the plane | as C62, with exact line intersection | every common point of two lines is recorded as a break point of both or is an end of both; break points sorted along the line cut it into intervals; the half edges are a permutation of the intervals | proved |
| C69 | The result is drawn along the input | as C59 | pieces of broken sides are intervals between break points, which are corners or common points; the sides delivered are pieces (C56); above and below each level the winding numbers decide where level sides may lie | proved |
| C70 | Presentation of the input does not matter | two runs of `process` | general position is invariant under permutation and rotation of corner lists; C59 for both runs | proved |
| C71 | Moving and stretching | two runs of `process` | every condition of general position and the winding number are invariant under stretching; C59 for both runs | proved |
| C72 | Polygons with double arithmetic | IEEE binary64 (`Model/Double.lean`): sign, zeros, infinities, NaN, rounding to nearest even with subnormals; the model of the library is generic in the number type | evaluation by the kernel for the counterexamples; the ordered theorem C56 for the ordered model of finite doubles | partial |
| C73 | Points and vectors compute as in the plane | vector operators as written | algebra in an ordered field | proved |
| C74 | Curved contours | as C59, with curves: `curr_x` of a curve, the choice of the intersection function, `cubic_intersect`, `line_cubic_intersect` | nothing is broken, because nothing is reported; every height is reached at one parameter only; the sides in the order of their abscissas are an arrangement as in C56; winding numbers of curves instead of segments | proved |
| C75 | Polygons that do not cross, with double arithmetic | as C72, over finite doubles without the sign of zero | error bounds: differences and products of grid coordinates are exact, quotients are off by less than the gap between different exact values, so no comparison goes the wrong way; the arrangement computed with doubles is the exact one and C56 applies | proved |
| C76 | Areas | as C59; shoelace formula in `Spec/Area.lean` | the area between the sides and an axis up to a height grows from one corner height to the next by an amount that the winding numbers determine (summation by parts in both directions) | proved |
| C77 | From text to polygons | `make_path`, `add_path`, `process` in sequence | the texts read back as the polygons (C05), then C59 | proved |
| C78 | Memory of a call of process | the blocks taken by `scan_line::add_segment` and `get_point`; there is no `delete` | induction over the sides with the set of abscissas as invariant | partial |
| C79 | Polygons that cross, with double arithmetic | as C75; the intersection of two sides with its positions | the breaks found with doubles are those of exact arithmetic, so the sides are broken exactly, and C75's argument applies to the pieces | proved |
| C80 | Rectangles | as C59 and C79; rectangles in `Spec/Tiles.lean` | rectangles drawn counterclockwise are in general position whatever their relative position: no ledges, and nothing runs between the sides of a minimum from the right to the left; then C59; with doubles, C79 | proved |
| C81 | The drawing of the test program | the callbacks, `get_svg` and `svg_process` of the test program, texts as lists of pieces | invariant of the drawing state over contours and commands; C47, C27 and C59 for the input and the result | proved |
| C82 | Curved contours that cross | as C74, with sides that cross: `process_intersect` with curves, `bezier_cubic::split` at several parameters | the breaks recorded are exactly the common points; every side becomes a chain of its parts between neighbouring common points; two parts do not cross (the abscissa is a continuous function of the height; intermediate value theorem); the parts together contribute to winding numbers what the side does; then as C74 | proved |
| C83 | Shapes sent to the debug viewer | `show_*`, `push_data`, the route and handler of the server, `paser_file`, `draw_*`; Qt's stream operators as a parameter | each stream is read back piece by piece; all four kinds | proved |
| C84 | Order of the shapes in the debug viewer | programs, requests, server threads, signal queue and window as a transition system whose steps interleave freely | invariant per program: sent = drawn ++ queued ++ arrived, at most one request on its way; potential function for the number of steps | proved |
| C85 | Cross-hair of the debug viewer | the scene as objects with addresses, `mouseMoveEvent` and `clear` with an undefined outcome for a deleted object | invariant: both pointers null and no cross-hair, or both pointing to the two lines of it; induction over the schedule of C84 | proved |
| C86 | Closing the debug viewer | `main`, controller, worker and requests as a transition system with undefined outcomes | false: two witness schedules; invariants over all schedules for the part that holds | partial |
| C87 | Drawing paths for debugging | the four `draw_path` functions as lists of calls of `show_*` | C01 for the traversal, induction over the events; witness for the curve | partial |
| C88 | Frames side by side | `offset_rect` | induction over the calls of `next` gives quotient and remainder by five | proved |
| C89 | Circles as text | `%f` of `boost::format` on doubles, the text made in `main`, `make_path` | the digits written are read back (induction over the digits), the text is a sequence of commands as in C06 | proved |
| C90 | Commands that draw nothing | `read_moveto`, `read_lineto`, `read_cubicto`, `insert_vertex_list` (Ring.lean) | superfluous commands append no segment; the closing line is the one `insert_vertex_list` adds; flat contours have no extremum; then C59; with IEEE doubles by the simulation of C92 | proved |
| C91 | Results as input | `process` writing to `paths`, `add_path` of these | the commands written determine the contours; the closing line is superfluous (C90); C59 twice; with IEEE doubles by the simulation of C92 | proved |
| C92 | No infinities and no NaN | as C75, over IEEE doubles (`Dbl`) | simulation: the run with IEEE doubles and one with rounded numbers (`R64`) correspond step by step, as all numbers that occur are small, and far from zero if not zero, so that rounding commutes with the power of two; for every outcome of the sorts of one there is one of the other; then C75, C79, C80 | proved |
| C93 | Memory of the half-edge structure | `process_break`, `build_twin`, `build_face` with freed half edges marked, so that use after free and double free are undefined (Dcel.lean, Walk.lean) | invariant: the lists of the points name exactly the half edges that exist, once; counting half edges through every loop | proved |
| C94 | The SVG file as text | `get_svg` and the format strings of the callbacks with the directive `%f` of C89 (SvgText.lean) | the characters of numbers do not end a tag or a value; the reader of C06 with the numerals of C89, command by command; then C81 and C92 | proved |
| C95 | Size of the result | as C50: `add_path`, `process_intersect`, the sweep, the output of `process` | every output operation adds at most two polygons and two segments at a time; scan lines bounded by the measure of C50; breaks bounded pair by pair | proved |
| C96 | Processing the half-edge structure again | `process` on the links and faces left by earlier calls; half edges deleted by `process_break` cannot be followed (DcelAgain.lean) | invariant over histories: the faces are those of the state after the last call; walking does not touch them; splitting an old face follows it to the first deleted half edge | partial |
| C97 | Zooming in the debug viewer | `QtView::wheelEvent` on the two scale factors of the view (Zoom.lean) | the scale is a product of factors; with doubles rounding commutes with the sign, and a product by more than one half does not underflow | partial |

## Trusted base

* Lean 4.33.0 kernel. Axioms: every theorem depends on a subset of `propext`, `Classical.choice`, `Quot.sound`
  (checked with `#print axioms`; no axiom is declared in `/verif`). No `sorry`, `native_decide`, `bv_decide`,
  `implemented_by`, `unsafe`.
* `decide +kernel` is used for concrete witnesses only: the kernel evaluates the model on literals.
* Faithfulness of the hand-written model to the cited C++ lines.
* For the theorems about doubles: expressions of type `double` are evaluated operation by operation in IEEE binary64 with rounding to
  nearest (no fused multiply-add, no excess precision), as compilers do on x86-64 by default.
* The number interface: for the *ordered* theorems that `<`, `<=`, `==` on the doubles that occur form a linear order (no
  NaN); for the *exact* theorems that rounding is absent.
* Sorting with NaN: the C++ standard leaves the result of `std::sort`, `std::list::sort` and of a priority queue undefined when
  NaN makes `<` inconsistent. The theorems for *any* arithmetic (C50, C95 and others) take these containers to end up in the
  order that insertion gives (`insertNum`, `sortItems`), for NaN too; for all other doubles the order is the only one possible,
  or every permitted order is considered (`Env.Ok`, `MinSort`).

## Modelled

| File | Modelled | Not modelled |
|---|---|---|
| `path.cpp` | `path`: commands, `traverse`, move construction | - |
| `river.cpp` | `make_path` (grammar, skipper, `double_` as exact decimal or rounded to a double, actions) | the Boost libraries themselves |
| `rmath.h/.cpp` | vectors, rectangles, lines, quadratic and cubic solver, Bezier curves, line/line, line/cubic, cubic/cubic intersection, circle approximation, arcs | drawing of the debug build; the arcs that counting the pieces builds and discards |
| `segment.h/.cpp` | both segment kinds: `reverse`, `curr_x`, boundary | arc segments (never created by the library) |
| `scan_line.h` | the broad phase completely, with the blocks of memory it takes | - |
| `vatti.h/.cpp` | intake, breaking, sweep, winding counts, active edge list (also at pointer level), output bounds (links at field level), output | `#if RIVER_GRAPHICS_DEBUG` drawing; open paths (`is_open` is constantly false); memory pools (objects are numbers and never freed, as in the code) |
| `processor.cpp`, `river.h` | `add_path` with paths and with custom readers, both `process` functions, construction, copying and destruction of processors | - |
| `dcel.h`, `decl.cpp` | all of it: points, lines, broad phase, breaking, twins, sorting around a point, `get_next`/`get_prev`, walking and splitting faces, `process`, also called repeatedly | graphical debugging |
| `src/test/main.cpp` | the SVG writer and `svg_process`, the text of the SVG and the circle written with `%f` | writing the file, the result of the fixed example of `main` |
| `util.h/.cpp`, `debug_util` | `draw_path`, `offset_rect`, `show_*`, `push_data` | curl and its tracing |
| `test/` (the viewer) | the request handler, `paser_file`, drawing, clearing, cross-hair, queueing between threads, start and end of server and window, the scale after zooming | Qt and drogon themselves, scrolling, widgets and layout |
| `cadc` | - | a file format description without code |

Simplifications inside the modelled parts are stated in the comment of the definition concerned. The main ones: a ring is a
list instead of a circular linked list of vertices; the active edge list is a list in the sweep model, and
`Props/Linked.lean` proves separately that the pointer operations realise these list operations; pointers to bounds and
polygons are numbers in order of creation; a loop whose end is not evident carries a step counter, and termination theorems
say which counter is always enough.

## Defects found in the code (each with a proved witness)

* `rect::inflated` shrinks the far corner (C10); `intersect` of lines misses collinear overlaps and overflows its array for a
  degenerate first segment (C13, C14); `dist2_point_line` measures to the segment, `point_project_in_segment` tests one side
  only (C15).
* `split_y` can return its parameters in descending order, so pieces are not monotone (C18); `resolv_cubic_equa` returns NaN
  for y^3+q, q>0, which propagates to `point_at_y`, `curr_x` and line/cubic intersection (C21-C24).
* `make_path` and `add_path` dereference null for a path that draws before moving (C07, C27).
* The debug viewer destroys its window without waiting for the server, whose threads call it, and keeps a pointer to a worker that
  deletes itself (C86); `draw_path` of a single curve ignores its offset (C87); a wheel event of
  -2000 or less makes the picture vanish for good or turns it over (C97).
* Both edges of a flat local minimum running to the left are inserted in the wrong order (C32).
* A local minimum standing on a vertex of another contour: the second edge of the minimum is searched for only from the
  first one on, and union and intersection come out wrong (C32, `touching_minimum_wrong`).
* The union of two overlapping axis-parallel squares drawn clockwise is undefined behaviour or loses a square, because the
  second edge of a flat local minimum is inserted relative to the first one (C61, `clockwise_union_ub`, `clockwise_union_loses`).
* Sides crossing each other on a horizontal side that is walked to the right are not re-sorted (C32, `flat_crossing_wrong`).
* The last output bound keeps a stale `next`, so the list can become cyclic (C33).
* `process` on difference, xor and even-odd input can dereference null, emit open contours or lose a contour (C40, C41); the
  output list is not cleared between calls (C44).
* `is_same` accepts curves with exchanged control points (C43); `arc` computes `end_rad` around the origin, `reverse` keeps
  the sweep, `split_y` is empty, and counting the pieces
  overflows an `int` for angles of 2^31 + 2 half turns and more (C46, C51).
* Half edges: pieces take the current path type, shared end points create edges of length zero, the break order is not a
  strict weak order (C48, C55); faces lie on the right of their half edges although `dcel.h` says left, and the last half edge of
  every face has a null `face`, and half edges of a face that is split off keep naming the face it was part of (C63, C64).
* `processor` owns a raw pointer but has the implicit copy operations: a program that copies one frees its memory twice
  (C66). Reporting a wrong start point from a custom reader changes the geometry silently (C65).
* With doubles the union of rectangles with small integer coordinates can be undefined behaviour, because the computed crossing
  points are off and a side then changes its place; a union of triangles can vanish; corners of results of axis-parallel input
  can leave the grid; `clamp_0_2pi(-0.0)` is 2 pi (C72).
* Clockwise rectangles with small whole coordinates can be undefined behaviour under the negative rule, also in exact arithmetic (C80).
* Every call of `process` leaks the records of the broad phase (C78).
* Overlapping lines of the half-edge structure are not broken, so its half edges overlap (C68).
* Calling `dcel::process` again follows dangling pointers as soon as a half edge of the last call is broken, and doubles all half edges
  otherwise (C96).
