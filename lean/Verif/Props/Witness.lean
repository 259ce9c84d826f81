import Verif.Props.Terminate

/-! # Concrete runs of `process` (exact rational arithmetic)

Non-trivial cases for the general theorems, and counterexamples to the claims that the code does not meet. All paths are
straight-line polygons, given by their corners. -/

namespace River

/-- The polygon with the given corners (closed implicitly). -/
def polygon (l : List (ℚ × ℚ)) : Path ℚ :=
  match l with
  | [] => Path.empty
  | p :: l => l.foldl (fun P q => P.lineto ⟨q.1, q.2⟩) (Path.empty.moveto ⟨p.1, p.2⟩)

/-- The local minima sorted by insertion. -/
def minsort (l : List (LocMin ℚ)) : List (LocMin ℚ) := insSort (fun a b => a.less b) l

/-- A new processor holding the given polygons. -/
def holding (subject clip : List (List (ℚ × ℚ))) : Option (Clipper ℚ) :=
  ((Clipper.new (K := ℚ)).addPath (subject.map polygon) .subject).bind (fun c => c.addPath (clip.map polygon) .clip)

/-- What one call of `process` on a new processor tells the callbacks. -/
def runOnce (ct : ClipType) (fr : FillRule) (subject clip : List (List (ℚ × ℚ))) : Option (Option (List (Event ℚ))) :=
  (holding subject clip).bind (fun c => (c.process demoEnv minsort 60 ct fr Path.recorder []).map (fun r => r.map (·.2)))

/-- The contours of a callback sequence as point lists, without the `from` arguments. -/
def points (es : List (Event ℚ)) : List (List (ℚ × ℚ)) :=
  es.foldr (fun e acc =>
    match e.cmd, acc with
    | .moveto p, [] => [[(p.x, p.y)], []]
    | .moveto p, c :: acc => [] :: ((p.x, p.y) :: c) :: acc
    | .lineto p, [] => [[(p.x, p.y)]]
    | .lineto p, c :: acc => ((p.x, p.y) :: c) :: acc
    | .cubicto _ _ p, [] => [[(p.x, p.y)]]
    | .cubicto _ _ p, c :: acc => ((p.x, p.y) :: c) :: acc) [] |>.tail

/-- The corners of the contours delivered by one call of `process` on a new processor. -/
def runPts (ct : ClipType) (fr : FillRule) (subject clip : List (List (ℚ × ℚ))) : Option (Option (List (List (ℚ × ℚ)))) :=
  (runOnce ct fr subject clip).map (fun r => r.map points)

/-! ## runs as expected (the hypotheses of C37, C39, C47 are met) -/

/-- Union of two overlapping squares. -/
theorem run_union : runPts .union .positive [[(0, 0), (10, 0), (10, 10), (0, 10)]] [[(5, 5), (15, 5), (15, 15), (5, 15)]] =
    some (some [[(0, 0), (10, 0), (10, 5), (15, 5), (15, 15), (5, 15), (5, 10), (0, 10), (0, 0)]]) := by
  decide +kernel

/-- Intersection of the same squares. -/
theorem run_intersection :
    runPts .intersection .positive [[(0, 0), (10, 0), (10, 10), (0, 10)]] [[(5, 5), (15, 5), (15, 15), (5, 15)]] =
    some (some [[(5, 5), (10, 5), (10, 10), (5, 10), (5, 5)]]) := by
  decide +kernel

/-- Union of two crossing quadrilaterals without horizontal sides: a contour with eleven corners. -/
theorem run_star : runPts .union .positive [[(0, 0), (4, 1), (5, 5), (1, 4)]] [[(2, -1), (6, 3), (3, 6), (-1, 3)]] =
    some (some [[(2, -1), (4, 1), (6, 3), (24 / 5, 21 / 5), (5, 5), (21 / 5, 24 / 5), (3, 6), (-1, 3), (5 / 16, 5 / 4),
      (0, 0), (20 / 19, 5 / 19), (2, -1)]]) := by
  decide +kernel

/-- C37 on a processor that does hold paths. -/
theorem run_none : runPts .none .nonZero [[(1, 4), (2, 3), (7, 7)]] [[(4, 6), (6, 8), (6, 2)]] = some (some []) := by
  decide +kernel

/-- A processor holding polygons is reachable through the API. -/
theorem holding_reach (subject clip : List (List (ℚ × ℚ))) (c : Clipper ℚ) (h : holding subject clip = some c) :
    c.Reach demoEnv := by
  have key : ∀ l : List (ℚ × ℚ), ∃ cs, polygon l = Path.build cs := by
    intro l
    cases l with
    | nil => exact ⟨[], rfl⟩
    | cons p l =>
      refine ⟨.moveto ⟨p.1, p.2⟩ :: l.map (fun q => .lineto ⟨q.1, q.2⟩), ?_⟩
      rw [polygon, Path.build, List.foldl_cons, List.foldl_map]
      rfl
  have keys : ∀ l : List (List (ℚ × ℚ)), ∃ css : List (List (Cmd ℚ)), l.map polygon = css.map Path.build := by
    intro l
    induction l with
    | nil => exact ⟨[], rfl⟩
    | cons a l ih =>
      obtain ⟨cs, h1⟩ := key a
      obtain ⟨css, h2⟩ := ih
      exact ⟨cs :: css, by rw [List.map_cons, List.map_cons, h1, h2]⟩
  obtain ⟨c1, h1, h2⟩ := Option.bind_eq_some_iff.1 h
  obtain ⟨a, ha⟩ := keys subject
  obtain ⟨b, hb⟩ := keys clip
  rw [ha] at h1
  rw [hb] at h2
  exact .addPath b .clip (.addPath a .subject .new h1) h2

/-- C50, C37: the bound on the number of scan lines for two crossing quadrilaterals (seventeen vertices after breaking). -/
theorem run_bound : ((holding [[(0, 0), (4, 1), (5, 5), (1, 4)]] [[(2, -1), (6, 3), (3, 6), (-1, 3)]]).bind (fun c =>
    (processIntersect demoEnv c.rings).map (fun r => (r.map (fun x => x.nodes.length), roundBound r)))) =
    some ([8, 9], 41) := by
  decide +kernel

/-- C47: the union of two squares needs `move_to` and `line_to` only. -/
theorem run_null_cubic : ((holding [[(0, 0), (10, 0), (10, 10), (0, 10)]] [[(5, 5), (15, 5), (15, 15), (5, 15)]]).bind (fun c =>
    (c.process demoEnv minsort 60 .union .positive
      (⟨some (fun _ _ n => n + 1), some (fun _ _ n => n + 1), none⟩ : Funcs ℚ Nat) 0).map (fun r => r.map (·.2)))) =
    some (some 9) := by
  decide +kernel

/-- C47: without `line_to` the same call is undefined behaviour. -/
theorem run_null_line : ((holding [[(0, 0), (10, 0), (10, 10), (0, 10)]] [[(5, 5), (15, 5), (15, 15), (5, 15)]]).bind (fun c =>
    (c.process demoEnv minsort 60 .union .positive
      (⟨some (fun _ _ n => n + 1), none, none⟩ : Funcs ℚ Nat) 0).map (fun r => r.map (·.2)))) = none := by
  decide +kernel

/-! ## C44: `process` twice -/

/-- The callbacks of two calls of `process` one after the other. -/
def runTwice (ct : ClipType) (fr : FillRule) (subject clip : List (List (ℚ × ℚ))) :
    Option (Option (List (List (ℚ × ℚ)) × List (List (ℚ × ℚ)))) :=
  (holding subject clip).bind (fun c => (c.process demoEnv minsort 60 ct fr Path.recorder []).bind (fun r =>
    match r with
    | none => some none
    | some (c', es) =>
      (c'.process demoEnv minsort 60 ct fr Path.recorder []).map (fun r => r.map (fun q => (points es, points q.2)))))

/-- **C44 is false**: the second of two equal calls of `process` delivers the contour of the first call again, and the
contour a second time. -/
theorem process_twice_differs : runTwice .union .positive [[(0, 0), (4, 1), (2, 3)]] [] =
    some (some ([[(0, 0), (4, 1), (2, 3), (0, 0)]],
      [[(0, 0), (4, 1), (2, 3), (0, 0)], [(0, 0), (4, 1), (2, 3), (0, 0)]])) := by
  decide +kernel

/-! ## What the sweep does not get right -/

/-- A contour is closed: its last point is its first point. -/
def closedPts (c : List (ℚ × ℚ)) : Bool := c.head? == c.getLast?

/-- **C40 is false** for whole calls: the difference of two convex quadrilaterals (all sides in general position) contains a
contour that does not end where it starts. -/
theorem difference_not_closed :
    runPts .difference .nonZero [[(0, 0), (4, 1), (5, 5), (1, 4)]] [[(2, -1), (6, 3), (3, 6), (-1, 3)]] =
      some (some [[(0, 0), (20 / 19, 5 / 19), (5 / 16, 5 / 4), (0, 0)],
        [(24 / 5, 21 / 5), (21 / 5, 24 / 5), (5, 5), (5, 5)]]) ∧
    closedPts [(24 / 5, 21 / 5), (21 / 5, 24 / 5), (5, 5), (5, 5)] = false := by
  decide +kernel

/-- **C40 is false** for whole calls: the intersection of two triangles, one of them clockwise, with the non-zero rule. -/
theorem intersection_not_closed :
    runPts .intersection .nonZero [[(1, 4), (2, 3), (7, 7)]] [[(4, 6), (6, 8), (6, 2)]] =
      some (some [[(9 / 2, 5), (21 / 5, 28 / 5), (6, 31 / 5), (6, 13 / 2), (6, 13 / 2)]]) ∧
    closedPts [(9 / 2, 5), (21 / 5, 28 / 5), (6, 31 / 5), (6, 13 / 2), (6, 13 / 2)] = false := by
  decide +kernel

/-- **C41 is false**: the difference of two triangles with the positive rule opens a polygon with two bounds of equal
direction and ends in undefined behaviour (a null `up_bound` or `down_bound` is dereferenced). -/
theorem difference_ub : runPts .difference .positive [[(2, 0), (4, 1), (5, 7)]] [[(4, 3), (5, 2), (8, 1)]] = none := by
  decide +kernel

/-- **C41 is false**: the same for xor. -/
theorem xor_ub : runPts .xor .positive [[(2, 0), (4, 1), (5, 7)]] [[(4, 3), (5, 2), (8, 1)]] = none := by
  decide +kernel

/-- **C41 is false**: union with the non-zero or the even-odd rule when one triangle is clockwise. -/
theorem union_ub : runPts .union .nonZero [[(1, 4), (2, 3), (7, 7)]] [[(4, 6), (6, 8), (6, 2)]] = none ∧
    runPts .union .evenOdd [[(1, 4), (2, 3), (7, 7)]] [[(4, 6), (6, 8), (6, 2)]] = none := by
  decide +kernel

/-- The intake and the breaking of these inputs are defined: the undefined behaviour is in the sweep. -/
theorem union_ub_in_sweep : ((holding [[(1, 4), (2, 3), (7, 7)]] [[(4, 6), (6, 8), (6, 2)]]).bind (fun c =>
    processIntersect demoEnv c.rings)).isSome = true ∧
    ((holding [[(2, 0), (4, 1), (5, 7)]] [[(4, 3), (5, 2), (8, 1)]]).bind (fun c =>
    processIntersect demoEnv c.rings)).isSome = true := by
  decide +kernel

/-- A wrong result: a square minus its right half (a clip box reaching further up, down and right) is delivered as two lines
traced twice, `(0,0)-(5,0)` and `(5,0)-(0,10)`. -/
theorem difference_wrong :
    runPts .difference .positive [[(0, 0), (10, 0), (10, 10), (0, 10)]] [[(5, -5), (15, -5), (15, 15), (5, 15)]] =
      some (some [[(0, 0), (5, 0), (0, 10), (5, 0), (0, 0)]]) := by
  decide +kernel

/-- A wrong result: the union of a clockwise square with a triangle crossing its lower side loses the square; nothing of the
output lies above `y = 5`, the square reaches `y = 10`. -/
theorem union_loses_square :
    runPts .union .nonZero [[(0, 0), (0, 10), (10, 10), (10, 0)]] [[(5, -5), (8, 5), (2, 5)]] =
      some (some [[(5, -5), (13 / 2, 0), (8, 5), (2, 5), (7 / 2, 0), (5, -5)]]) := by
  decide +kernel

/-- The same union with the square given counterclockwise is right. -/
theorem union_keeps_square :
    runPts .union .nonZero [[(0, 0), (10, 0), (10, 10), (0, 10)]] [[(5, -5), (8, 5), (2, 5)]] =
      some (some [[(5, -5), (13 / 2, 0), (10, 0), (10, 10), (0, 10), (0, 0), (7 / 2, 0), (5, -5)]]) := by
  decide +kernel

/-- A wrong result: the lower corner `(0,0)` of the second triangle lies on the left side of the first one, its ascending
side leads to the left. The first triangle lies in `x ≥ 0`, and yet the corner `(-2,2)` of the second one is delivered as a
part of the intersection and left out of the union. `insert_local_minima_to_ael` looks for the place of the ascending side
only to the right of the left neighbour of the descending side (`vatti.cpp:759-760`). -/
theorem touching_minimum_wrong :
    runPts .intersection .negative [[(0, -2), (0, 4), (5, 1)]] [[(0, 0), (-2, 2), (1, 3)]] =
      some (some [[(0, 0), (-2, 2), (0, 8 / 3), (1, 3), (0, 0)]]) ∧
    runPts .union .negative [[(0, -2), (0, 4), (5, 1)]] [[(0, 0), (-2, 2), (1, 3)]] =
      some (some [[(0, -2), (0, 0), (0, 8 / 3), (0, 4), (5, 1), (0, -2)]]) := by
  decide +kernel

/-- The same triangles in the other roles of the sides (mirrored) are right. -/
theorem touching_minimum_mirrored :
    runPts .intersection .positive [[(0, -2), (5, 1), (0, 4)]] [[(0, 0), (1, 3), (-2, 2)]] =
      some (some [[(0, 0), (1, 3), (0, 8 / 3), (0, 0)]]) := by
  decide +kernel

end River
