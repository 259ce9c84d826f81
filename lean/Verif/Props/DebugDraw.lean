import Verif.Model.DebugDraw
import Verif.Props.Path
import Verif.Spec.General

/-!
# Drawing for the debug viewer (C87): paths are drawn segment by segment, moved by the offset; a single curve is not moved
-/

namespace River
namespace Viewer

section
variable {K : Type} [FNum K]

/-- What is to be drawn of one command, with the pen at `source`, moved by `offset`: nothing for a move. -/
def segmentShape (pen : Pen K) (offset : Vec2 K) (e : Event K) : Option (Shape K) :=
  match e.cmd with
  | .moveto _ => none
  | .lineto p => some (.line ⟨⟨e.source.x +. offset.x, e.source.y +. offset.y⟩, ⟨p.x +. offset.x, p.y +. offset.y⟩⟩ pen)
  | .cubicto c1 c2 p => some (.cubic ⟨e.source.x +. offset.x, e.source.y +. offset.y⟩ ⟨c1.x +. offset.x, c1.y +. offset.y⟩
      ⟨c2.x +. offset.x, c2.y +. offset.y⟩ ⟨p.x +. offset.x, p.y +. offset.y⟩ pen)

theorem deliver_draw (pen : Pen K) (offset : Vec2 K) (es : List (Event K)) (acc : List (Shape K)) :
    es.foldl (Path.deliver (drawFuncs pen offset)) acc = acc ++ es.filterMap (segmentShape pen offset) := by
  induction es generalizing acc with
  | nil => simp
  | cons e es ih =>
    rw [List.foldl_cons, ih]
    obtain ⟨s, c⟩ := e
    rw [List.filterMap_cons]
    cases c <;> simp [Path.deliver, drawFuncs, segmentShape, Vec2.add]

/-- **C87**: drawing a path sends its lines and curves in order, each moved by the offset, and nothing for the moves. -/
theorem path_drawn (cs : List (Cmd K)) (pen : Pen K) (offset : Vec2 K) :
    drawPath (Path.build cs) pen offset = some ((eventsFrom ⟨FNum.lit 0, FNum.lit 0⟩ cs).filterMap (segmentShape pen offset)) := by
  have h := Path.traverse_build (drawFuncs pen offset) cs []
  rw [deliver_draw, List.nil_append] at h
  rw [drawPath, Path.traverse, h]
  rfl

/-- **C87**: drawing several paths draws one after the other. -/
theorem paths_drawn (css : List (List (Cmd K))) (pen : Pen K) (offset : Vec2 K) :
    drawPaths (css.map Path.build) pen offset =
      some (css.flatMap fun cs => (eventsFrom ⟨FNum.lit 0, FNum.lit 0⟩ cs).filterMap (segmentShape pen offset)) := by
  have h : ∀ acc : List (Shape K), (css.map Path.build).foldl (fun acc p => acc.bind fun a => (drawPath p pen offset).map (a ++ ·)) (some acc) =
      some (acc ++ css.flatMap fun cs => (eventsFrom ⟨FNum.lit 0, FNum.lit 0⟩ cs).filterMap (segmentShape pen offset)) := by
    induction css with
    | nil => intro acc; simp
    | cons cs css ih =>
      intro acc
      rw [List.map_cons, List.foldl_cons, Option.bind_some, path_drawn, Option.map_some, ih, List.flatMap_cons, List.append_assoc]
  rw [drawPaths, h, List.nil_append]

/-- **C87**: a path with a move that has no coordinates left is not drawn at all: reading it is undefined behaviour exactly when it is for
`traverse`. -/
theorem path_drawn_ub (p : Path K) (pen : Pen K) (offset : Vec2 K) : (drawPath p pen offset).isSome ↔ Path.need p.types ≤ p.data.length :=
  Path.traverse_safe_iff _ _ _

/-- A single line is moved by the offset. -/
theorem line_moved (p0 p1 : Vec2 K) (pen : Pen K) (offset : Vec2 K) :
    drawLinePath p0 p1 pen offset = [.line ⟨⟨p0.x +. offset.x, p0.y +. offset.y⟩, ⟨p1.x +. offset.x, p1.y +. offset.y⟩⟩ pen] := rfl

end

/-- **C87** does not hold for a single curve: the offset is ignored (`util.cpp:23-26`). -/
theorem cubic_not_moved : ∃ (c : Cubic ℚ) (pen : Pen ℚ) (offset : Vec2 ℚ), drawCubicPath c pen offset ≠
    [.cubic (c.p0.add offset) (c.p1.add offset) (c.p2.add offset) (c.p3.add offset) pen] ∧
    drawPath (Path.build [.moveto c.p0, .cubicto c.p1 c.p2 c.p3]) pen offset ≠ some (drawCubicPath c pen offset) := by
  refine ⟨⟨⟨0, 0⟩, ⟨1, 2⟩, ⟨3, 2⟩, ⟨4, 0⟩⟩, ⟨0, 1, 1, false⟩, ⟨10, 0⟩, ?_, ?_⟩ <;> decide +kernel

section
variable {K : Type} [Field K] [LinearOrder K] [IsStrictOrderedRing K] [FTrans K] [Exact K]
attribute [local instance 10000] FTrans.toFNum

omit [IsStrictOrderedRing K] in
/-- A single curve is drawn where it is if there is no offset, which is the default. Missing: any other offset, for which it is false. -/
theorem cubic_moved_partial (c : Cubic K) (pen : Pen K) : drawCubicPath c pen (⟨0, 0⟩ : Vec2 K) =
    [.cubic (c.p0.add ⟨0, 0⟩) (c.p1.add ⟨0, 0⟩) (c.p2.add ⟨0, 0⟩) (c.p3.add ⟨0, 0⟩) pen] := by
  simp [drawCubicPath, Vec2.add, Exact.add_eq]

omit [IsStrictOrderedRing K] in
/-- **C87**, exactly: a single curve is drawn moved by the offset if and only if there is no offset. -/
theorem cubic_moved_iff_partial (c : Cubic K) (pen : Pen K) (offset : Vec2 K) : drawCubicPath c pen offset =
    [.cubic (c.p0.add offset) (c.p1.add offset) (c.p2.add offset) (c.p3.add offset) pen] ↔ offset = ⟨0, 0⟩ := by
  obtain ⟨⟨x0, y0⟩, p1, p2, p3⟩ := c
  obtain ⟨u, v⟩ := offset
  constructor
  · intro h
    simp [drawCubicPath, Vec2.add, Exact.add_eq] at h
    simp [h.1.1, h.1.2]
  · rintro ⟨⟩
    simp [drawCubicPath, Vec2.add, Exact.add_eq]

theorem next_move (space : Vec2 K) (n : ℕ) : (OffsetRect.next^[n] (OffsetRect.init space)).move = ⟨(n / 5 : ℕ) * space.x, (n % 5 : ℕ) * space.y⟩ ∧
    (OffsetRect.next^[n] (OffsetRect.init space)).space = space ∧ (OffsetRect.next^[n] (OffsetRect.init space)).cow = n % 5 := by
  induction n with
  | zero => simp [OffsetRect.init, Exact.lit_eq]
  | succ n ih =>
    rw [Function.iterate_succ_apply']
    obtain ⟨h1, h2, h3⟩ := ih
    generalize OffsetRect.next^[n] (OffsetRect.init space) = o at h1 h2 h3
    unfold OffsetRect.next
    rw [h1, h2, h3]
    by_cases hc : n % 5 = 4
    · have e1 : (n + 1) / 5 = n / 5 + 1 := by omega
      have e2 : (n + 1) % 5 = 0 := by omega
      rw [if_pos hc, e1, e2]
      simp only [Exact.add_eq, Exact.lit_eq, h2]
      refine ⟨?_, trivial, trivial⟩
      ext
      · push_cast; ring
      · simp
    · have e1 : (n + 1) / 5 = n / 5 := by omega
      have e2 : (n + 1) % 5 = n % 5 + 1 := by omega
      rw [if_neg hc, e1, e2]
      simp only [Exact.add_eq, h2]
      refine ⟨?_, trivial, trivial⟩
      ext
      · rfl
      · push_cast; ring

/-- **C88**: the frames of `offset_rect` fill columns of five; two different ones have no inner point in common. -/
theorem frames_apart (space : Vec2 K) (hx : 0 < space.x) (hy : 0 < space.y) (m n : ℕ) (hmn : m ≠ n) (p : Vec2 K) :
    ¬ ((OffsetRect.next^[m] (OffsetRect.init space)).rect.x < p.x ∧ p.x < (OffsetRect.next^[m] (OffsetRect.init space)).rect.x + space.x ∧
      (OffsetRect.next^[m] (OffsetRect.init space)).rect.y < p.y ∧ p.y < (OffsetRect.next^[m] (OffsetRect.init space)).rect.y + space.y ∧
      (OffsetRect.next^[n] (OffsetRect.init space)).rect.x < p.x ∧ p.x < (OffsetRect.next^[n] (OffsetRect.init space)).rect.x + space.x ∧
      (OffsetRect.next^[n] (OffsetRect.init space)).rect.y < p.y ∧ p.y < (OffsetRect.next^[n] (OffsetRect.init space)).rect.y + space.y) := by
  simp only [OffsetRect.rect, Box.translated, Box.ofCorners, Exact.add_eq, Exact.lit_eq, Rat.cast_zero, zero_add, (next_move space m).1, (next_move space n).1]
  rintro ⟨a1, a2, a3, a4, b1, b2, b3, b4⟩
  have key : ∀ {a b : ℕ} {s q : K}, 0 < s → a * s < q → q < b * s + s → a ≤ b := by
    intro a b s q hs h1 h2
    by_contra hlt
    push Not at hlt
    have : ((b : K) + 1) * s ≤ a * s := mul_le_mul_of_nonneg_right (by exact_mod_cast hlt) hs.le
    linarith
  have d1 := key hx a1 b2
  have d2 := key hx b1 a2
  have m1 := key hy a3 b4
  have m2 := key hy b3 a4
  omega

/-- The frames all have the size asked for. -/
theorem frame_size (space : Vec2 K) (n : ℕ) : (OffsetRect.next^[n] (OffsetRect.init space)).rect.w = space.x ∧
    (OffsetRect.next^[n] (OffsetRect.init space)).rect.h = space.y := by
  simp [OffsetRect.rect, Box.translated, Box.ofCorners, Exact.sub_eq, Exact.lit_eq, (next_move space n).2.1]

/-- What is drawn inside the frame of size `space` at the origin lies inside the n-th frame after moving it there. -/
theorem frame_point (space p : Vec2 K) (n : ℕ) (h : 0 ≤ p.x ∧ p.x ≤ space.x ∧ 0 ≤ p.y ∧ p.y ≤ space.y) :
    (OffsetRect.next^[n] (OffsetRect.init space)).rect.x ≤ ((OffsetRect.next^[n] (OffsetRect.init space)).point p).x ∧
    ((OffsetRect.next^[n] (OffsetRect.init space)).point p).x ≤ (OffsetRect.next^[n] (OffsetRect.init space)).rect.x + space.x ∧
    (OffsetRect.next^[n] (OffsetRect.init space)).rect.y ≤ ((OffsetRect.next^[n] (OffsetRect.init space)).point p).y ∧
    ((OffsetRect.next^[n] (OffsetRect.init space)).point p).y ≤ (OffsetRect.next^[n] (OffsetRect.init space)).rect.y + space.y := by
  simp only [OffsetRect.rect, OffsetRect.point, Vec2.add, Box.translated, Box.ofCorners, Exact.add_eq, Exact.lit_eq, Rat.cast_zero, zero_add]
  obtain ⟨h1, h2, h3, h4⟩ := h
  refine ⟨?_, ?_, ?_, ?_⟩ <;> linarith

/-- A line is moved into the n-th frame as a whole: each of its ends by the vector that carries the first frame to the n-th. -/
theorem frame_line (space : Vec2 K) (l : Seg K) (n : ℕ) :
    ((OffsetRect.next^[n] (OffsetRect.init space)).line l).p1.x = l.p1.x + (OffsetRect.next^[n] (OffsetRect.init space)).rect.x ∧
    ((OffsetRect.next^[n] (OffsetRect.init space)).line l).p1.y = l.p1.y + (OffsetRect.next^[n] (OffsetRect.init space)).rect.y ∧
    ((OffsetRect.next^[n] (OffsetRect.init space)).line l).p2.x = l.p2.x + (OffsetRect.next^[n] (OffsetRect.init space)).rect.x ∧
    ((OffsetRect.next^[n] (OffsetRect.init space)).line l).p2.y = l.p2.y + (OffsetRect.next^[n] (OffsetRect.init space)).rect.y := by
  simp [OffsetRect.rect, OffsetRect.line, Vec2.add, Box.translated, Box.ofCorners, Exact.add_eq, Exact.lit_eq]

end
end Viewer
end River
