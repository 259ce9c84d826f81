import Verif.Props.Line

/-! # C15: exactly when the distance and projection helpers mean what their names say -/

namespace River
variable {R : Type} [Field R] [LinearOrder R] [IsStrictOrderedRing R]

/-- The foot of the perpendicular from `p` to the line through `l0` and `l1` is the point with parameter `s`. -/
def Foot (p l0 l1 : Vec2 R) (s : R) : Prop :=
  (l1.x - l0.x) * (p.x - (lerp l0 l1 s).x) + (l1.y - l0.y) * (p.y - (lerp l0 l1 s).y) = 0

omit [IsStrictOrderedRing R] [LinearOrder R] in
/-- Points of the line are the farther away the farther they are from the foot. -/
theorem foot_dist {p l0 l1 : Vec2 R} {s : R} (hs : Foot p l0 l1 s) (u : R) :
    sqDist p (lerp l0 l1 u) = sqDist p (lerp l0 l1 s) + (u - s) ^ 2 * ((l1.x - l0.x) ^ 2 + (l1.y - l0.y) ^ 2) := by
  unfold Foot lerp at hs
  unfold sqDist lerp
  dsimp only at hs ⊢
  linear_combination (-2 * (u - s)) * hs

theorem segLength_pos {l0 l1 : Vec2 R} (h : l0 ≠ l1) : 0 < (l1.x - l0.x) ^ 2 + (l1.y - l0.y) ^ 2 := by
  rcases eq_or_ne (l1.x - l0.x) 0 with hx | hx
  · have hy : l1.y - l0.y ≠ 0 := fun hy => h (by ext <;> linarith)
    have := sq_nonneg (l1.x - l0.x)
    have := sq_pos_of_ne_zero hy
    linarith
  · have := sq_nonneg (l1.y - l0.y)
    have := sq_pos_of_ne_zero hx
    linarith

theorem foot_exists (p : Vec2 R) {l0 l1 : Vec2 R} (h : l0 ≠ l1) : ∃ s, Foot p l0 l1 s := by
  have hd := segLength_pos h
  refine ⟨((l1.x - l0.x) * (p.x - l0.x) + (l1.y - l0.y) * (p.y - l0.y)) / ((l1.x - l0.x) ^ 2 + (l1.y - l0.y) ^ 2), ?_⟩
  have := div_mul_cancel₀ ((l1.x - l0.x) * (p.x - l0.x) + (l1.y - l0.y) * (p.y - l0.y)) hd.ne'
  unfold Foot lerp
  dsimp only
  linear_combination -this

theorem foot_unique {p l0 l1 : Vec2 R} (h : l0 ≠ l1) {s u : R} (hs : Foot p l0 l1 s) (hu : Foot p l0 l1 u) : u = s := by
  have hd := segLength_pos h
  have h1 := foot_dist hs u
  have h2 := foot_dist hu s
  have : (u - s) ^ 2 * ((l1.x - l0.x) ^ 2 + (l1.y - l0.y) ^ 2) = 0 := by linear_combination (-h1 - h2) / 2
  rcases mul_eq_zero.1 this with h | h
  · exact sub_eq_zero.1 (pow_eq_zero_iff (two_ne_zero) |>.1 h)
  · exact absurd h hd.ne'

/-- **C15**, exactly: `dist2_point_line` returns the squared distance to the infinite line if and only if the foot of the perpendicular falls into the segment. -/
theorem dist2PointLine_line_iff_partial (p l0 l1 : Vec2 R) (h : l0 ≠ l1) :
    (∃ q, OnLine q l0 l1 ∧ dist2PointLine p.fin l0.fin l1.fin = .fin (sqDist p q) ∧ ∀ q', OnLine q' l0 l1 → sqDist p q ≤ sqDist p q') ↔
      ∃ s, 0 ≤ s ∧ s ≤ 1 ∧ Foot p l0 l1 s := by
  have hd := segLength_pos h
  constructor
  · rintro ⟨q, ⟨v, rfl⟩, h1, h2⟩
    obtain ⟨q', ⟨u, u0, u1, rfl⟩, h3, _⟩ := dist2PointLine_segment p l0 l1 h
    rw [h1] at h3
    injection h3 with h3
    obtain ⟨s, hs⟩ := foot_exists p h
    have h4 := h2 (lerp l0 l1 s) ⟨s, rfl⟩
    rw [h3, foot_dist hs u] at h4
    have hz : (u - s) ^ 2 * ((l1.x - l0.x) ^ 2 + (l1.y - l0.y) ^ 2) = 0 := le_antisymm (by linarith) (mul_nonneg (sq_nonneg _) hd.le)
    have hus : u = s := by
      rcases mul_eq_zero.1 hz with h | h
      · exact sub_eq_zero.1 ((pow_eq_zero_iff two_ne_zero).1 h)
      · exact absurd h hd.ne'
    rw [← hus] at hs
    exact ⟨u, u0, u1, hs⟩
  · rintro ⟨s, s0, s1, hs⟩
    obtain ⟨h1, h2⟩ := dist2PointLine_line_partial p l0 l1 h s s0 s1 hs
    exact ⟨_, ⟨s, rfl⟩, h1, h2⟩

/-- **C15**, exactly: `point_project_in_segment` answers rightly, whether the foot of the perpendicular falls into the segment, if and only if the foot does not lie
before the beginning of the segment. -/
theorem pointProject_iff_partial (p p0 p1 : Vec2 R) (h : p0 ≠ p1) :
    (pointProjectInSegment p.fin p0.fin p1.fin = true ↔ ∃ s, 0 ≤ s ∧ s ≤ 1 ∧ Foot p p0 p1 s) ↔ ∃ s, 0 ≤ s ∧ Foot p p0 p1 s := by
  obtain ⟨s, hs⟩ := foot_exists p h
  have key : ∀ {P : R → Prop}, (∃ u, P u ∧ Foot p p0 p1 u) ↔ P s :=
    fun {P} => ⟨fun ⟨u, hu, hf⟩ => foot_unique h hs hf ▸ hu, fun hp => ⟨s, hp, hs⟩⟩
  have e1 : (∃ u, 0 ≤ u ∧ u ≤ 1 ∧ Foot p p0 p1 u) ↔ 0 ≤ s ∧ s ≤ 1 := by
    rw [← key (P := fun u => 0 ≤ u ∧ u ≤ 1)]
    simp only [and_assoc]
  rw [pointProject_partial p p0 p1 h s hs, e1, key (P := fun u => 0 ≤ u)]
  constructor
  · intro hh
    by_contra hn
    exact hn (hh.1 (by linarith [not_le.1 hn])).1
  · intro h0
    exact ⟨fun h1 => ⟨h0, h1⟩, fun h1 => h1.2⟩

/-- A case: (1, 3) above the segment from (0, 0) to (4, 0), (-1, 3) before it. -/
theorem foot_case : Foot (⟨1, 3⟩ : Vec2 ℚ) ⟨0, 0⟩ ⟨4, 0⟩ (1 / 4) ∧ Foot (⟨-1, 3⟩ : Vec2 ℚ) ⟨0, 0⟩ ⟨4, 0⟩ (-1 / 4) := by
  unfold Foot lerp; norm_num

end River
