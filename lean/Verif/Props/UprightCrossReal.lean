import Verif.Props.UprightReal
import Verif.Props.UprightCross
import Verif.Lemmas.CurvedTruth

/-! # C82: for which curves the library's functions deal with parts, and with intersections with lines, correctly in exact arithmetic -/

namespace River.Upright

attribute [local instance 10000] FTrans.toFNum

/-- The polynomial that gives the height of a part. -/
theorem part_pol {p c1 c2 q p' d1 d2 q' : Vec2 ℝ} {a b : ℝ} (h : IsPart (p, Seg.cubic c1 c2 q) (p', Seg.cubic d1 d2 q') a b) :
    htA p' d1 d2 q' = htA p c1 c2 q * (b - a) ^ 3 ∧ htB p' d1 d2 = (htB p c1 c2 + 3 * htA p c1 c2 q * a) * (b - a) ^ 2 ∧
      htC p' d1 = (htC p c1 + 2 * htB p c1 c2 * a + 3 * htA p c1 c2 q * a ^ 2) * (b - a) := by
  have key : ∀ r : ℝ, htA p' d1 d2 q' * r ^ 3 + htB p' d1 d2 * r ^ 2 + htC p' d1 * r + p'.y =
      htA p c1 c2 q * (a + r * (b - a)) ^ 3 + htB p c1 c2 * (a + r * (b - a)) ^ 2 + htC p c1 * (a + r * (b - a)) + p.y := by
    intro r
    rw [← height_pol, ← height_pol, h.trace]
  have k0 := key 0
  have k1 := key 1
  have k2 := key (-1)
  have k3 := key 2
  generalize htA p' d1 d2 q' = A' at *
  generalize htB p' d1 d2 = B' at *
  generalize htC p' d1 = C' at *
  refine ⟨?_, ?_, ?_⟩
  · linear_combination (1 / 6) * k3 - (1 / 2) * k1 + (1 / 2) * k0 - (1 / 6) * k2
  · linear_combination (1 / 2) * k1 + (1 / 2) * k2 - k0
  · linear_combination k1 - (1 / 2) * k0 - (1 / 3) * k2 - (1 / 6) * k3

theorem part_cubic {p c1 c2 q : Vec2 ℝ} {w : Vec2 ℝ × Seg ℝ} {a b : ℝ} (h : IsPart (p, Seg.cubic c1 c2 q) w a b) :
    ∃ p' d1 d2 q', w = (p', Seg.cubic d1 d2 q') := by
  obtain ⟨p', g⟩ := w
  cases g with
  | line q' => have := h.kind; simp [Seg.isCubic] at this
  | cubic d1 d2 q' => exact ⟨p', d1, d2, q', rfl⟩

/-- Parts of curves whose height is a cubic polynomial that rises or falls everywhere, not too slowly. -/
theorem fine_part_cubic {p c1 c2 q : Vec2 ℝ} {w : Vec2 ℝ × Seg ℝ} {a b : ℝ} (h : IsPart (p, Seg.cubic c1 c2 q) w a b)
    (hA : 1 / 100000000 ≤ |htA p c1 c2 q| * (b - a) ^ 3)
    (hp : 1 / 100000000 ≤ (depP (htA p c1 c2 q) (htB p c1 c2) (htC p c1) / 3) ^ 3) : Fine w := by
  obtain ⟨p', d1, d2, q', rfl⟩ := part_cubic h
  obtain ⟨e1, e2, e3⟩ := part_pol h
  have hb : 0 < b - a := sub_pos.2 h.lt
  have hb1 : b - a ≤ 1 := by linarith [h.low, h.high]
  have pp := pow_pos_of hp
  have hA0 : htA p c1 c2 q ≠ 0 := by intro e; rw [e] at hA; norm_num at hA
  have ed : depP (htA p' d1 d2 q') (htB p' d1 d2) (htC p' d1) = depP (htA p c1 c2 q) (htB p c1 c2) (htC p c1) / (b - a) ^ 2 := by
    rw [e1, e2, e3]
    unfold depP
    field_simp
    ring
  refine fine_cubic ?_ ?_
  · rw [e1, abs_mul, abs_of_pos (pow_pos hb 3)]; exact hA
  · rw [ed]
    refine hp.trans (pow_le_pow_left₀ (by positivity) ?_ 3)
    refine div_le_div_of_nonneg_right ?_ (by norm_num)
    rw [le_div_iff₀ (pow_pos hb 2)]
    have : (b - a) ^ 2 ≤ 1 := pow_le_one₀ hb.le hb1
    nlinarith

/-- Parts of curves whose height is a quadratic polynomial that rises or falls all the way, not too slowly. -/
theorem fine_part_quadratic {p c1 c2 q : Vec2 ℝ} {w : Vec2 ℝ × Seg ℝ} {a b : ℝ} (h : IsPart (p, Seg.cubic c1 c2 q) w a b)
    (hA : htA p c1 c2 q = 0) (hB : 1 / 100000000 ≤ |htB p c1 c2| * (b - a) ^ 2)
    (hd : (1 / 10000 ≤ 3 * (c1.y - p.y) * (b - a) ∧ 1 / 10000 ≤ 3 * (q.y - c2.y) * (b - a)) ∨
      (3 * (c1.y - p.y) * (b - a) ≤ -(1 / 10000) ∧ 3 * (q.y - c2.y) * (b - a) ≤ -(1 / 10000))) : Fine w := by
  obtain ⟨p', d1, d2, q', rfl⟩ := part_cubic h
  obtain ⟨e1, e2, e3⟩ := part_pol h
  have hb : 0 < b - a := sub_pos.2 h.lt
  have a0 := h.low
  have b1 := h.high
  rw [hA] at e1 e2 e3
  have f1 : htC p c1 = 3 * (c1.y - p.y) := by unfold htC; ring
  have f2 : 2 * htB p c1 c2 + htC p c1 = 3 * (q.y - c2.y) := by
    unfold htA at hA; unfold htB htC; linear_combination (-3) * hA
  have A' : htA p' d1 d2 q' = 0 := by rw [e1]; ring
  have g1 : htC p' d1 = 3 * (d1.y - p'.y) := by unfold htC; ring
  have g2 : 2 * htB p' d1 d2 + htC p' d1 = 3 * (q'.y - d2.y) := by
    have := A'
    unfold htA at this; unfold htB htC; linear_combination (-3) * this
  -- the derivative at the ends of the part lies between those at the ends of the curve
  have k1 : 3 * (d1.y - p'.y) = (1 - a) * (3 * (c1.y - p.y) * (b - a)) + a * (3 * (q.y - c2.y) * (b - a)) := by
    rw [← g1, e3, ← f2, ← f1]; ring
  have k2 : 3 * (q'.y - d2.y) = (1 - b) * (3 * (c1.y - p.y) * (b - a)) + b * (3 * (q.y - c2.y) * (b - a)) := by
    rw [← g2, e2, e3, ← f2, ← f1]; ring
  refine fine_quadratic A' ?_ ?_
  · rw [e2, mul_zero, zero_mul, add_zero, abs_mul, abs_of_pos (pow_pos hb 2)]; exact hB
  · rw [k1, k2]
    generalize 3 * (c1.y - p.y) * (b - a) = u at hd ⊢
    generalize 3 * (q.y - c2.y) * (b - a) = v at hd ⊢
    rcases hd with ⟨hu, hv⟩ | ⟨hu, hv⟩
    · left; constructor <;> nlinarith
    · right; constructor <;> nlinarith

/-- The coefficients of the polynomial whose roots are the positions at which a curve meets the line `A x + B y + C = 0`. -/
def hitA (A B : ℝ) (p c1 c2 q : Vec2 ℝ) : ℝ := A * (q.x - 3 * c2.x + 3 * c1.x - p.x) + B * htA p c1 c2 q
def hitB (A B : ℝ) (p c1 c2 : Vec2 ℝ) : ℝ := A * (3 * c2.x - 6 * c1.x + 3 * p.x) + B * htB p c1 c2
def hitC (A B : ℝ) (p c1 : Vec2 ℝ) : ℝ := A * (3 * c1.x - 3 * p.x) + B * htC p c1

/-- A line and a curve, if that polynomial is quadratic, or linear, or a cubic one that rises or falls everywhere: in exact arithmetic the
intersections found are right, provided the coefficients and the discriminant are not close to zero unless they are zero. -/
theorem truthful_line {p q p0 c1 c2 r : Vec2 ℝ} (hst : p.y ≠ q.y) (hp : InDoubles p) (hq : InDoubles q)
    (h : ∀ A B C, generalFrom p q = (A, B, C) →
      (hitA A B p0 c1 c2 r = 0 ∧ Clear (hitB A B p0 c1 c2) ∧ (hitB A B p0 c1 c2 = 0 → 1 / 100000000 ≤ |hitC A B p0 c1|) ∧
        Clear (hitC A B p0 c1 * hitC A B p0 c1 - 4 * hitB A B p0 c1 c2 * (A * p0.x + B * p0.y + C))) ∨
      (1 / 100000000 ≤ |hitA A B p0 c1 c2 r| ∧
        1 / 100000000 ≤ (depP (hitA A B p0 c1 c2 r) (hitB A B p0 c1 c2) (hitC A B p0 c1) / 3) ^ 3)) :
    Truthful (p, Seg.line q) (p0, Seg.cubic c1 c2 r) := by
  refine truth_roots hst hp hq (fun A B C hg t => ?_)
  have hh := h A B C hg
  have x3 : A *. (Cubic.polT3 ⟨p0, c1, c2, r⟩).x +. B *. (Cubic.polT3 ⟨p0, c1, c2, r⟩).y = hitA A B p0 c1 c2 r := by
    unfold Cubic.polT3 Vec2.sub Vec2.add Vec2.smul hitA htA
    simp only [Exact.mul_eq, Exact.sub_eq, Exact.lit_eq, Exact.add_eq]
    push_cast
    ring
  have x2 : A *. (Cubic.polT2 ⟨p0, c1, c2, r⟩).x +. B *. (Cubic.polT2 ⟨p0, c1, c2, r⟩).y = hitB A B p0 c1 c2 := by
    unfold Cubic.polT2 Vec2.sub Vec2.add Vec2.smul hitB htB
    simp only [Exact.mul_eq, Exact.sub_eq, Exact.lit_eq, Exact.add_eq]
    push_cast
    ring
  have x1 : A *. (Cubic.polT1 ⟨p0, c1, c2, r⟩).x +. B *. (Cubic.polT1 ⟨p0, c1, c2, r⟩).y = hitC A B p0 c1 := by
    unfold Cubic.polT1 Vec2.sub Vec2.smul hitC htC
    simp only [Exact.mul_eq, Exact.sub_eq, Exact.lit_eq, Exact.add_eq]
    push_cast
    ring
  have x0 : A *. p0.x +. B *. p0.y +. C = A * p0.x + B * p0.y + C := by simp only [Exact.mul_eq, Exact.add_eq]
  have key : A * (Cubic.eval ⟨p0, c1, c2, r⟩ t).x + B * (Cubic.eval ⟨p0, c1, c2, r⟩ t).y + C =
      hitA A B p0 c1 c2 r * t ^ 3 + hitB A B p0 c1 c2 * t ^ 2 + hitC A B p0 c1 * t + (A * p0.x + B * p0.y + C) := by
    simp only [Cubic.eval, bern, hitA, hitB, hitC, htA, htB, htC]
    ring
  rw [x3, x2, x1, x0, key]
  rcases hh with ⟨e, k1, kb, k2⟩ | ⟨k1, k2⟩
  · have hz : isZero (0 : ℝ) = true := by rw [isZero_exact]; norm_num
    rw [e]
    unfold resolvCubic
    rw [if_pos hz, zero_mul, zero_add]
    exact ⟨resolvQuad_real k1 k2, resolvQuad_complete k1 kb k2⟩
  · have pp := pow_pos_of k2
    have hk : 1 / 100000000 ≤ depK (hitA A B p0 c1 c2 r) (hitB A B p0 c1 c2) (hitC A B p0 c1) (A * p0.x + B * p0.y + C) := by
      unfold depK; nlinarith [sq_nonneg (depQ (hitA A B p0 c1 c2 r) (hitB A B p0 c1 c2) (hitC A B p0 c1) (A * p0.x + B * p0.y + C) / 2)]
    obtain ⟨y, _, e2⟩ := resolvCubic_single_partial _ _ _ _ k1 hk (fun h => pp.ne' h.1)
    have ey : resolvCubic (hitA A B p0 c1 c2 r) (hitB A B p0 c1 c2) (hitC A B p0 c1) (A * p0.x + B * p0.y + C) = [y] :=
      resolvCubic_rising k1 k2 ((e2 y).2 rfl)
    rw [ey, List.mem_singleton]
    exact (e2 t).symm

end River.Upright
