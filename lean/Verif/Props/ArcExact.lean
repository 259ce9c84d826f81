import Verif.Props.Arc
import Mathlib.Analysis.SpecialFunctions.Trigonometric.Angle

/-! # Arcs: exactly when the direction of the end and `reverse` are right (C46) -/

namespace River
open Real

theorem vecDist_smul (v : Vec2 ℝ) (k : ℝ) : (⟨k * v.x, k * v.y⟩ : Vec2 ℝ).dist = |k| * v.dist := by
  change Real.sqrt _ = |k| * Real.sqrt _
  rw [← Real.sqrt_sq_eq_abs, ← Real.sqrt_mul (sq_nonneg k)]
  congr 1
  simp only [Vec2.dist2, field_add, field_mul]
  ring

theorem vecDist_pos {v : Vec2 ℝ} (h : v ≠ ⟨0, 0⟩) : 0 < v.dist := by
  rw [dist_eq, norm_pos_iff]
  intro hz
  apply h
  have := congrArg Complex.re hz
  have := congrArg Complex.im hz
  ext <;> simpa

/-- **C46**, exactly: for an arc that does not end in the origin, `end_rad` is the direction of its end if and only if the centre lies on the line through the origin
and the end, and not beyond the end. -/
theorem arc_endRad_iff_partial (s c : Vec2 ℝ) (w : ℝ) (h0 : (Arc.make s c w).p1 ≠ ⟨0, 0⟩) :
    polar c (Arc.make s c w).radius (Arc.make s c w).endRad = (Arc.make s c w).p1 ↔
      ∃ k ≤ 1, c = ⟨k * (Arc.make s c w).p1.x, k * (Arc.make s c w).p1.y⟩ := by
  have h := polar_atan2 (Arc.make s c w).p1
  have hr := (arc_radius s c w).2
  have hp := vecDist_pos h0
  have hE : (Arc.make s c w).endRad = clamp2pi (FAngle.atan2 (Arc.make s c w).p1.y (Arc.make s c w).p1.x) := rfl
  rw [hE]
  generalize (Arc.make s c w).p1 = p at *
  generalize (Arc.make s c w).radius = r at *
  generalize clamp2pi (FAngle.atan2 p.y p.x) = θ at *
  have hrn : 0 ≤ r := by rw [hr]; exact Real.sqrt_nonneg _
  have hcx : Real.cos θ = p.x / p.dist := by rw [eq_div_iff hp.ne', mul_comm]; exact h.1
  have hcy : Real.sin θ = p.y / p.dist := by rw [eq_div_iff hp.ne', mul_comm]; exact h.2
  unfold polar
  rw [hcx, hcy]
  constructor
  · intro he
    refine ⟨1 - r / p.dist, by have := div_nonneg hrn hp.le; linarith, ?_⟩
    have hx := congrArg Vec2.x he
    have hy := congrArg Vec2.y he
    dsimp only at hx hy
    ext
    · dsimp only
      linear_combination hx
    · dsimp only
      linear_combination hy
  · rintro ⟨k, hk, rfl⟩
    have : r = (1 - k) * p.dist := by
      rw [hr, show p.sub ⟨k * p.x, k * p.y⟩ = ⟨(1 - k) * p.x, (1 - k) * p.y⟩ by
        ext <;> simp only [Vec2.sub, field_sub] <;> ring, vecDist_smul, abs_of_nonneg (by linarith)]
    rw [this]
    ext
    · dsimp only; field_simp; ring
    · dsimp only; field_simp; ring

/-- **C46**, exactly: where `end_rad` is right and the radius is not zero, the reversed arc passes the points of the arc backwards if and only if the
arc sweeps no angle at all. -/
theorem arc_reverse_iff_partial (s c : Vec2 ℝ) (w : ℝ) (hsc : s ≠ c)
    (he : polar c (Arc.make s c w).radius (Arc.make s c w).endRad = (Arc.make s c w).p1) :
    (∀ t, 0 ≤ t → t ≤ 1 → (Arc.make s c w).reverse.points t = (Arc.make s c w).points (1 - t)) ↔ w = 0 := by
  have hr : 0 < (Arc.make s c w).radius := by
    rw [(arc_radius s c w).1]
    apply vecDist_pos
    intro h
    apply hsc
    have hx := congrArg Vec2.x h
    have hy := congrArg Vec2.y h
    change s.x - c.x = 0 at hx
    change s.y - c.y = 0 at hy
    ext <;> linarith
  have inj : ∀ {a b : ℝ}, polar c (Arc.make s c w).radius a = polar c (Arc.make s c w).radius b ↔ ((a : Real.Angle) = b) := by
    intro a b
    constructor
    · intro h
      have hx := congrArg Vec2.x h
      have hy := congrArg Vec2.y h
      unfold polar at hx hy
      dsimp only at hx hy
      have hx' := mul_left_cancel₀ hr.ne' (add_left_cancel hx)
      have hy' := mul_left_cancel₀ hr.ne' (add_left_cancel hy)
      exact Real.Angle.cos_sin_inj hx' hy'
    · intro h
      unfold polar
      rw [← Real.Angle.cos_coe, ← Real.Angle.sin_coe, h, Real.Angle.cos_coe, Real.Angle.sin_coe]
  have e2 : ((Arc.make s c w).endRad : Real.Angle) = ((Arc.make s c w).startRad + w : ℝ) := by
    rw [← inj, he, (arc_end s c w).1]
  have key : ∀ t, (Arc.make s c w).reverse.points t = (Arc.make s c w).points (1 - t) ↔ ∃ k : ℤ, 2 * t * w = 2 * π * k := by
    intro t
    change polar c (Arc.make s c w).radius ((Arc.make s c w).endRad + t * w) = polar c (Arc.make s c w).radius ((Arc.make s c w).startRad + (1 - t) * w) ↔ _
    rw [inj, Real.Angle.coe_add, e2, ← Real.Angle.coe_add, Real.Angle.angle_eq_iff_two_pi_dvd_sub]
    have : (Arc.make s c w).startRad + w + t * w - ((Arc.make s c w).startRad + (1 - t) * w) = 2 * t * w := by ring
    rw [this]
  constructor
  · intro h
    by_contra hw
    have ha : 0 < |w| := abs_pos.2 hw
    have hp := Real.pi_pos
    have ht0 : 0 < min 1 (π / (2 * |w|)) := lt_min one_pos (by positivity)
    obtain ⟨k, hk⟩ := (key _).1 (h (min 1 (π / (2 * |w|))) ht0.le (min_le_left _ _))
    have hle : min 1 (π / (2 * |w|)) * (2 * |w|) ≤ π := by
      have := min_le_right 1 (π / (2 * |w|))
      rwa [le_div_iff₀ (by positivity)] at this
    have habs : |2 * min 1 (π / (2 * |w|)) * w| = min 1 (π / (2 * |w|)) * (2 * |w|) := by
      rw [abs_mul, abs_of_pos (by positivity)]; ring
    rw [hk, abs_mul, abs_of_pos (by positivity)] at habs
    have hpos : 0 < min 1 (π / (2 * |w|)) * (2 * |w|) := by positivity
    rw [← habs] at hle hpos
    have hk0 : k ≠ 0 := by
      rintro rfl
      simp at hpos
    have hk1 : (1 : ℝ) ≤ |(k : ℝ)| := by
      rw [← Int.cast_abs]
      exact_mod_cast Int.one_le_abs hk0
    nlinarith
  · rintro rfl t _ _
    rw [key]
    exact ⟨0, by simp⟩

/-- A case: the quarter circle around (1, 0) from (1, 1) to (2, 0). Its `end_rad` is right although the centre is not the origin, and `reverse` is not. -/
theorem arc_quarter_case : (Arc.make ⟨1, 1⟩ ⟨1, 0⟩ (-(π / 2))).p1 = ⟨2, 0⟩ ∧
    polar ⟨1, 0⟩ (Arc.make ⟨1, 1⟩ ⟨1, 0⟩ (-(π / 2))).radius (Arc.make ⟨1, 1⟩ ⟨1, 0⟩ (-(π / 2))).endRad = (Arc.make ⟨1, 1⟩ ⟨1, 0⟩ (-(π / 2))).p1 ∧
    ∃ t, 0 ≤ t ∧ t ≤ 1 ∧ (Arc.make ⟨1, 1⟩ ⟨1, 0⟩ (-(π / 2))).reverse.points t ≠ (Arc.make ⟨1, 1⟩ ⟨1, 0⟩ (-(π / 2))).points (1 - t) := by
  have h1 : (Arc.make ⟨1, 1⟩ ⟨1, 0⟩ (-(π / 2))).p1 = ⟨2, 0⟩ := by
    rw [(arc_end _ _ _).2]
    ext <;> simp [Vec2.add, Vec2.sub, Vec2.rotated, FTrans.cos, FTrans.sin]
    norm_num
  have h2 := (arc_endRad_iff_partial ⟨1, 1⟩ ⟨1, 0⟩ (-(π / 2)) (by rw [h1]; simp)).2 ⟨1 / 2, by norm_num, by rw [h1]; norm_num⟩
  refine ⟨h1, h2, ?_⟩
  by_contra hn
  push Not at hn
  have := (arc_reverse_iff_partial _ _ _ (by simp) h2).1 hn
  have hp := Real.pi_pos
  linarith

end River
