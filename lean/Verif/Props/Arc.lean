import Verif.Spec.Arc

/-! # Arcs (C46, C51) -/

namespace River
open Real

/-- IEEE remainder: at most half the divisor in size, and differing from the dividend by a multiple of it. -/
theorem remainder_spec (x y : ℝ) (hy : 0 < y) :
    |FAngle.remainder x y| ≤ y / 2 ∧ ∃ k : ℤ, FAngle.remainder x y = x + k * y := by
  have h1 := Int.floor_le (x / y)
  have h2 := Int.lt_floor_add_one (x / y)
  have hx : x = x / y * y := by field_simp
  constructor
  · change |x - y * roundEven (x / y)| ≤ y / 2
    have key : |x / y - roundEven (x / y)| ≤ 1 / 2 := by
      unfold roundEven
      dsimp only
      rw [abs_le]
      split_ifs <;> push_cast <;> constructor <;> linarith
    calc |x - y * roundEven (x / y)| = |(x / y - roundEven (x / y)) * y| := by congr 1; rw [sub_mul]; rw [← hx]; ring
      _ = |x / y - roundEven (x / y)| * y := by rw [abs_mul, abs_of_pos hy]
      _ ≤ 1 / 2 * y := by gcongr
      _ = y / 2 := by ring
  · exact ⟨-roundEven (x / y), by change x - y * roundEven (x / y) = _; push_cast; ring⟩

/-- C46: `clamp_0_2pi` returns the same direction as an angle of `[0, 2π)`. -/
theorem clamp2pi_spec (x : ℝ) : 0 ≤ clamp2pi x ∧ clamp2pi x < 2 * π ∧ SameDir (clamp2pi x) x := by
  have hp := Real.pi_pos
  obtain ⟨h1, k, h2⟩ := remainder_spec x (π * 2) (by linarith)
  rw [abs_le] at h1
  have hc : clamp2pi x = if FAngle.remainder x (π * 2) < 0 then FAngle.remainder x (π * 2) + π * 2 else FAngle.remainder x (π * 2) := by
    unfold clamp2pi
    simp [FAngle.signbit, FAngle.pi]
  rw [hc]
  split
  · exact ⟨by linarith, by linarith, k + 1, by rw [h2]; push_cast; ring⟩
  · exact ⟨by linarith, by linarith, k, by rw [h2]; ring⟩

theorem SameDir.cos {a b : ℝ} (h : SameDir a b) : Real.cos a = Real.cos b := by
  obtain ⟨k, rfl⟩ := h
  exact Real.cos_add_int_mul_two_pi b k

theorem SameDir.sin {a b : ℝ} (h : SameDir a b) : Real.sin a = Real.sin b := by
  obtain ⟨k, rfl⟩ := h
  exact Real.sin_add_int_mul_two_pi b k

theorem dist_eq (v : Vec2 ℝ) : v.dist = ‖(⟨v.x, v.y⟩ : ℂ)‖ := by
  rw [Complex.norm_def]
  rfl

/-- A vector is its length times its direction. -/
theorem polar_atan2 (v : Vec2 ℝ) : v.dist * Real.cos (clamp2pi (FAngle.atan2 v.y v.x)) = v.x ∧
    v.dist * Real.sin (clamp2pi (FAngle.atan2 v.y v.x)) = v.y := by
  have h := (clamp2pi_spec (FAngle.atan2 v.y v.x)).2.2
  rw [h.cos, h.sin, dist_eq]
  exact ⟨Complex.norm_mul_cos_arg ⟨v.x, v.y⟩, Complex.norm_mul_sin_arg ⟨v.x, v.y⟩⟩

/-- **C46**: an arc starts at the given point, which is the point of the circle in the direction `start_rad`, an angle
of `[0, 2π)`. -/
theorem arc_start (s c : Vec2 ℝ) (w : ℝ) :
    (Arc.make s c w).p0 = s ∧ polar c (Arc.make s c w).radius (Arc.make s c w).startRad = s ∧
      0 ≤ (Arc.make s c w).startRad ∧ (Arc.make s c w).startRad < 2 * π := by
  have h := polar_atan2 (s.sub c)
  have h2 := clamp2pi_spec (FAngle.atan2 (s.sub c).y (s.sub c).x)
  refine ⟨rfl, ?_, h2.1, h2.2.1⟩
  ext
  · change c.x + (s.sub c).dist * Real.cos (clamp2pi (FAngle.atan2 (s.sub c).y (s.sub c).x)) = _
    rw [h.1]
    simp [Vec2.sub]
  · change c.y + (s.sub c).dist * Real.sin (clamp2pi (FAngle.atan2 (s.sub c).y (s.sub c).x)) = _
    rw [h.2]
    simp [Vec2.sub]

/-- **C46**: an arc ends on the circle in the direction reached after the swept angle. -/
theorem arc_end (s c : Vec2 ℝ) (w : ℝ) :
    (Arc.make s c w).p1 = polar c (Arc.make s c w).radius ((Arc.make s c w).startRad + w) ∧
      (Arc.make s c w).p1 = c.add ((s.sub c).rotated w) := by
  have h := polar_atan2 (s.sub c)
  have h1 : (Arc.make s c w).p1 = polar c (Arc.make s c w).radius ((Arc.make s c w).startRad + w) := by
    ext
    · exact congrArg (c.x + ·) (mul_comm (Real.cos _) _)
    · exact congrArg (c.y + ·) (mul_comm (Real.sin _) _)
  refine ⟨h1, ?_⟩
  rw [h1]
  ext
  · change c.x + (s.sub c).dist * Real.cos (clamp2pi (FAngle.atan2 (s.sub c).y (s.sub c).x) + w)
      = c.x + (Real.cos w * (s.sub c).x - Real.sin w * (s.sub c).y)
    rw [Real.cos_add]
    linear_combination Real.cos w * h.1 - Real.sin w * h.2
  · change c.y + (s.sub c).dist * Real.sin (clamp2pi (FAngle.atan2 (s.sub c).y (s.sub c).x) + w)
      = c.y + (Real.sin w * (s.sub c).x + Real.cos w * (s.sub c).y)
    rw [Real.sin_add]
    linear_combination Real.sin w * h.1 + Real.cos w * h.2

/-- **C46**: both ends of an arc are at distance `radius` from the centre. -/
theorem arc_radius (s c : Vec2 ℝ) (w : ℝ) :
    (Arc.make s c w).radius = ((Arc.make s c w).p0.sub c).dist ∧ (Arc.make s c w).radius = ((Arc.make s c w).p1.sub c).dist := by
  refine ⟨rfl, ?_⟩
  change (s.sub c).dist = _
  rw [(arc_end s c w).2]
  change Real.sqrt _ = Real.sqrt _
  congr 1
  simp only [Vec2.dist2, Vec2.add, Vec2.sub, Vec2.rotated, field_add, field_mul, field_sub]
  change _ = (c.x + (Real.cos w * _ - Real.sin w * _) - c.x) * _ + _
  have h := Real.sin_sq_add_cos_sq w
  linear_combination (norm := skip) (-(s.x - c.x) ^ 2 - (s.y - c.y) ^ 2) * h
  simp only [FTrans.cos, FTrans.sin]
  ring

/-- **C46**: for an arc around the origin `end_rad` is the direction of its end. Missing for the full property: other centres
(`arc_endRad_wrong`). -/
theorem arc_endRad_partial (s : Vec2 ℝ) (w : ℝ) :
    polar ⟨0, 0⟩ (Arc.make s ⟨0, 0⟩ w).radius (Arc.make s ⟨0, 0⟩ w).endRad = (Arc.make s ⟨0, 0⟩ w).p1 := by
  have h := polar_atan2 (Arc.make s ⟨0, 0⟩ w).p1
  have hr := (arc_radius s ⟨0, 0⟩ w).2
  have hz : (Arc.make s ⟨0, 0⟩ w).p1.sub ⟨0, 0⟩ = (Arc.make s ⟨0, 0⟩ w).p1 := by
    ext <;> simp [Vec2.sub]
  rw [hz] at hr
  ext
  · change 0 + _ * Real.cos (clamp2pi (FAngle.atan2 (Arc.make s ⟨0, 0⟩ w).p1.y (Arc.make s ⟨0, 0⟩ w).p1.x)) = _
    rw [hr, h.1, zero_add]
  · change 0 + _ * Real.sin (clamp2pi (FAngle.atan2 (Arc.make s ⟨0, 0⟩ w).p1.y (Arc.make s ⟨0, 0⟩ w).p1.x)) = _
    rw [hr, h.2, zero_add]

/-- **C46 is false**: `end_rad` is measured around the origin instead of the centre. For the quarter circle around `(10,0)` from
`(11,0)` to `(10,1)` it is not the direction of the end. -/
theorem arc_endRad_wrong :
    (Arc.make ⟨11, 0⟩ ⟨10, 0⟩ (π / 2)).p1 = ⟨10, 1⟩ ∧
      polar ⟨10, 0⟩ (Arc.make ⟨11, 0⟩ ⟨10, 0⟩ (π / 2)).radius (Arc.make ⟨11, 0⟩ ⟨10, 0⟩ (π / 2)).endRad ≠
        (Arc.make ⟨11, 0⟩ ⟨10, 0⟩ (π / 2)).p1 := by
  have h1 : (Arc.make ⟨11, 0⟩ ⟨10, 0⟩ (π / 2)).p1 = ⟨10, 1⟩ := by
    rw [(arc_end _ _ _).2]
    ext <;> simp [Vec2.add, Vec2.sub, Vec2.rotated, FTrans.cos, FTrans.sin]
    norm_num
  refine ⟨h1, ?_⟩
  have hr : (Arc.make ⟨11, 0⟩ ⟨10, 0⟩ (π / 2)).radius = 1 := by
    change Real.sqrt _ = 1
    rw [Real.sqrt_eq_one]
    simp [Vec2.dist2, Vec2.sub]
    norm_num
  have h := polar_atan2 (Arc.make ⟨11, 0⟩ ⟨10, 0⟩ (π / 2)).p1
  intro hc
  have hx := congrArg Vec2.x hc
  rw [hr, h1] at hx
  change 10 + 1 * Real.cos (clamp2pi (FAngle.atan2 (Arc.make ⟨11, 0⟩ ⟨10, 0⟩ (π / 2)).p1.y (Arc.make ⟨11, 0⟩ ⟨10, 0⟩ (π / 2)).p1.x)) = 10 at hx
  have h0 := h.1
  rw [show Real.cos (clamp2pi (FAngle.atan2 (Arc.make ⟨11, 0⟩ ⟨10, 0⟩ (π / 2)).p1.y (Arc.make ⟨11, 0⟩ ⟨10, 0⟩ (π / 2)).p1.x)) = 0 by linarith,
    h1] at h0
  norm_num at h0

/-- **C46**: reversing an arc exchanges its ends and twice gives the arc back. -/
theorem arc_reverse {K : Type} [FAngle K] (a : Arc K) : a.reverse.p0 = a.p1 ∧ a.reverse.p1 = a.p0 ∧
    a.reverse.center = a.center ∧ a.reverse.radius = a.radius ∧ a.reverse.reverse = a := ⟨rfl, rfl, rfl, rfl, rfl⟩

/-- **C46 is false**: `reverse` keeps the sign of the swept angle, so the reversed arc describes other points: the quarter
circle from `(1,0)` to `(0,1)` becomes the one from `(0,1)` to `(-1,0)`. -/
theorem arc_reverse_wrong :
    (Arc.make ⟨1, 0⟩ ⟨0, 0⟩ (π / 2)).points 0 = ⟨1, 0⟩ ∧ (Arc.make ⟨1, 0⟩ ⟨0, 0⟩ (π / 2)).reverse.p1 = ⟨1, 0⟩ ∧
      (Arc.make ⟨1, 0⟩ ⟨0, 0⟩ (π / 2)).reverse.points 1 = ⟨-1, 0⟩ := by
  have hp : (Arc.make ⟨1, 0⟩ ⟨0, 0⟩ (π / 2)).p1 = ⟨0, 1⟩ := by
    rw [(arc_end _ _ _).2]
    ext <;> simp [Vec2.add, Vec2.sub, Vec2.rotated, FTrans.cos, FTrans.sin]
  have he := arc_endRad_partial ⟨1, 0⟩ (π / 2)
  rw [hp] at he
  have hr : (Arc.make ⟨1, 0⟩ ⟨0, 0⟩ (π / 2)).radius = 1 := by
    change Real.sqrt _ = 1
    rw [Real.sqrt_eq_one]
    simp [Vec2.dist2, Vec2.sub]
  rw [hr] at he
  have hcos : Real.cos (Arc.make ⟨1, 0⟩ ⟨0, 0⟩ (π / 2)).endRad = 0 := by
    have := congrArg Vec2.x he
    simpa [polar] using this
  have hsin : Real.sin (Arc.make ⟨1, 0⟩ ⟨0, 0⟩ (π / 2)).endRad = 1 := by
    have := congrArg Vec2.y he
    simpa [polar] using this
  refine ⟨?_, rfl, ?_⟩
  · have := (arc_start ⟨1, 0⟩ ⟨0, 0⟩ (π / 2)).2.1
    unfold Arc.points
    rw [zero_mul, add_zero]
    exact this
  · unfold Arc.points
    change polar ⟨0, 0⟩ (Arc.make ⟨1, 0⟩ ⟨0, 0⟩ (π / 2)).radius ((Arc.make ⟨1, 0⟩ ⟨0, 0⟩ (π / 2)).endRad + 1 * (π / 2)) = _
    rw [hr]
    ext
    · simp only [polar, Real.cos_add, one_mul, Real.cos_pi_div_two, Real.sin_pi_div_two, hcos, hsin]; norm_num
    · simp only [polar, Real.sin_add, one_mul, Real.cos_pi_div_two, Real.sin_pi_div_two, hcos, hsin]; norm_num

/-- The arc is described by its accessors: `points` runs from `start` to `end`. -/
theorem arc_points (s c : Vec2 ℝ) (w : ℝ) : (Arc.make s c w).points 0 = s ∧ (Arc.make s c w).points 1 = (Arc.make s c w).p1 := by
  constructor
  · unfold Arc.points
    rw [zero_mul, add_zero]
    exact (arc_start s c w).2.1
  · rw [(arc_end s c w).1]
    unfold Arc.points
    rw [one_mul]
    rfl

/-! ## Vectors -/

/-- **C52**: rotating keeps the length, rotations add up, and turning back restores the vector. -/
theorem rotated_spec (v : Vec2 ℝ) (a b : ℝ) : (v.rotated a).dist = v.dist ∧ (v.rotated a).rotated b = v.rotated (a + b) ∧
    (v.rotated a).rotated (-a) = v := by
  have hadd : ∀ c, (v.rotated a).rotated c = v.rotated (a + c) := by
    intro c
    ext
    · simp only [Vec2.rotated, field_add, field_mul, field_sub]
      simp only [FTrans.cos, FTrans.sin, Real.cos_add, Real.sin_add]
      ring
    · simp only [Vec2.rotated, field_add, field_mul, field_sub]
      simp only [FTrans.cos, FTrans.sin, Real.cos_add, Real.sin_add]
      ring
  refine ⟨?_, hadd b, ?_⟩
  · change Real.sqrt _ = Real.sqrt _
    congr 1
    simp only [Vec2.dist2, Vec2.rotated, field_add, field_mul, field_sub]
    simp only [FTrans.cos, FTrans.sin]
    have h := Real.sin_sq_add_cos_sq a
    linear_combination (v.x ^ 2 + v.y ^ 2) * h
  · rw [hadd, add_neg_cancel]
    ext <;> simp [Vec2.rotated, FTrans.cos, FTrans.sin]

/-- **C52**: normalising a vector other than zero gives length one and keeps the direction. -/
theorem normalization_spec (v : Vec2 ℝ) (h : v ≠ ⟨0, 0⟩) : v.normalization.dist = 1 ∧
    0 < v.dist ∧ v.normalization.smul v.dist = v := by
  have hpos : 0 < v.x * v.x + v.y * v.y := by
    rcases eq_or_ne v.x 0 with hx | hx
    · rcases eq_or_ne v.y 0 with hy | hy
      · exact absurd (Vec2.ext hx hy) h
      · nlinarith [mul_self_pos.2 hy, mul_self_nonneg v.x]
    · nlinarith [mul_self_pos.2 hx, mul_self_nonneg v.y]
  have hd : 0 < v.dist := Real.sqrt_pos.2 hpos
  have hsq : v.dist * v.dist = v.x * v.x + v.y * v.y := Real.mul_self_sqrt hpos.le
  refine ⟨?_, hd, ?_⟩
  · change Real.sqrt (v.x / v.dist * (v.x / v.dist) + v.y / v.dist * (v.y / v.dist)) = 1
    rw [Real.sqrt_eq_one]
    have : v.x / v.dist * (v.x / v.dist) + v.y / v.dist * (v.y / v.dist) = (v.x * v.x + v.y * v.y) / (v.dist * v.dist) := by
      field_simp
    rw [this, hsq, div_self hpos.ne']
  · ext
    · exact div_mul_cancel₀ _ hd.ne'
    · exact div_mul_cancel₀ _ hd.ne'

/-- C52, a case: the vector `(3,4)`. -/
example : (⟨3, 4⟩ : Vec2 ℝ).dist = 5 := by
  change Real.sqrt (3 * 3 + 4 * 4) = 5
  rw [show (3 * 3 + 4 * 4 : ℝ) = 5 ^ 2 by norm_num, Real.sqrt_sq (by norm_num)]

/-! ## Splitting -/

theorem toInt_mono {a b : ℝ} (h : a ≤ b) : FAngle.toInt a ≤ FAngle.toInt b := by
  change (if 0 ≤ a then ⌊a⌋ else ⌈a⌉) ≤ (if 0 ≤ b then ⌊b⌋ else ⌈b⌉)
  split_ifs with h1 h2 h2
  · exact Int.floor_le_floor h
  · linarith
  · exact le_trans (Int.ceil_le.2 (by push_cast; linarith)) (Int.floor_nonneg.2 h2)
  · exact Int.ceil_le_ceil h

/-- **C51**: the number of pieces reported is at least one. -/
theorem splitNum_pos (a : Arc ℝ) : 1 ≤ a.splitNum := by
  have hp := Real.pi_pos
  have hle : a.phases.1 ≤ a.phases.2 := by
    unfold Arc.phases
    simp only [field_lt, field_add, field_sub, decide_eq_true_eq]
    split <;> simp <;> linarith
  have hm : FAngle.toInt (a.phases.1 / π) ≤ FAngle.toInt (a.phases.2 / π) :=
    toInt_mono (by gcongr)
  unfold Arc.splitNum
  dsimp only
  change FAngle.toInt (a.phases.1 /. FAngle.pi) ≤ FAngle.toInt (a.phases.2 /. FAngle.pi) at hm
  split_ifs <;> omega

/-- **C51 is false**: the quarter circle from direction `π/4` to `3π/4` passes the top of the circle, where its ordinate stops
growing, but is reported as one piece; and `split_y` writes nothing at all. -/
theorem splitNum_wrong : let a : Arc ℝ := Arc.make ⟨1, 1⟩ ⟨0, 0⟩ (π / 2)
    a.startRad = π / 4 ∧ Turning (a.startRad + a.sweep / 2) ∧ (a.points 0).y < (a.points (1 / 2)).y ∧ (a.points 1).y < (a.points (1 / 2)).y ∧
      a.splitNum = 1 ∧ ∀ out, a.splitY out = out := by
  intro a
  have hp := Real.pi_pos
  have hs : a.startRad = π / 4 := by
    have harg : FAngle.atan2 (1 : ℝ) 1 = π / 4 := by
      change Complex.arg ⟨1, 1⟩ = π / 4
      have h2 : (⟨1, 1⟩ : ℂ) = (Real.sqrt 2 : ℝ) * (Complex.cos ((π / 4 : ℝ) : ℂ) + Complex.sin ((π / 4 : ℝ) : ℂ) * Complex.I) := by
        rw [← Complex.ofReal_cos, ← Complex.ofReal_sin, Real.cos_pi_div_four, Real.sin_pi_div_four]
        have : (Real.sqrt 2) * (Real.sqrt 2 / 2) = 1 := by
          have := Real.mul_self_sqrt (show (0:ℝ) ≤ 2 by norm_num)
          linarith
        apply Complex.ext <;> simp [this]
      rw [h2]
      exact Complex.arg_mul_cos_add_sin_mul_I (by positivity) ⟨by linarith, by linarith⟩
    have h := clamp2pi_spec (π / 4)
    obtain ⟨h1, h2, k, h3⟩ := h
    change clamp2pi (FAngle.atan2 ((1 : ℝ) -. 0) (1 -. 0)) = π / 4
    simp only [field_sub, sub_zero]
    rw [harg]
    have hk1 : (-1 : ℝ) < k := by
      by_contra hc
      push Not at hc
      nlinarith
    have hk2 : (k : ℝ) < 1 := by
      by_contra hc
      push Not at hc
      nlinarith
    have hk0 : k = 0 := by
      have : (-1 : ℤ) < k := by exact_mod_cast hk1
      have : k < (1 : ℤ) := by exact_mod_cast hk2
      omega
    rw [h3, hk0]
    push_cast
    ring
  have hw : a.sweep = π / 2 := rfl
  have hr : 0 < a.radius := by
    change 0 < Real.sqrt _
    apply Real.sqrt_pos.2
    simp [Vec2.dist2, Vec2.sub]
  have hs2 : Real.sqrt 2 / 2 < 1 := by
    have : Real.sqrt 2 < 2 := by
      rw [Real.sqrt_lt' (by norm_num)]
      norm_num
    linarith
  refine ⟨hs, ?_, ?_, ?_, ?_, fun _ => rfl⟩
  · rw [hs, hw, show π / 4 + π / 2 / 2 = π / 2 by ring]
    exact Real.cos_pi_div_two
  · simp only [Arc.points, polar, hs, hw]
    rw [show π / 4 + 0 * (π / 2) = π / 4 by ring, show π / 4 + 1 / 2 * (π / 2) = π / 2 by ring, Real.sin_pi_div_two, Real.sin_pi_div_four]
    nlinarith
  · simp only [Arc.points, polar, hs, hw]
    rw [show π / 4 + 1 * (π / 2) = π - π / 4 by ring, show π / 4 + 1 / 2 * (π / 2) = π / 2 by ring, Real.sin_pi_div_two, Real.sin_pi_sub,
      Real.sin_pi_div_four]
    nlinarith
  · have hph : a.phases = (-(π / 4), π / 4) := by
      unfold Arc.phases
      rw [hs, hw]
      simp only [field_lt, field_add, field_sub, field_div, field_lit, FAngle.pi]
      rw [if_neg (by simp; linarith)]
      ext <;> simp <;> ring
    unfold Arc.splitNum
    rw [hph]
    dsimp only
    have e1 : FAngle.toInt ((-(π / 4)) /. FAngle.pi) = 0 := by
      change (if (0 : ℝ) ≤ -(π / 4) / π then ⌊-(π / 4) / π⌋ else ⌈-(π / 4) / π⌉) = 0
      have : -(π / 4) / π = -(1 / 4) := by field_simp
      rw [this, if_neg (by norm_num), Int.ceil_eq_iff]
      norm_num
    have e2 : FAngle.toInt ((π / 4) /. FAngle.pi) = 0 := by
      change (if (0 : ℝ) ≤ (π / 4) / π then ⌊(π / 4) / π⌋ else ⌈(π / 4) / π⌉) = 0
      have : (π / 4) / π = 1 / 4 := by field_simp
      rw [this, if_pos (by norm_num), Int.floor_eq_iff]
      norm_num
    rw [e1, e2]
    rfl

end River
