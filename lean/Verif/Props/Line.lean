import Verif.Lemmas.Fin

/-! # C11-C15: line/line intersection and helpers

Level: exact arithmetic with IEEE special values (`Ext R`, `R` any ordered field), finite coordinates. -/

set_option linter.unusedSectionVars false

namespace River
variable {R : Type} [Field R] [LinearOrder R] [IsStrictOrderedRing R]

theorem dist2_inside (p l0 l1 : Vec2 R) (h : l0 ≠ l1)
    (h1 : ¬ ((l1.x - l0.x) * (p.x - l0.x) + (l1.y - l0.y) * (p.y - l0.y) < 0))
    (h2 : ¬ ((l1.x - l0.x) * (l1.x - l0.x) + (l1.y - l0.y) * (l1.y - l0.y) <
      (l1.x - l0.x) * (p.x - l0.x) + (l1.y - l0.y) * (p.y - l0.y))) :
    dist2PointLine p.fin l0.fin l1.fin = .fin (sqDist p (lerp l0 l1
      (((l1.x - l0.x) * (p.x - l0.x) + (l1.y - l0.y) * (p.y - l0.y)) /
        ((l1.x - l0.x) * (l1.x - l0.x) + (l1.y - l0.y) * (l1.y - l0.y))))) := by
  have hd : (l1.x - l0.x) * (l1.x - l0.x) + (l1.y - l0.y) * (l1.y - l0.y) ≠ 0 := by
    intro h0
    apply h
    have hx : l1.x - l0.x = 0 := by nlinarith [mul_self_nonneg (l1.x - l0.x), mul_self_nonneg (l1.y - l0.y)]
    have hy : l1.y - l0.y = 0 := by nlinarith [mul_self_nonneg (l1.x - l0.x), mul_self_nonneg (l1.y - l0.y)]
    ext <;> linarith
  unfold dist2PointLine
  simp only [Vec2.fin_sub, Vec2.fin_dist2, Vec2.fin_dot, Ext.lit_eq, Ext.fin_lt, decide_eq_true_eq, Rat.cast_zero]
  rw [if_neg h1, if_neg h2, Ext.fin_div _ _ hd]
  simp only [Vec2.fin_smul, Vec2.fin_add, Vec2.fin_sub, Vec2.fin_dist2, sqDist, lerp]
  congr 1; ring

/-- **C15** (exact): for a proper line `dist2_point_line` returns the squared distance from the point to the finite
*segment* `l0 l1`: it is attained at a point of the segment and no point of the segment is nearer. -/
theorem dist2PointLine_segment (p l0 l1 : Vec2 R) (h : l0 ≠ l1) :
    ∃ q, OnSeg q l0 l1 ∧ dist2PointLine p.fin l0.fin l1.fin = .fin (sqDist p q) ∧
      ∀ q', OnSeg q' l0 l1 → sqDist p q ≤ sqDist p q' := by
  by_cases h1 : (l1.x - l0.x) * (p.x - l0.x) + (l1.y - l0.y) * (p.y - l0.y) < 0
  · refine ⟨l0, ⟨0, le_refl _, by norm_num, by ext <;> simp [lerp]⟩, ?_, ?_⟩
    · unfold dist2PointLine
      simp only [Vec2.fin_sub, Vec2.fin_dist2, Vec2.fin_dot, Ext.lit_eq, Ext.fin_lt, decide_eq_true_eq, Rat.cast_zero]
      rw [if_pos h1, sqDist]; congr 1; ring
    · rintro q' ⟨t, ht0, ht1, rfl⟩
      unfold sqDist lerp
      simp only
      nlinarith [mul_nonneg ht0 (neg_nonneg.mpr h1.le), mul_nonneg ht0 ht0, mul_self_nonneg (t * (l1.x - l0.x)),
        mul_self_nonneg (t * (l1.y - l0.y))]
  · by_cases h2 : (l1.x - l0.x) * (l1.x - l0.x) + (l1.y - l0.y) * (l1.y - l0.y) <
      (l1.x - l0.x) * (p.x - l0.x) + (l1.y - l0.y) * (p.y - l0.y)
    · refine ⟨l1, ⟨1, by norm_num, le_refl _, by ext <;> simp [lerp]⟩, ?_, ?_⟩
      · unfold dist2PointLine
        simp only [Vec2.fin_sub, Vec2.fin_dist2, Vec2.fin_dot, Ext.lit_eq, Ext.fin_lt, decide_eq_true_eq,
          Rat.cast_zero]
        rw [if_neg h1, if_pos h2, sqDist]; congr 1; ring
      · rintro q' ⟨t, ht0, ht1, rfl⟩
        unfold sqDist lerp
        simp only
        have e1 : 0 ≤ 1 - t := by linarith
        nlinarith [mul_nonneg e1 (sub_nonneg.mpr h2.le), mul_self_nonneg ((1 - t) * (l1.x - l0.x)),
          mul_self_nonneg ((1 - t) * (l1.y - l0.y))]
    · refine ⟨_, ⟨_, ?_, ?_, rfl⟩, dist2_inside p l0 l1 h h1 h2, ?_⟩
      · exact div_nonneg (not_lt.mp h1) (add_nonneg (mul_self_nonneg _) (mul_self_nonneg _))
      · exact div_le_one_of_le₀ (not_lt.mp h2) (add_nonneg (mul_self_nonneg _) (mul_self_nonneg _))
      · rintro q' ⟨t, ht0, ht1, rfl⟩
        set d := (l1.x - l0.x) * (l1.x - l0.x) + (l1.y - l0.y) * (l1.y - l0.y) with hd
        set f := (l1.x - l0.x) * (p.x - l0.x) + (l1.y - l0.y) * (p.y - l0.y) with hf
        have hd0 : d ≠ 0 := by
          intro h0
          apply h
          have hx : l1.x - l0.x = 0 := by nlinarith [mul_self_nonneg (l1.x - l0.x), mul_self_nonneg (l1.y - l0.y)]
          have hy : l1.y - l0.y = 0 := by nlinarith [mul_self_nonneg (l1.x - l0.x), mul_self_nonneg (l1.y - l0.y)]
          ext <;> linarith
        have hdn : 0 ≤ d := add_nonneg (mul_self_nonneg _) (mul_self_nonneg _)
        have key : ∀ u : R, sqDist p (lerp l0 l1 u) = sqDist p l0 - 2 * u * f + u ^ 2 * d := by
          intro u; unfold sqDist lerp; rw [hd, hf]; ring
        rw [key, key]
        have hfd : f / d * d = f := div_mul_cancel₀ f hd0
        have : 0 ≤ d * (t - f / d) ^ 2 := mul_nonneg hdn (sq_nonneg _)
        have e : d * (t - f / d) ^ 2 = t ^ 2 * d - 2 * t * (f / d * d) + (f / d) ^ 2 * d := by ring
        have e2 : (f / d) ^ 2 * d = f / d * f := by rw [sq, mul_assoc, hfd]
        rw [e, hfd] at this
        nlinarith

/-- **C15** (exact): for a degenerate line (`l0 = l1`) through the same point or not, the result is NaN. -/
theorem dist2PointLine_degenerate (p l : Vec2 R) : dist2PointLine p.fin l.fin l.fin = Ext.nan := by
  unfold dist2PointLine
  simp only [Vec2.fin_sub, Vec2.fin_dist2, Vec2.fin_dot, Ext.lit_eq, Ext.fin_lt, decide_eq_true_eq, Rat.cast_zero,
    sub_self, zero_mul, add_zero, lt_irrefl, if_false, Ext.fin_div_zero]
  have h : Ext.infSign (0 : R) = Ext.nan := by simp [Ext.infSign]
  rw [h]; rfl

theorem sqDist_eq_zero (p q : Vec2 R) : sqDist p q = 0 ↔ p = q := by
  unfold sqDist
  constructor
  · intro h
    have h1 : (p.x - q.x) ^ 2 = 0 := by nlinarith [sq_nonneg (p.x - q.x), sq_nonneg (p.y - q.y)]
    have h2 : (p.y - q.y) ^ 2 = 0 := by nlinarith [sq_nonneg (p.x - q.x), sq_nonneg (p.y - q.y)]
    have h1' := pow_eq_zero_iff (two_ne_zero) |>.mp h1
    have h2' := pow_eq_zero_iff (two_ne_zero) |>.mp h2
    ext <;> linarith
  · rintro rfl; simp

/-- The test `dist2_point_line(p0, p2, p3) == 0` of `intersect` holds exactly when `p0` lies on the (proper) segment
`p2 p3`. -/
theorem dist2_zero_iff (p l0 l1 : Vec2 R) :
    (dist2PointLine p.fin l0.fin l1.fin ==. FNum.lit 0) = true ↔ l0 ≠ l1 ∧ OnSeg p l0 l1 := by
  by_cases h : l0 = l1
  · subst h; rw [dist2PointLine_degenerate]; simp
  · obtain ⟨q, hq, he, hmin⟩ := dist2PointLine_segment p l0 l1 h
    rw [he]
    simp only [Ext.lit_eq, Rat.cast_zero, Ext.fin_eq, decide_eq_true_eq]
    constructor
    · intro h0; rw [sqDist_eq_zero] at h0; subst h0; exact ⟨h, hq⟩
    · rintro ⟨_, hp⟩
      have h1 := hmin p hp
      have h2 : sqDist p p = 0 := (sqDist_eq_zero p p).mpr rfl
      have h3 : 0 ≤ sqDist p q := by unfold sqDist; positivity
      linarith

/-- **C15 is false of the code** for the infinite line its comment speaks of: `(2,0)` is on the line through `(0,0)`
and `(1,0)`, but the result is `1`. -/
theorem dist2PointLine_not_line :
    ¬ ∀ p l0 l1 : Vec2 ℚ, l0 ≠ l1 → OnLine p l0 l1 → dist2PointLine p.fin l0.fin l1.fin = .fin 0 := by
  intro h
  have := h ⟨2, 0⟩ ⟨0, 0⟩ ⟨1, 0⟩ (by decide) ⟨2, by ext <;> norm_num [lerp]⟩
  revert this; decide +kernel

/-- **C15** (exact, partial): if the foot of the perpendicular falls inside the segment, the result is the squared
distance to the infinite line. Missing: the other points, where the code returns the distance to an end point. -/
theorem dist2PointLine_line_partial (p l0 l1 : Vec2 R) (h : l0 ≠ l1) (s : R) (hs0 : 0 ≤ s) (hs1 : s ≤ 1)
    (hperp : (l1.x - l0.x) * (p.x - (lerp l0 l1 s).x) + (l1.y - l0.y) * (p.y - (lerp l0 l1 s).y) = 0) :
    dist2PointLine p.fin l0.fin l1.fin = .fin (sqDist p (lerp l0 l1 s)) ∧
      ∀ q, OnLine q l0 l1 → sqDist p (lerp l0 l1 s) ≤ sqDist p q := by
  have hd : 0 < (l1.x - l0.x) * (l1.x - l0.x) + (l1.y - l0.y) * (l1.y - l0.y) := by
    by_contra hc
    apply h
    have hx : l1.x - l0.x = 0 := by nlinarith [mul_self_nonneg (l1.x - l0.x), mul_self_nonneg (l1.y - l0.y)]
    have hy : l1.y - l0.y = 0 := by nlinarith [mul_self_nonneg (l1.x - l0.x), mul_self_nonneg (l1.y - l0.y)]
    ext <;> linarith
  set d := (l1.x - l0.x) * (l1.x - l0.x) + (l1.y - l0.y) * (l1.y - l0.y) with hdd
  have hf : (l1.x - l0.x) * (p.x - l0.x) + (l1.y - l0.y) * (p.y - l0.y) = s * d := by
    simp only [lerp] at hperp; rw [hdd]; linarith
  constructor
  · rw [dist2_inside p l0 l1 h (by rw [hf]; exact not_lt.mpr (mul_nonneg hs0 hd.le))
      (by rw [hf, ← hdd]; exact not_lt.mpr (by nlinarith)), hf, ← hdd, mul_div_assoc, div_self hd.ne', mul_one]
  · rintro q ⟨t, rfl⟩
    have key : ∀ u : R, sqDist p (lerp l0 l1 u) = sqDist p l0 - 2 * u * (s * d) + u ^ 2 * d := by
      intro u; rw [← hf]; unfold sqDist lerp; rw [hdd]; ring
    rw [key, key]
    nlinarith [mul_nonneg hd.le (sq_nonneg (t - s))]

/-- **C15** (exact, partial): `point_project_in_segment` for a proper segment tells whether the projection parameter
is at most 1. Missing: the lower bound 0, which the code does not test (`pointProject_not_inside`). -/
theorem pointProject_partial (p p0 p1 : Vec2 R) (h : p0 ≠ p1) (s : R)
    (hperp : (p1.x - p0.x) * (p.x - (lerp p0 p1 s).x) + (p1.y - p0.y) * (p.y - (lerp p0 p1 s).y) = 0) :
    pointProjectInSegment p.fin p0.fin p1.fin = true ↔ s ≤ 1 := by
  have hd : 0 < (p1.x - p0.x) * (p1.x - p0.x) + (p1.y - p0.y) * (p1.y - p0.y) := by
    by_contra hc
    apply h
    have hx : p1.x - p0.x = 0 := by nlinarith [mul_self_nonneg (p1.x - p0.x), mul_self_nonneg (p1.y - p0.y)]
    have hy : p1.y - p0.y = 0 := by nlinarith [mul_self_nonneg (p1.x - p0.x), mul_self_nonneg (p1.y - p0.y)]
    ext <;> linarith
  unfold pointProjectInSegment
  rw [Vec2.fin_beq, if_neg (by simpa using fun e => h e.symm)]
  simp only [Vec2.fin_sub, Vec2.fin_dot]
  rw [Ext.fin_div _ _ hd.ne']
  simp only [Ext.lit_eq, Ext.fin_le, decide_eq_true_eq, Rat.cast_one]
  have hf : (p1.x - p0.x) * (p.x - p0.x) + (p1.y - p0.y) * (p.y - p0.y) =
      s * ((p1.x - p0.x) * (p1.x - p0.x) + (p1.y - p0.y) * (p1.y - p0.y)) := by
    simp only [lerp] at hperp; linarith
  rw [hf, mul_div_assoc, div_self hd.ne', mul_one]

/-- **C15 is false of the code** for `point_project_in_segment`: `(-1,0)` projects to `(-1,0)`, outside the segment from
`(0,0)` to `(1,0)`, but the answer is true. -/
theorem pointProject_not_inside : ¬ ∀ p p0 p1 : Vec2 ℚ, p0 ≠ p1 →
    pointProjectInSegment p.fin p0.fin p1.fin = true → ∃ s, 0 ≤ s ∧ s ≤ 1 ∧
      (p1.x - p0.x) * (p.x - (lerp p0 p1 s).x) + (p1.y - p0.y) * (p.y - (lerp p0 p1 s).y) = 0 := by
  intro h
  obtain ⟨s, hs0, hs1, hs⟩ := h ⟨-1, 0⟩ ⟨0, 0⟩ ⟨1, 0⟩ (by decide) (by decide +kernel)
  norm_num [lerp] at hs
  linarith

/-- **C15** (exact): for distinct points `line::general_from` returns the coefficients of their line: `A`, `B` are not
both zero, and `A x + B y + C = 0` exactly for the points of the line. -/
theorem generalFrom_spec (p0 p1 : Vec2 R) (h : p0 ≠ p1) : ∃ A B C : R,
    generalFrom p0.fin p1.fin = (.fin A, .fin B, .fin C) ∧ (A ≠ 0 ∨ B ≠ 0) ∧
    ∀ q, A * q.x + B * q.y + C = 0 ↔ OnLine q p0 p1 := by
  unfold generalFrom
  rw [Vec2.fin_beq, if_neg (by simpa using h)]
  simp only [Vec2.fin, Ext.fin_eq, Ext.lit_eq, Ext.fin_neg, Ext.fin_sub, Ext.fin_mul, decide_eq_true_eq, Rat.cast_zero,
    Rat.cast_one]
  by_cases hx : p0.x = p1.x
  · have hy : p1.y - p0.y ≠ 0 := fun e => h (by ext <;> [exact hx; linarith])
    refine ⟨1, 0, -p0.x, by rw [if_pos hx], Or.inl one_ne_zero, ?_⟩
    intro q
    constructor
    · intro e
      refine ⟨(q.y - p0.y) / (p1.y - p0.y), ?_⟩
      ext
      · simp only [lerp]; rw [hx]; linarith
      · simp only [lerp]; rw [div_mul_cancel₀ _ hy]; ring
    · rintro ⟨t, rfl⟩; simp only [lerp]; rw [hx]; ring
  · rw [if_neg hx]
    have hx' : p1.x - p0.x ≠ 0 := fun e => hx (by linarith)
    by_cases hy : p0.y = p1.y
    · rw [if_pos hy]
      refine ⟨0, 1, -p0.y, rfl, Or.inr one_ne_zero, ?_⟩
      intro q
      constructor
      · intro e
        refine ⟨(q.x - p0.x) / (p1.x - p0.x), ?_⟩
        ext
        · simp only [lerp]; rw [div_mul_cancel₀ _ hx']; ring
        · simp only [lerp]; rw [hy]; linarith
      · rintro ⟨t, rfl⟩; simp only [lerp]; rw [hy]; ring
    · rw [if_neg hy]
      refine ⟨_, _, _, rfl, Or.inl (fun e => hy (by linarith)), ?_⟩
      intro q
      constructor
      · intro e
        refine ⟨(q.x - p0.x) / (p1.x - p0.x), ?_⟩
        ext
        · simp only [lerp]; rw [div_mul_cancel₀ _ hx']; ring
        · simp only [lerp]
          field_simp
          linarith
      · rintro ⟨t, rfl⟩; simp only [lerp]; ring

/-! ## intersection -/

theorem fin_lerp (a b : Vec2 R) (t : R) :
    a.fin.add ((b.fin.sub a.fin).smul (.fin t)) = (lerp a b t).fin := by
  rw [Vec2.fin_sub, Vec2.fin_smul, Vec2.fin_add]; congr 1; unfold lerp; ext <;> simp <;> ring

/-- the denominator of `intersect` -/
theorem lineIntersect_nonparallel (p0 p1 p2 p3 : Vec2 R) (h : ¬ Parallel p0 p1 p2 p3) :
    let den := (p1.y - p0.y) * (p2.x - p3.x) - (p1.x - p0.x) * (p2.y - p3.y)
    let na := ((p2.y - p3.y) * (p0.x - p2.x) - (p2.x - p3.x) * (p0.y - p2.y)) * (1 / den)
    let nb := ((p1.x - p0.x) * (p0.y - p2.y) - (p1.y - p0.y) * (p0.x - p2.x)) * (1 / den)
    den ≠ 0 ∧ lerp p0 p1 na = lerp p2 p3 nb ∧
    (∀ s t, lerp p0 p1 s = lerp p2 p3 t → s = na ∧ t = nb) ∧
    lineIntersect p0.fin p1.fin p2.fin p3.fin =
      if (0 ≤ na ∧ na ≤ 1) ∧ (0 ≤ nb ∧ nb ≤ 1) then some [⟨(lerp p0 p1 na).fin, .fin na, .fin nb⟩] else some [] := by
  intro den na nb
  have hden : den ≠ 0 := by
    intro e; apply h; unfold Parallel; simp only [den] at e; linarith
  have hna : na * den = (p2.y - p3.y) * (p0.x - p2.x) - (p2.x - p3.x) * (p0.y - p2.y) := by
    simp only [na]; rw [mul_assoc, one_div, inv_mul_cancel₀ hden, mul_one]
  have hnb : nb * den = (p1.x - p0.x) * (p0.y - p2.y) - (p1.y - p0.y) * (p0.x - p2.x) := by
    simp only [nb]; rw [mul_assoc, one_div, inv_mul_cancel₀ hden, mul_one]
  refine ⟨hden, ?_, ?_, ?_⟩
  · ext
    · simp only [lerp]
      apply mul_right_cancel₀ hden
      have : (p0.x + na * (p1.x - p0.x)) * den = p0.x * den + (na * den) * (p1.x - p0.x) := by ring
      rw [this, hna]
      have : (p2.x + nb * (p3.x - p2.x)) * den = p2.x * den + (nb * den) * (p3.x - p2.x) := by ring
      rw [this, hnb]; simp only [den]; ring
    · simp only [lerp]
      apply mul_right_cancel₀ hden
      have : (p0.y + na * (p1.y - p0.y)) * den = p0.y * den + (na * den) * (p1.y - p0.y) := by ring
      rw [this, hna]
      have : (p2.y + nb * (p3.y - p2.y)) * den = p2.y * den + (nb * den) * (p3.y - p2.y) := by ring
      rw [this, hnb]; simp only [den]; ring
  · intro s t e
    have ex : p0.x + s * (p1.x - p0.x) = p2.x + t * (p3.x - p2.x) := congrArg Vec2.x e
    have ey : p0.y + s * (p1.y - p0.y) = p2.y + t * (p3.y - p2.y) := congrArg Vec2.y e
    constructor
    · apply mul_right_cancel₀ hden
      rw [hna]; simp only [den]
      linear_combination (p3.y - p2.y) * ex - (p3.x - p2.x) * ey
    · apply mul_right_cancel₀ hden
      rw [hnb]; simp only [den]
      linear_combination (p1.y - p0.y) * ex - (p1.x - p0.x) * ey
  · unfold lineIntersect
    simp only [Vec2.fin_sub]
    have e1 : ((⟨p1.x - p0.x, p1.y - p0.y⟩ : Vec2 R).fin.y *. (⟨p2.x - p3.x, p2.y - p3.y⟩ : Vec2 R).fin.x -.
        (⟨p1.x - p0.x, p1.y - p0.y⟩ : Vec2 R).fin.x *. (⟨p2.x - p3.x, p2.y - p3.y⟩ : Vec2 R).fin.y) = .fin den := by
      simp [Vec2.fin, den]
    rw [e1]
    have e2 : ((Ext.fin den ==. FNum.lit 0) || !FNum.isFinite (Ext.fin den)) = false := by
      simp [hden]
    rw [e2, if_neg (by simp)]
    have e3 : (FNum.lit 1 /. Ext.fin den) = Ext.fin (1 / den) := by
      rw [Ext.lit_eq, Ext.fin_div _ _ hden]; simp
    rw [e3]
    simp only [Vec2.fin, Ext.fin_mul, Ext.fin_sub, Ext.lit_eq, Ext.fin_le, Rat.cast_zero, Rat.cast_one]
    have e4 : ((decide (0 ≤ na) && decide (na ≤ 1)) && (decide (0 ≤ nb) && decide (nb ≤ 1))) =
        decide ((0 ≤ na ∧ na ≤ 1) ∧ (0 ≤ nb ∧ nb ≤ 1)) := by
      simp [Bool.decide_and]
    change (if ((decide (0 ≤ na) && decide (na ≤ 1)) && (decide (0 ≤ nb) && decide (nb ≤ 1))) = true then _ else _) = _
    rw [e4]
    simp only [decide_eq_true_eq]
    have e5 : (⟨Ext.fin p0.x, Ext.fin p0.y⟩ : Vec2 (Ext R)).add
        ((⟨Ext.fin (p1.x - p0.x), Ext.fin (p1.y - p0.y)⟩ : Vec2 (Ext R)).smul (.fin na)) = (lerp p0 p1 na).fin := by
      have := fin_lerp p0 p1 na
      rw [Vec2.fin_sub] at this
      exact this
    show (if _ then some [(⟨(⟨Ext.fin p0.x, Ext.fin p0.y⟩ : Vec2 (Ext R)).add
        ((⟨Ext.fin (p1.x - p0.x), Ext.fin (p1.y - p0.y)⟩ : Vec2 (Ext R)).smul (.fin na)), .fin na, .fin nb⟩ :
          Info (Ext R))] else _) = _
    rw [e5]
    rfl

/-- **C12** (exact): two non-parallel segments: `intersect` never overflows; it reports one point if the segments have a
common point and nothing otherwise; the reported entry is the (unique) common point with its parameters. -/
theorem lineIntersect_complete (p0 p1 p2 p3 : Vec2 R) (h : ¬ Parallel p0 p1 p2 p3) :
    (∃ info p s t, lineIntersect p0.fin p1.fin p2.fin p3.fin = some [info] ∧ IsCommon p0 p1 p2 p3 info p s t ∧
      ∀ q, OnSeg q p0 p1 → OnSeg q p2 p3 → q = p) ∨
    (lineIntersect p0.fin p1.fin p2.fin p3.fin = some [] ∧ ∀ q, ¬ (OnSeg q p0 p1 ∧ OnSeg q p2 p3)) := by
  obtain ⟨hden, hc, hu, he⟩ := lineIntersect_nonparallel p0 p1 p2 p3 h
  rw [he]
  split
  · rename_i hin
    left
    refine ⟨_, _, _, _, rfl, ⟨rfl, rfl, rfl, hin.1, hin.2, rfl, hc⟩, ?_⟩
    rintro q ⟨s, _, _, rfl⟩ ⟨t, _, _, ht⟩
    rw [(hu s t ht).1]
  · rename_i hin
    right
    refine ⟨rfl, ?_⟩
    rintro q ⟨⟨s, hs0, hs1, rfl⟩, ⟨t, ht0, ht1, ht⟩⟩
    obtain ⟨rfl, rfl⟩ := hu s t ht
    exact hin ⟨⟨hs0, hs1⟩, ⟨ht0, ht1⟩⟩

/-! ### the parallel case -/

theorem lerp_eq_iff (a b : Vec2 R) (h : a ≠ b) (s t : R) : lerp a b s = lerp a b t ↔ s = t := by
  constructor
  · intro e
    have ex : a.x + s * (b.x - a.x) = a.x + t * (b.x - a.x) := congrArg Vec2.x e
    have ey : a.y + s * (b.y - a.y) = a.y + t * (b.y - a.y) := congrArg Vec2.y e
    by_cases hx : b.x - a.x = 0
    · have hy : b.y - a.y ≠ 0 := fun hy => h (by ext <;> linarith)
      exact mul_right_cancel₀ hy (by linarith)
    · exact mul_right_cancel₀ hx (by linarith)
  · rintro rfl; rfl

theorem lerp_zero (a b : Vec2 R) : lerp a b 0 = a := by ext <;> simp [lerp]
theorem lerp_one (a b : Vec2 R) : lerp a b 1 = b := by ext <;> simp [lerp]

theorem lerp_lerp (c d : Vec2 R) (x y w : R) : lerp (lerp c d x) (lerp c d y) w = lerp c d (x + w * (y - x)) := by
  ext <;> simp only [lerp] <;> ring

theorem between_iff_mul (a b q : R) : (min a b ≤ q ∧ q ≤ max a b) ↔ (q - a) * (q - b) ≤ 0 := by
  rw [min_le_iff, le_max_iff]
  constructor
  · rintro ⟨h1, h2⟩
    rcases le_total a q with ha | ha <;> rcases le_total b q with hb | hb
    · rcases h2 with h2 | h2
      · have : q = a := le_antisymm h2 ha
        subst this; simp
      · have : q = b := le_antisymm h2 hb
        subst this; simp
    · exact mul_nonpos_of_nonneg_of_nonpos (by linarith) (by linarith)
    · exact mul_nonpos_of_nonpos_of_nonneg (by linarith) (by linarith)
    · rcases h1 with h1 | h1
      · have : q = a := le_antisymm ha h1
        subst this; simp
      · have : q = b := le_antisymm hb h1
        subst this; simp
  · intro h
    rcases mul_nonpos_iff.mp h with ⟨h1, h2⟩ | ⟨h1, h2⟩
    · exact ⟨Or.inl (by linarith), Or.inr (by linarith)⟩
    · exact ⟨Or.inr (by linarith), Or.inl (by linarith)⟩

theorem between_coord (o k x y v : R) (hk : k ≠ 0) :
    (min (o + x * k) (o + y * k) ≤ o + v * k ∧ o + v * k ≤ max (o + x * k) (o + y * k)) ↔ (v - x) * (v - y) ≤ 0 := by
  rw [between_iff_mul]
  have hk2 : 0 < k * k := mul_self_pos.mpr hk
  have : (o + v * k - (o + x * k)) * (o + v * k - (o + y * k)) = (v - x) * (v - y) * (k * k) := by ring
  rw [this]
  constructor
  · intro h
    by_contra hc
    have := mul_pos (not_le.mp hc) hk2
    linarith
  · intro h; exact mul_nonpos_of_nonpos_of_nonneg h hk2.le

/-- the condition under which an end point is reported, in parameters along the common line -/
theorem inner_cond (c d : Vec2 R) (hcd : c ≠ d) (x y v : R) (hxy : x ≠ y) (hr : (lerp c d x).InRange) :
    ((lerp c d v).fin.bne (lerp c d x).fin && (lerp c d v).fin.bne (lerp c d y).fin &&
      pointBetween (lerp c d v).fin (lerp c d x).fin (lerp c d y).fin) = true ↔ (v - x) * (v - y) < 0 := by
  rw [Bool.and_eq_true, Bool.and_eq_true, pointBetween_fin _ _ _ hr, Vec2.fin_bne, Vec2.fin_bne, decide_eq_true_eq,
    decide_eq_true_eq, ne_eq, ne_eq, lerp_eq_iff c d hcd, lerp_eq_iff c d hcd]
  have hb : ((lerp c d x).x = (lerp c d y).x ∧ min (lerp c d x).y (lerp c d y).y ≤ (lerp c d v).y ∧
      (lerp c d v).y ≤ max (lerp c d x).y (lerp c d y).y) ∨ ((lerp c d x).x ≠ (lerp c d y).x ∧
      min (lerp c d x).x (lerp c d y).x ≤ (lerp c d v).x ∧ (lerp c d v).x ≤ max (lerp c d x).x (lerp c d y).x) ↔
      (v - x) * (v - y) ≤ 0 := by
    by_cases hx : d.x - c.x = 0
    · have hy : d.y - c.y ≠ 0 := fun hy => hcd (by ext <;> linarith)
      have e : (lerp c d x).x = (lerp c d y).x := by simp [lerp, hx]
      simp only [e, ne_eq, not_true_eq_false, false_and, or_false, true_and]
      exact between_coord _ _ _ _ _ hy
    · have e : (lerp c d x).x ≠ (lerp c d y).x := by
        intro e
        have : c.x + x * (d.x - c.x) = c.x + y * (d.x - c.x) := e
        exact hxy (mul_right_cancel₀ hx (by linarith))
      simp only [e, ne_eq, not_false_eq_true, false_and, false_or, true_and]
      exact between_coord _ _ _ _ _ hx
  rw [hb]
  constructor
  · rintro ⟨⟨h1, h2⟩, h3⟩
    exact lt_of_le_of_ne h3 (mul_ne_zero (sub_ne_zero.mpr h1) (sub_ne_zero.mpr h2))
  · intro h
    refine ⟨⟨?_, ?_⟩, h.le⟩
    · rintro rfl; simp at h
    · rintro rfl; simp at h

theorem paramOn_lerp (c d : Vec2 R) (hcd : c ≠ d) (v : R) :
    paramOn (lerp c d v).fin c.fin (d.fin.sub c.fin) = .fin v := by
  unfold paramOn
  rw [Vec2.fin_sub, Vec2.fin_sub]
  simp only [Vec2.fin, Ext.lit_eq, Ext.fin_eq, Rat.cast_zero, decide_eq_true_eq]
  by_cases hy : d.y - c.y = 0
  · have hx : d.x - c.x ≠ 0 := fun hx => hcd (by ext <;> linarith)
    rw [if_pos hy, Ext.fin_div _ _ hx]; congr 1; simp only [lerp]; field_simp; ring
  · rw [if_neg hy, Ext.fin_div _ _ hy]; congr 1; simp only [lerp]; field_simp; ring

theorem paramOnNeg_lerp (c d : Vec2 R) (hcd : c ≠ d) (v : R) :
    paramOnNeg (lerp c d v).fin c.fin (c.fin.sub d.fin) = .fin v := by
  unfold paramOnNeg
  rw [Vec2.fin_sub, Vec2.fin_sub]
  simp only [Vec2.fin, Ext.lit_eq, Ext.fin_eq, Rat.cast_zero, decide_eq_true_eq, Ext.fin_neg]
  by_cases hy : c.y - d.y = 0
  · have hx : -(c.x - d.x) ≠ 0 := fun hx => hcd (by ext <;> linarith)
    rw [if_pos hy, Ext.fin_div _ _ hx]; congr 1; simp only [lerp]
    rw [div_eq_iff hx]; ring
  · have hy' : -(c.y - d.y) ≠ 0 := neg_ne_zero.mpr hy
    rw [if_neg hy, Ext.fin_div _ _ hy']; congr 1; simp only [lerp]
    rw [div_eq_iff hy']; ring

/-- parallel segments: nothing is reported unless `p0` lies on the (proper) second segment -/
theorem lineIntersect_parallel (p0 p1 p2 p3 : Vec2 R) (h : Parallel p0 p1 p2 p3) :
    lineIntersect p0.fin p1.fin p2.fin p3.fin =
    if (dist2PointLine p0.fin p2.fin p3.fin ==. FNum.lit 0) = true then
      let a := p1.fin.sub p0.fin
      let b := p2.fin.sub p3.fin
      let res := some []
      let res := if p0.fin.bne p2.fin && p0.fin.bne p3.fin && pointBetween p0.fin p2.fin p3.fin
        then pushInfo 2 res ⟨p0.fin, FNum.lit 0, paramOnNeg p0.fin p2.fin b⟩ else res
      let res := if p1.fin.bne p2.fin && p1.fin.bne p3.fin && pointBetween p1.fin p2.fin p3.fin
        then pushInfo 2 res ⟨p1.fin, FNum.lit 1, paramOnNeg p1.fin p2.fin b⟩ else res
      let res := if p2.fin.bne p0.fin && p2.fin.bne p1.fin && pointBetween p2.fin p0.fin p1.fin
        then pushInfo 2 res ⟨p2.fin, paramOn p2.fin p0.fin a, FNum.lit 0⟩ else res
      let res := if p3.fin.bne p0.fin && p3.fin.bne p1.fin && pointBetween p3.fin p0.fin p1.fin
        then pushInfo 2 res ⟨p3.fin, paramOn p3.fin p0.fin a, FNum.lit 1⟩ else res
      res
    else some [] := by
  have e1 : ((p1.fin.sub p0.fin).y *. (p2.fin.sub p3.fin).x -. (p1.fin.sub p0.fin).x *. (p2.fin.sub p3.fin).y) =
      .fin 0 := by
    rw [Vec2.fin_sub, Vec2.fin_sub]
    simp only [Vec2.fin, Ext.fin_mul, Ext.fin_sub]
    unfold Parallel at h
    congr 1; linarith
  unfold lineIntersect
  simp only [e1]
  rw [if_pos (by simp)]

/-- A point of a line, in the parameter of a parallel proper segment whose line it shares. -/
theorem parallel_param (p0 p1 p2 p3 : Vec2 R) (h : Parallel p0 p1 p2 p3) (h23 : p2 ≠ p3) (s : R)
    (h0 : p0 = lerp p2 p3 s) : ∃ u, p1 = lerp p2 p3 u := by
  unfold Parallel at h
  by_cases hx : p3.x - p2.x = 0
  · have hy : p3.y - p2.y ≠ 0 := fun hy => h23 (by ext <;> linarith)
    refine ⟨s + (p1.y - p0.y) / (p3.y - p2.y), ?_⟩
    have hx1 : p1.x - p0.x = 0 := by
      rw [hx, mul_zero] at h
      exact (mul_eq_zero.mp h).resolve_right hy
    subst h0
    ext
    · simp only [lerp] at hx1 ⊢; rw [hx] at hx1 ⊢; linarith
    · simp only [lerp] at hx1 ⊢; field_simp; ring
  · refine ⟨s + (p1.x - p0.x) / (p3.x - p2.x), ?_⟩
    have hy1 : p1.y - p0.y = (p1.x - p0.x) / (p3.x - p2.x) * (p3.y - p2.y) := by
      rw [div_mul_eq_mul_div, eq_div_iff hx, h]
    subst h0
    ext
    · simp only [lerp] at hy1 ⊢; field_simp; ring
    · simp only [lerp] at hy1 ⊢; linear_combination hy1

/-- everything the code computes in the collinear case, in parameters along `p2 p3` -/
theorem lineIntersect_collinear (c d : Vec2 R) (hcd : c ≠ d) (s u : R) (hs0 : 0 ≤ s) (hs1 : s ≤ 1) (hsu : s ≠ u)
    (hrc : c.InRange) (hr0 : (lerp c d s).InRange) :
    lineIntersect (lerp c d s).fin (lerp c d u).fin c.fin d.fin =
      let res := some []
      let res := if (s - 0) * (s - 1) < 0 then pushInfo 2 res ⟨(lerp c d s).fin, .fin 0, .fin s⟩ else res
      let res := if (u - 0) * (u - 1) < 0 then pushInfo 2 res ⟨(lerp c d u).fin, .fin 1, .fin u⟩ else res
      let res := if (0 - s) * (0 - u) < 0 then pushInfo 2 res ⟨c.fin, .fin (-s / (u - s)), .fin 0⟩ else res
      let res := if (1 - s) * (1 - u) < 0 then pushInfo 2 res ⟨d.fin, .fin ((1 - s) / (u - s)), .fin 1⟩ else res
      res := by
  have hus : u - s ≠ 0 := sub_ne_zero.mpr (Ne.symm hsu)
  rw [lineIntersect_parallel _ _ _ _ (by unfold Parallel lerp; simp only; ring)]
  rw [if_pos ((dist2_zero_iff _ _ _).mpr ⟨hcd, s, hs0, hs1, rfl⟩)]
  have hne : lerp c d s ≠ lerp c d u := fun e => hsu ((lerp_eq_iff c d hcd s u).mp e)
  have i0 := inner_cond c d hcd 0 1 s (by norm_num) (by rw [lerp_zero]; exact hrc)
  have i1 := inner_cond c d hcd 0 1 u (by norm_num) (by rw [lerp_zero]; exact hrc)
  have i2 := inner_cond c d hcd s u 0 hsu hr0
  have i3 := inner_cond c d hcd s u 1 hsu hr0
  rw [lerp_zero, lerp_one] at i0 i1
  rw [lerp_zero] at i2
  rw [lerp_one] at i3
  have w2 := paramOn_lerp (lerp c d s) (lerp c d u) hne (-s / (u - s))
  have w3 := paramOn_lerp (lerp c d s) (lerp c d u) hne ((1 - s) / (u - s))
  rw [lerp_lerp, div_mul_cancel₀ _ hus, show s + -s = (0 : R) by ring, lerp_zero] at w2
  rw [lerp_lerp, div_mul_cancel₀ _ hus, show s + (1 - s) = (1 : R) by ring, lerp_one] at w3
  simp only [i0, i1, i2, i3, w2, w3, paramOnNeg_lerp c d hcd, Ext.lit_eq, Rat.cast_zero, Rat.cast_one]

/-- InsideSeg in parameters -/
theorem insideSeg_lerp (c d : Vec2 R) (hcd : c ≠ d) (x y v : R) (hxy : x ≠ y) :
    InsideSeg (lerp c d v) (lerp c d x) (lerp c d y) ↔ (v - x) * (v - y) < 0 := by
  have hyx : y - x ≠ 0 := sub_ne_zero.mpr (Ne.symm hxy)
  unfold InsideSeg OnSeg
  rw [ne_eq, ne_eq, lerp_eq_iff c d hcd, lerp_eq_iff c d hcd]
  simp only [lerp_lerp, lerp_eq_iff c d hcd]
  constructor
  · rintro ⟨⟨t, h0, h1, rfl⟩, h2, h3⟩
    have e : (x + t * (y - x) - x) * (x + t * (y - x) - y) = -(t * (1 - t) * ((y - x) * (y - x))) := by ring
    rw [e]
    have ht0 : t ≠ 0 := by rintro rfl; simp at h2
    have ht1 : t ≠ 1 := by rintro rfl; apply h3; ring
    have a : 0 < t := lt_of_le_of_ne h0 (Ne.symm ht0)
    have b : 0 < 1 - t := by have := lt_of_le_of_ne h1 ht1; linarith
    have := mul_pos (mul_pos a b) (mul_self_pos.mpr hyx)
    linarith
  · intro h
    have hm : 0 < (y - x) * (y - x) := mul_self_pos.mpr hyx
    set t := (v - x) / (y - x) with ht
    have ev : v = x + t * (y - x) := by rw [ht, div_mul_cancel₀ _ hyx]; ring
    have e : (v - x) * (v - y) = -(t * (1 - t) * ((y - x) * (y - x))) := by rw [ev]; ring
    rw [e] at h
    have hp : 0 < t * (1 - t) := by
      by_contra hc
      have := mul_nonpos_of_nonpos_of_nonneg (not_lt.mp hc) hm.le
      linarith
    have h01 : 0 ≤ t ∧ t ≤ 1 := by constructor <;> nlinarith
    refine ⟨⟨t, h01.1, h01.2, ev⟩, ?_, ?_⟩
    · rintro hvx; rw [hvx, sub_self, zero_div] at ht; rw [ht] at hp; simp at hp
    · rintro hvy; rw [hvy, div_self hyx] at ht; rw [ht] at hp; simp at hp

theorem mul_neg_between {x y : R} (h : x * y < 0) : (x < 0 ∧ 0 < y) ∨ (0 < x ∧ y < 0) := by
  rcases mul_neg_iff.mp h with h | h
  · right; exact h
  · left; exact h

/-- **C11, C13, C14** (exact) for parallel proper segments with `p0` on the second one. -/
theorem lineIntersect_collinear_spec (p0 p1 p2 p3 : Vec2 R) (h01 : p0 ≠ p1) (h23 : p2 ≠ p3)
    (hpar : Parallel p0 p1 p2 p3) (hon : OnSeg p0 p2 p3) (hr2 : p2.InRange) (hr0 : p0.InRange) :
    ∃ l, lineIntersect p0.fin p1.fin p2.fin p3.fin = some l ∧
      (∀ info ∈ l, ∃ p s t, IsCommon p0 p1 p2 p3 info p s t) ∧
      (∀ q, (∃ info ∈ l, info.p = q.fin) ↔ (q = p0 ∧ InsideSeg p0 p2 p3) ∨ (q = p1 ∧ InsideSeg p1 p2 p3) ∨
        (q = p2 ∧ InsideSeg p2 p0 p1) ∨ (q = p3 ∧ InsideSeg p3 p0 p1)) := by
  obtain ⟨s, hs0, hs1, rfl⟩ := hon
  obtain ⟨u, rfl⟩ := parallel_param _ _ _ _ hpar h23 s rfl
  have hsu : s ≠ u := fun e => h01 (by rw [e])
  have hus : u - s ≠ 0 := sub_ne_zero.mpr (Ne.symm hsu)
  rw [lineIntersect_collinear p2 p3 h23 s u hs0 hs1 hsu hr2 hr0]
  have J0 := insideSeg_lerp p2 p3 h23 0 1 s (by norm_num)
  have J1 := insideSeg_lerp p2 p3 h23 0 1 u (by norm_num)
  have J2 := insideSeg_lerp p2 p3 h23 s u 0 hsu
  have J3 := insideSeg_lerp p2 p3 h23 s u 1 hsu
  rw [lerp_zero, lerp_one] at J0 J1
  rw [lerp_zero] at J2
  rw [lerp_one] at J3
  simp only [J0, J1, J2, J3]
  -- at most two of the four conditions hold, because `0 ≤ s ≤ 1`
  have n1 : (u - 0) * (u - 1) < 0 → ¬ (0 - s) * (0 - u) < 0 := by
    intro a b; rcases mul_neg_between a with ⟨h1, h2⟩ | ⟨h1, h2⟩ <;>
      rcases mul_neg_between b with ⟨h3, h4⟩ | ⟨h3, h4⟩ <;> linarith
  have n2 : (u - 0) * (u - 1) < 0 → ¬ (1 - s) * (1 - u) < 0 := by
    intro a b; rcases mul_neg_between a with ⟨h1, h2⟩ | ⟨h1, h2⟩ <;>
      rcases mul_neg_between b with ⟨h3, h4⟩ | ⟨h3, h4⟩ <;> linarith
  have n3 : (0 - s) * (0 - u) < 0 → ¬ (1 - s) * (1 - u) < 0 := by
    intro a b; rcases mul_neg_between a with ⟨h1, h2⟩ | ⟨h1, h2⟩ <;>
      rcases mul_neg_between b with ⟨h3, h4⟩ | ⟨h3, h4⟩ <;> linarith
  -- what each entry is
  have C0 : (s - 0) * (s - 1) < 0 → IsCommon (lerp p2 p3 s) (lerp p2 p3 u) p2 p3
      ⟨(lerp p2 p3 s).fin, .fin 0, .fin s⟩ (lerp p2 p3 s) 0 s := fun _ =>
    ⟨rfl, rfl, rfl, ⟨le_refl _, by norm_num⟩, ⟨hs0, hs1⟩, (lerp_zero _ _).symm, rfl⟩
  have C1 : (u - 0) * (u - 1) < 0 → IsCommon (lerp p2 p3 s) (lerp p2 p3 u) p2 p3
      ⟨(lerp p2 p3 u).fin, .fin 1, .fin u⟩ (lerp p2 p3 u) 1 u := by
    intro a
    refine ⟨rfl, rfl, rfl, ⟨by norm_num, le_refl _⟩, ?_, (lerp_one _ _).symm, rfl⟩
    rcases mul_neg_between a with ⟨h1, h2⟩ | ⟨h1, h2⟩ <;> constructor <;> linarith
  have C2 : (0 - s) * (0 - u) < 0 → IsCommon (lerp p2 p3 s) (lerp p2 p3 u) p2 p3
      ⟨p2.fin, .fin (-s / (u - s)), .fin 0⟩ p2 (-s / (u - s)) 0 := by
    intro a
    have hu : 0 < s ∧ u < 0 := by
      rcases mul_neg_between a with ⟨h1, h2⟩ | ⟨h1, h2⟩ <;> constructor <;> linarith
    refine ⟨rfl, rfl, rfl, ⟨?_, ?_⟩, ⟨le_refl _, by norm_num⟩, ?_, (lerp_zero _ _).symm⟩
    · exact div_nonneg_of_nonpos (by linarith) (by linarith)
    · rw [div_le_one_of_neg (by linarith)]; linarith
    · rw [lerp_lerp, div_mul_cancel₀ _ hus, show s + -s = (0 : R) by ring, lerp_zero]
  have C3 : (1 - s) * (1 - u) < 0 → IsCommon (lerp p2 p3 s) (lerp p2 p3 u) p2 p3
      ⟨p3.fin, .fin ((1 - s) / (u - s)), .fin 1⟩ p3 ((1 - s) / (u - s)) 1 := by
    intro a
    have hu : s < 1 ∧ 1 < u := by
      rcases mul_neg_between a with ⟨h1, h2⟩ | ⟨h1, h2⟩ <;> constructor <;> linarith
    refine ⟨rfl, rfl, rfl, ⟨?_, ?_⟩, ⟨by norm_num, le_refl _⟩, ?_, (lerp_one _ _).symm⟩
    · exact div_nonneg (by linarith) (by linarith)
    · rw [div_le_one (by linarith)]; linarith
    · rw [lerp_lerp, div_mul_cancel₀ _ hus, show s + (1 - s) = (1 : R) by ring, lerp_one]
  have sw : ∀ a b : Vec2 R, (a.fin = b.fin) ↔ b = a := fun a b => by rw [Vec2.fin_inj]; exact eq_comm
  by_cases c0 : (s - 0) * (s - 1) < 0 <;> by_cases c1 : (u - 0) * (u - 1) < 0 <;>
    by_cases c2 : (0 - s) * (0 - u) < 0 <;> by_cases c3 : (1 - s) * (1 - u) < 0
  all_goals first
    | exact absurd c2 (n1 c1)
    | exact absurd c3 (n2 c1)
    | exact absurd c3 (n3 c2)
    | (simp only [c0, c1, c2, c3, if_true, if_false, pushInfo, List.length_nil, List.length_cons, List.nil_append,
        List.cons_append, Nat.zero_add, Nat.reduceLT, Nat.reduceAdd]
       refine ⟨_, rfl, ?_, ?_⟩
       · intro info hi
         first
           | (simp only [List.not_mem_nil] at hi)
           | (simp only [List.mem_cons, List.not_mem_nil, or_false] at hi
              rcases hi with rfl | rfl <;> first
               | exact ⟨_, _, _, C0 c0⟩ | exact ⟨_, _, _, C1 c1⟩ | exact ⟨_, _, _, C2 c2⟩ | exact ⟨_, _, _, C3 c3⟩)
       · intro q
         simp [sw])

/-- Parallel segments whose first point is not on the second segment: nothing is reported. -/
theorem lineIntersect_parallel_off (p0 p1 p2 p3 : Vec2 R) (hpar : Parallel p0 p1 p2 p3)
    (hoff : p2 = p3 ∨ ¬ OnSeg p0 p2 p3) : lineIntersect p0.fin p1.fin p2.fin p3.fin = some [] := by
  rw [lineIntersect_parallel _ _ _ _ hpar, if_neg]
  rw [dist2_zero_iff]
  rintro ⟨h1, h2⟩
  rcases hoff with h | h
  · exact h1 h
  · exact h h2

/-- **C11** (exact): for a first segment of positive length, `intersect` never writes out of bounds, and every reported
entry is a common point of the two segments with its parameters on both, both in `[0,1]`. -/
theorem lineIntersect_sound (p0 p1 p2 p3 : Vec2 R) (h01 : p0 ≠ p1) (hr2 : p2.InRange) (hr0 : p0.InRange) :
    ∃ l, lineIntersect p0.fin p1.fin p2.fin p3.fin = some l ∧
      ∀ info ∈ l, ∃ p s t, IsCommon p0 p1 p2 p3 info p s t := by
  by_cases hpar : Parallel p0 p1 p2 p3
  · by_cases h : p2 ≠ p3 ∧ OnSeg p0 p2 p3
    · obtain ⟨l, h1, h2, _⟩ := lineIntersect_collinear_spec p0 p1 p2 p3 h01 h.1 hpar h.2 hr2 hr0
      exact ⟨l, h1, h2⟩
    · refine ⟨[], lineIntersect_parallel_off _ _ _ _ hpar ?_, by simp⟩
      by_cases h' : p2 = p3
      · exact Or.inl h'
      · exact Or.inr (fun ho => h ⟨h', ho⟩)
  · rcases lineIntersect_complete p0 p1 p2 p3 hpar with ⟨info, p, s, t, h1, h2, _⟩ | ⟨h1, _⟩
    · exact ⟨[info], h1, by intro i hi; simp at hi; subst hi; exact ⟨p, s, t, h2⟩⟩
    · exact ⟨[], h1, by simp⟩

/-- **C14** (exact, partial): for a first segment of positive length the two-element result array is never overrun.
Missing: a first segment of length zero, for which the property is false (`lineIntersect_overflow`). -/
theorem lineIntersect_fits_partial (p0 p1 p2 p3 : Vec2 R) (h01 : p0 ≠ p1) (hr2 : p2.InRange) (hr0 : p0.InRange) :
    ∃ l, lineIntersect p0.fin p1.fin p2.fin p3.fin = some l ∧ l.length ≤ 2 := by
  obtain ⟨l, hl, _⟩ := lineIntersect_sound p0 p1 p2 p3 h01 hr2 hr0
  refine ⟨l, hl, ?_⟩
  have push : ∀ (r : Option (List (Info (Ext R)))) i l, (∀ l, r = some l → l.length ≤ 2) →
      pushInfo 2 r i = some l → l.length ≤ 2 := by
    intro r i l hr h
    unfold pushInfo at h
    split at h
    · cases h
    · rename_i l'
      split at h
      · injection h with h; subst h; simp; omega
      · cases h
  have ite : ∀ (c : Bool) (r : Option (List (Info (Ext R)))) i l, (∀ l, r = some l → l.length ≤ 2) →
      (if c = true then pushInfo 2 r i else r) = some l → l.length ≤ 2 := by
    intro c r i l hr h
    cases c
    · exact hr l (by simpa using h)
    · exact push r i l hr (by simpa using h)
  unfold lineIntersect at hl
  simp only at hl
  split at hl
  · split at hl
    · exact ite _ _ _ _ (fun l => ite _ _ _ l (fun l => ite _ _ _ l (fun l => ite _ _ _ l (by
        intro l h; injection h with h; subst h; simp)))) hl
    · injection hl with hl; subst hl; simp
  · split at hl <;> (injection hl with hl; subst hl; simp)

/-- **C14 is false of the code** for a first segment of length zero: `p0 = p1 = (0,0)` inside the horizontal segment
from `(5,0)` to `(-5,0)` writes a third entry. -/
theorem lineIntersect_overflow :
    lineIntersect (⟨0, 0⟩ : Vec2 ℚ).fin (⟨0, 0⟩ : Vec2 ℚ).fin (⟨5, 0⟩ : Vec2 ℚ).fin (⟨-5, 0⟩ : Vec2 ℚ).fin = none := by
  decide +kernel

/-- **C13** (exact, partial): for collinear segments of positive length such that `p0` lies on the segment `p2 p3`, the
reported points are exactly the end points of one segment that lie inside the other. Missing: collinear overlapping
segments whose first point is outside the second segment, for which nothing is reported (`lineIntersect_misses`). -/
theorem lineIntersect_collinear_partial (p0 p1 p2 p3 : Vec2 R) (h01 : p0 ≠ p1) (h23 : p2 ≠ p3)
    (hpar : Parallel p0 p1 p2 p3) (hon : OnSeg p0 p2 p3) (hr2 : p2.InRange) (hr0 : p0.InRange) :
    ∃ l, lineIntersect p0.fin p1.fin p2.fin p3.fin = some l ∧
      ∀ q, (∃ info ∈ l, info.p = q.fin) ↔ (q = p0 ∧ InsideSeg p0 p2 p3) ∨ (q = p1 ∧ InsideSeg p1 p2 p3) ∨
        (q = p2 ∧ InsideSeg p2 p0 p1) ∨ (q = p3 ∧ InsideSeg p3 p0 p1) := by
  obtain ⟨l, h1, _, h3⟩ := lineIntersect_collinear_spec p0 p1 p2 p3 h01 h23 hpar hon hr2 hr0
  exact ⟨l, h1, h3⟩

/-- **C13 is false of the code**: the segment from `(0,0)` to `(10,0)` contains `(2,0)` and `(5,0)`, the end points of a
collinear segment, but nothing is reported. -/
theorem lineIntersect_misses : ¬ ∀ p0 p1 p2 p3 : Vec2 ℚ, p0 ≠ p1 → p2 ≠ p3 → Parallel p0 p1 p2 p3 →
    InsideSeg p2 p0 p1 →
    ∃ l, lineIntersect p0.fin p1.fin p2.fin p3.fin = some l ∧ ∃ info ∈ l, info.p = p2.fin := by
  intro h
  obtain ⟨l, h1, info, h2, _⟩ := h ⟨0, 0⟩ ⟨10, 0⟩ ⟨2, 0⟩ ⟨5, 0⟩ (by decide) (by decide) (by norm_num [Parallel])
    ⟨⟨1 / 5, by norm_num, by norm_num, by ext <;> norm_num [lerp]⟩, by decide, by decide⟩
  have : lineIntersect (⟨0, 0⟩ : Vec2 ℚ).fin (⟨10, 0⟩ : Vec2 ℚ).fin (⟨2, 0⟩ : Vec2 ℚ).fin (⟨5, 0⟩ : Vec2 ℚ).fin =
      some [] := by decide +kernel
  rw [this] at h1; injection h1 with h1; subst h1; cases h2

/-- The result depends on which segment is first: with the arguments exchanged the same two points are found. -/
theorem lineIntersect_asymmetric :
    (lineIntersect (⟨0, 0⟩ : Vec2 ℚ).fin (⟨10, 0⟩ : Vec2 ℚ).fin (⟨2, 0⟩ : Vec2 ℚ).fin (⟨5, 0⟩ : Vec2 ℚ).fin).map
      List.length = some 0 ∧
    (lineIntersect (⟨2, 0⟩ : Vec2 ℚ).fin (⟨5, 0⟩ : Vec2 ℚ).fin (⟨0, 0⟩ : Vec2 ℚ).fin (⟨10, 0⟩ : Vec2 ℚ).fin).map
      List.length = some 2 := by decide +kernel

/-! ## the hypotheses are met -/

/-- crossing segments: one point, `(1,1)`, at parameters 1/2 and 1/4 -/
example : lineIntersect (⟨0, 0⟩ : Vec2 ℚ).fin (⟨2, 2⟩ : Vec2 ℚ).fin (⟨0, 2⟩ : Vec2 ℚ).fin (⟨4, -2⟩ : Vec2 ℚ).fin =
    some [⟨(⟨1, 1⟩ : Vec2 ℚ).fin, .fin (1 / 2), .fin (1 / 4)⟩] := by decide +kernel
example : ¬ Parallel (⟨0, 0⟩ : Vec2 ℚ) ⟨2, 2⟩ ⟨0, 2⟩ ⟨4, -2⟩ := by norm_num [Parallel]
/-- collinear overlapping segments with `p0` inside -/
example : lineIntersect (⟨1, 1⟩ : Vec2 ℚ).fin (⟨5, 5⟩ : Vec2 ℚ).fin (⟨0, 0⟩ : Vec2 ℚ).fin (⟨2, 2⟩ : Vec2 ℚ).fin =
    some [⟨(⟨1, 1⟩ : Vec2 ℚ).fin, .fin 0, .fin (1 / 2)⟩, ⟨(⟨2, 2⟩ : Vec2 ℚ).fin, .fin (1 / 4), .fin 1⟩] := by
  decide +kernel
example : Parallel (⟨1, 1⟩ : Vec2 ℚ) ⟨5, 5⟩ ⟨0, 0⟩ ⟨2, 2⟩ ∧ OnSeg (⟨1, 1⟩ : Vec2 ℚ) ⟨0, 0⟩ ⟨2, 2⟩ :=
  ⟨by norm_num [Parallel], 1 / 2, by norm_num, by norm_num, by ext <;> norm_num [lerp]⟩
example : (⟨5, 5⟩ : Vec2 ℚ).InRange := by unfold Vec2.InRange; decide +kernel
/-- a point with its foot inside the segment -/
example : (1 : ℚ) * (3 / 10 - (lerp (⟨0, 0⟩ : Vec2 ℚ) ⟨1, 0⟩ (3 / 10)).x) +
    0 * (7 - (lerp (⟨0, 0⟩ : Vec2 ℚ) ⟨1, 0⟩ (3 / 10)).y) = 0 := by norm_num [lerp]

end River
