import Verif.Lemmas.CurvedBreak
import Verif.Props.CubicCubic
import Verif.Props.Segment

/-! # When the library reports no intersection of two sides -/

namespace River
variable {K : Type}

attribute [local instance 10000] FTrans.toFNum

section
variable [Field K] [LinearOrder K] [IsStrictOrderedRing K] [FTrans K] [LawfulOrd K] [Exact K]

omit [FTrans K] [LawfulOrd K] [Exact K] in
theorem lerp_range {a b x t : K} (h0 : 0 ≤ t) (h1 : t ≤ 1) :
    (∀ lo, lo ≤ a → lo ≤ b → x = a + t * (b - a) → lo ≤ x) ∧ (∀ hi, a ≤ hi → b ≤ hi → x = a + t * (b - a) → x ≤ hi) := by
  constructor
  · rintro lo ha hb rfl
    nlinarith [mul_nonneg h0 (sub_nonneg.2 hb), mul_nonneg (sub_nonneg.2 h1) (sub_nonneg.2 ha)]
  · rintro hi ha hb rfl
    nlinarith [mul_nonneg h0 (sub_nonneg.2 hb), mul_nonneg (sub_nonneg.2 h1) (sub_nonneg.2 ha)]

omit [FTrans K] [LawfulOrd K] [Exact K] in
/-- A side stays between the leftmost and the rightmost of its points. -/
theorem sidePoint_range {s : Vec2 K × Seg K} {t : K} (h0 : 0 ≤ t) (h1 : t ≤ 1) :
    (∀ lo, (∀ p ∈ sidePoints s, lo ≤ p.x) → lo ≤ (sidePoint s t).x) ∧ (∀ hi, (∀ p ∈ sidePoints s, p.x ≤ hi) → (sidePoint s t).x ≤ hi) := by
  obtain ⟨p, g⟩ := s
  have h2 := sub_nonneg.2 h1
  cases g with
  | line q =>
    constructor
    · intro lo h
      exact (lerp_range h0 h1).1 lo (h p (by simp [sidePoints])) (h q (by simp [sidePoints])) rfl
    · intro hi h
      exact (lerp_range h0 h1).2 hi (h p (by simp [sidePoints])) (h q (by simp [sidePoints])) rfl
  | cubic c1 c2 q =>
    have w0 : 0 ≤ (1 - t) ^ 3 := by positivity
    have w1 : 0 ≤ 3 * t * (1 - t) ^ 2 := by positivity
    have w2 : 0 ≤ 3 * t ^ 2 * (1 - t) := by positivity
    have w3 : 0 ≤ t ^ 3 := by positivity
    have hs : (1 - t) ^ 3 + 3 * t * (1 - t) ^ 2 + 3 * t ^ 2 * (1 - t) + t ^ 3 = 1 := by ring
    constructor
    · intro lo h
      have a := sub_nonneg.2 (h p (by simp [sidePoints]))
      have b := sub_nonneg.2 (h c1 (by simp [sidePoints]))
      have c := sub_nonneg.2 (h c2 (by simp [sidePoints]))
      have d := sub_nonneg.2 (h q (by simp [sidePoints]))
      have e : (sidePoint (p, .cubic c1 c2 q) t).x - lo = (1 - t) ^ 3 * (p.x - lo) + 3 * t * (1 - t) ^ 2 * (c1.x - lo) + 3 * t ^ 2 * (1 - t) * (c2.x - lo) + t ^ 3 * (q.x - lo) := by
        simp only [sidePoint, Cubic.eval, bern]; ring
      have := mul_nonneg w0 a
      have := mul_nonneg w1 b
      have := mul_nonneg w2 c
      have := mul_nonneg w3 d
      linarith
    · intro hi h
      have a := sub_nonneg.2 (h p (by simp [sidePoints]))
      have b := sub_nonneg.2 (h c1 (by simp [sidePoints]))
      have c := sub_nonneg.2 (h c2 (by simp [sidePoints]))
      have d := sub_nonneg.2 (h q (by simp [sidePoints]))
      have e : hi - (sidePoint (p, .cubic c1 c2 q) t).x = (1 - t) ^ 3 * (hi - p.x) + 3 * t * (1 - t) ^ 2 * (hi - c1.x) + 3 * t ^ 2 * (1 - t) * (hi - c2.x) + t ^ 3 * (hi - q.x) := by
        simp only [sidePoint, Cubic.eval, bern]; ring
      have := mul_nonneg w0 a
      have := mul_nonneg w1 b
      have := mul_nonneg w2 c
      have := mul_nonneg w3 d
      linarith

omit [FTrans K] [LawfulOrd K] [Exact K] in
theorem abscissa_range {s : Vec2 K × Seg K} (hs : s.1.y ≠ s.2.target.y) {y : K} (h1 : lowest s ≤ y) (h2 : y ≤ highest s) :
    (∀ lo, (∀ p ∈ sidePoints s, lo ≤ p.x) → lo ≤ abscissa s y) ∧ (∀ hi, (∀ p ∈ sidePoints s, p.x ≤ hi) → abscissa s y ≤ hi) := by
  obtain ⟨u0, u1⟩ := param_unit hs h1 h2
  exact sidePoint_range u0 u1

omit [FTrans K] [LawfulOrd K] [Exact K] in
theorem beside_of_left {s t : Vec2 K × Seg K} (hs : s.1.y ≠ s.2.target.y) (ht : t.1.y ≠ t.2.target.y)
    (h : ∀ p ∈ sidePoints s, ∀ q ∈ sidePoints t, p.x < q.x) : Beside s t := by
  intro y h1 h2 h3 h4
  obtain ⟨a, ha, ha'⟩ := exists_top Vec2.x _ (sidePoints_ne s)
  obtain ⟨b, hb, hb'⟩ := exists_low Vec2.x _ (sidePoints_ne t)
  have l1 := (abscissa_range hs h1 h3).2 a.x ha'
  have l2 := (abscissa_range ht h2 h4).1 b.x hb'
  have l3 := h a ha b hb
  have hlt : abscissa s y < abscissa t y := lt_of_le_of_lt l1 (lt_of_lt_of_le l3 l2)
  exact ⟨hlt.le, fun e => absurd e hlt.ne⟩

omit [FTrans K] [LawfulOrd K] [Exact K] [IsStrictOrderedRing K] [Field K] [LinearOrder K] in
theorem end_mem (s : Vec2 K × Seg K) : s.1 ∈ sidePoints s ∧ s.2.target ∈ sidePoints s := by
  obtain ⟨p, g⟩ := s
  cases g <;> simp [sidePoints, Seg.target]

omit [FTrans K] [LawfulOrd K] [Exact K] in
/-- Sides that are far from each other do not cross. -/
theorem far_clear {s t : Vec2 K × Seg K} (hs : s.1.y ≠ s.2.target.y) (ht : t.1.y ≠ t.2.target.y) (h : Far s t) : Clear2 s t := by
  intro h1 h2
  rcases h with h | h | h | h
  · exact Or.inl (beside_of_left hs ht h)
  · exact Or.inr (beside_of_left ht hs (fun p hp q hq => h q hq p hp))
  · exfalso
    have e : highest s < lowest t := by
      unfold highest lowest
      rw [max_lt_iff, lt_min_iff, lt_min_iff]
      exact ⟨⟨h _ (end_mem s).1 _ (end_mem t).1, h _ (end_mem s).1 _ (end_mem t).2⟩, h _ (end_mem s).2 _ (end_mem t).1, h _ (end_mem s).2 _ (end_mem t).2⟩
    exact absurd h2 (not_lt.2 e.le)
  · exfalso
    have e : highest t < lowest s := by
      unfold highest lowest
      rw [max_lt_iff, lt_min_iff, lt_min_iff]
      exact ⟨⟨h _ (end_mem s).1 _ (end_mem t).1, h _ (end_mem s).2 _ (end_mem t).1⟩, h _ (end_mem s).1 _ (end_mem t).2, h _ (end_mem s).2 _ (end_mem t).2⟩
    exact absurd h1 (not_lt.2 e.le)

theorem generalFrom_steep {p q : Vec2 K} (h : p.y ≠ q.y) : ∃ A B C k : K, generalFrom p q = (A, B, C) ∧ k ≠ 0 ∧
    ∀ X Y, A * X + B * Y + C = k * ((q.y - p.y) * (X - p.x) - (q.x - p.x) * (Y - p.y)) := by
  have hne : p.beq q = false := by
    rw [Bool.eq_false_iff]; intro hb
    exact h (congrArg Vec2.y ((Vec2.beq_iff p q).1 hb))
  unfold generalFrom
  rw [hne]
  simp only [Bool.false_eq_true, if_false, eq_eq_decide, decide_eq_true_eq, if_neg h]
  by_cases hx : p.x = q.x
  · have hd : q.y - p.y ≠ 0 := sub_ne_zero.2 h.symm
    refine ⟨_, _, _, 1 / (q.y - p.y), by rw [if_pos hx], by positivity, fun X Y => ?_⟩
    rw [exact_one, exact_zero, Exact.neg_eq, hx]
    field_simp
    ring
  · refine ⟨_, _, _, 1, by rw [if_neg hx], one_ne_zero, fun X Y => ?_⟩
    simp only [Exact.sub_eq, Exact.mul_eq]
    ring

/-- If every value the solver delivers is a root, a line and a curve that do not cross are not reported. -/
theorem noReport_roots {p q p0 c1 c2 r : Vec2 K} (fs : Fine (p, Seg.line q)) (ft : Fine (p0, Seg.cubic c1 c2 r))
    (hp : InDoubles p) (hq : InDoubles q) (hcl : Clear2 (p, Seg.line q) (p0, Seg.cubic c1 c2 r))
    (hroot : ∀ A B C, generalFrom p q = (A, B, C) → ∀ t ∈ resolvCubic (A *. (Cubic.polT3 ⟨p0, c1, c2, r⟩).x +. B *. (Cubic.polT3 ⟨p0, c1, c2, r⟩).y)
      (A *. (Cubic.polT2 ⟨p0, c1, c2, r⟩).x +. B *. (Cubic.polT2 ⟨p0, c1, c2, r⟩).y)
      (A *. (Cubic.polT1 ⟨p0, c1, c2, r⟩).x +. B *. (Cubic.polT1 ⟨p0, c1, c2, r⟩).y) (A *. p0.x +. B *. p0.y +. C),
      A * (Cubic.eval ⟨p0, c1, c2, r⟩ t).x + B * (Cubic.eval ⟨p0, c1, c2, r⟩ t).y + C = 0) :
    ∀ l, lineCubicIntersect p q ⟨p0, c1, c2, r⟩ = some l → ∀ i ∈ l, NearEnd i.t0 ∧ NearEnd i.t1 := by
  intro l hl i hi
  obtain ⟨A, B, C, k, hg, hk, hline⟩ := generalFrom_steep (show p.y ≠ q.y from fs.steep)
  have hro := hroot A B C hg
  unfold lineCubicIntersect at hl
  rw [hg] at hl
  dsimp only at hl
  generalize hts : resolvCubic (K := K) _ _ _ _ = ts at hl hro
  have hlen : ts.length ≤ 3 := by rw [← hts]; exact resolvCubic_length _ _ _ _
  have hf := lcFold p q ⟨p0, c1, c2, r⟩ ts [] (by simpa using hlen)
  unfold lcStep at hf
  rw [hl, Option.some.injEq] at hf
  subst hf
  simp only [List.nil_append, List.mem_map, List.mem_filter, Bool.and_eq_true] at hi
  obtain ⟨t, ⟨ht, ⟨h1, h2⟩, h3⟩, rfl⟩ := hi
  simp only [le_eq_decide, decide_eq_true_eq, exact_zero, exact_one] at h1 h2
  have hr0 := hro t ht
  rw [hline] at hr0
  have hcross := (mul_eq_zero.1 hr0).resolve_left hk
  have hd : q.y - p.y ≠ 0 := sub_ne_zero.2 (Ne.symm fs.steep)
  rw [pointAt_exact] at h3 ⊢
  obtain ⟨z, hz⟩ : ∃ z, z = Cubic.eval ⟨p0, c1, c2, r⟩ t := ⟨_, rfl⟩
  rw [← hz] at hcross h3 ⊢
  have hzl : z = lerp p q ((z.y - p.y) / (q.y - p.y)) := by
    ext
    · simp only [lerp]; field_simp; linear_combination hcross
    · simp only [lerp]; field_simp; ring
  have hpq : p ≠ q := fun e => fs.steep (congrArg Vec2.y e)
  obtain ⟨u0, u1⟩ := (pointBetween_exact hp hq _ hpq hzl).1 h3
  have hm := meet_ends fs ft hcl u0 u1 h1 h2 (show lerp p q _ = Cubic.eval ⟨p0, c1, c2, r⟩ t by rw [← hzl, hz])
  have hpar : paramOn z p (q.sub p) = (z.y - p.y) / (q.y - p.y) := by
    unfold paramOn Vec2.sub
    simp only [eq_eq_decide, decide_eq_true_eq, exact_zero, Exact.sub_eq, Exact.div_eq, if_neg hd]
  have ends : ∀ t : K, t = 0 ∨ t = 1 → NearEnd t := by
    rintro t (rfl | rfl) <;> unfold NearEnd <;> norm_num
  exact ⟨by rw [hpar]; exact ends _ hm.1, ends _ hm.2⟩

end

/-! ## exact reals -/

theorem resolvQuad_real {a b c t : ℝ} (ha : Clear a) (hk : Clear (b * b - 4 * a * c)) (h : t ∈ resolvQuad a b c) : a * t ^ 2 + b * t + c = 0 := by
  unfold resolvQuad at h
  by_cases hz : isZero a = true
  · rw [if_pos hz] at h
    rw [isZero_exact] at hz
    have a0 : a = 0 := ha.resolve_right (not_le.2 hz)
    by_cases hb : isZero b = true
    · rw [if_pos hb] at h; simp at h
    · rw [if_neg hb, List.mem_singleton] at h
      have b0 : b ≠ 0 := by
        rintro rfl
        apply hb; rw [isZero_exact]; norm_num
      rw [Exact.div_eq, Exact.neg_eq] at h
      rw [h, a0]; field_simp; ring
  · rw [if_neg hz] at h
    have a0 : a ≠ 0 := by
      rintro rfl
      apply hz; rw [isZero_exact]; norm_num
    simp only [Exact.mul_eq, Exact.sub_eq, Exact.lit_eq, Exact.neg_eq, Exact.div_eq, Exact.add_eq, lt_eq_decide, decide_eq_true_eq] at h
    push_cast at h
    by_cases hkz : isZero (b * b - 4 * a * c) = true
    · rw [if_pos hkz, List.mem_singleton] at h
      rw [isZero_exact] at hkz
      have k0 : b * b - 4 * a * c = 0 := hk.resolve_right (not_le.2 hkz)
      rw [h]; field_simp; linear_combination (-1 : ℝ) * k0
    · rw [if_neg hkz] at h
      by_cases hp : 0 < b * b - 4 * a * c
      · rw [if_pos hp] at h
        have hs : Real.sqrt (b * b - 4 * a * c) * Real.sqrt (b * b - 4 * a * c) = b * b - 4 * a * c := Real.mul_self_sqrt hp.le
        have e : (FTrans.sqrt (b * b - 4 * a * c) : ℝ) = Real.sqrt (b * b - 4 * a * c) := rfl
        rw [e] at h
        generalize Real.sqrt (b * b - 4 * a * c) = w at hs h
        simp only [List.mem_cons, List.not_mem_nil, or_false] at h
        rcases h with rfl | rfl
        · field_simp; linear_combination hs
        · field_simp; linear_combination hs
      · rw [if_neg hp] at h; simp at h

/-- A line and a parabola that do not cross, in exact arithmetic, provided the coefficients of the quadratic equation for their
intersection and its discriminant are not close to zero unless they are zero. -/
theorem noReport_parabola {p q p0 c1 c2 r : Vec2 ℝ} (fs : Fine (p, Seg.line q)) (ft : Fine (p0, Seg.cubic c1 c2 r))
    (hp : InDoubles p) (hq : InDoubles q) (hcl : Clear2 (p, Seg.line q) (p0, Seg.cubic c1 c2 r)) (hpar : r.x - p0.x = 3 * (c2.x - c1.x))
    (hA : ∀ A B C, generalFrom p q = (A, B, C) → Clear (3 * A * (p0.x - 2 * c1.x + c2.x)) ∧
      Clear ((3 * A * (c1.x - p0.x) + B * (r.y - p0.y)) * (3 * A * (c1.x - p0.x) + B * (r.y - p0.y)) -
        4 * (3 * A * (p0.x - 2 * c1.x + c2.x)) * (A * p0.x + B * p0.y + C))) :
    NoReport (p, Seg.line q) (p0, Seg.cubic c1 c2 r) := by
  refine noReport_roots fs ft hp hq hcl (fun A B C hg t ht => ?_)
  obtain ⟨k1, k2⟩ := hA A B C hg
  obtain ⟨e1, e2⟩ := ft.even
  simp only at e1 e2
  have x3 : A *. (Cubic.polT3 ⟨p0, c1, c2, r⟩).x +. B *. (Cubic.polT3 ⟨p0, c1, c2, r⟩).y = 0 := by
    unfold Cubic.polT3 Vec2.sub Vec2.add Vec2.smul
    simp only [Exact.mul_eq, Exact.sub_eq, Exact.lit_eq, Exact.add_eq, e1, e2]
    push_cast
    linear_combination A * hpar
  have x2 : A *. (Cubic.polT2 ⟨p0, c1, c2, r⟩).x +. B *. (Cubic.polT2 ⟨p0, c1, c2, r⟩).y = 3 * A * (p0.x - 2 * c1.x + c2.x) := by
    unfold Cubic.polT2 Vec2.sub Vec2.add Vec2.smul
    simp only [Exact.mul_eq, Exact.sub_eq, Exact.lit_eq, Exact.add_eq, e1, e2]
    push_cast
    ring
  have x1 : A *. (Cubic.polT1 ⟨p0, c1, c2, r⟩).x +. B *. (Cubic.polT1 ⟨p0, c1, c2, r⟩).y = 3 * A * (c1.x - p0.x) + B * (r.y - p0.y) := by
    unfold Cubic.polT1 Vec2.sub Vec2.smul
    simp only [Exact.mul_eq, Exact.sub_eq, Exact.lit_eq, Exact.add_eq, e1]
    push_cast
    ring
  have x0 : A *. p0.x +. B *. p0.y +. C = A * p0.x + B * p0.y + C := by simp only [Exact.mul_eq, Exact.add_eq]
  rw [x3, x2, x1, x0] at ht
  have hz : isZero (0 : ℝ) = true := by rw [isZero_exact]; norm_num
  unfold resolvCubic at ht
  rw [if_pos hz] at ht
  have := resolvQuad_real k1 k2 ht
  simp only [Cubic.eval, bern, e1, e2]
  linear_combination this + A * t ^ 3 * hpar

/-- Two curves that keep a distance except close to common ends. -/
theorem noReport_cubics {p c1 c2 q p' d1 d2 r : Vec2 ℝ} {M : ℝ} (h1 : CtrlStep ⟨p, c1, c2, q⟩ M) (h2 : CtrlStep ⟨p', d1, d2, r⟩ M)
    (r1 : ∀ z ∈ sidePoints (p, Seg.cubic c1 c2 q), InDoubles z) (r2 : ∀ z ∈ sidePoints (p', Seg.cubic d1 d2 r), InDoubles z)
    (hsep : ∀ a b : ℝ, 0 < a → a < 1 → 0 < b → b < 1 →
      |(Cubic.eval ⟨p, c1, c2, q⟩ a).x - (Cubic.eval ⟨p', d1, d2, r⟩ b).x| ≤ 6 * M / 2 ^ 41 →
      |(Cubic.eval ⟨p, c1, c2, q⟩ a).y - (Cubic.eval ⟨p', d1, d2, r⟩ b).y| ≤ 6 * M / 2 ^ 41 → NearEnd a ∧ NearEnd b) :
    NoReport (p, Seg.cubic c1 c2 q) (p', Seg.cubic d1 d2 r) := by
  have k1 : CtrlRange (⟨p, c1, c2, q⟩ : Cubic ℝ) := by
    intro z hz
    obtain ⟨z1, z2, z3, z4⟩ := r1 z hz
    exact ⟨z1, z2, z3, z4⟩
  have k2 : CtrlRange (⟨p', d1, d2, r⟩ : Cubic ℝ) := by
    intro z hz
    obtain ⟨z1, z2, z3, z4⟩ := r2 z hz
    exact ⟨z1, z2, z3, z4⟩
  have hd : ccDepth 40 = 41 := rfl
  intro csort hc
  constructor
  · intro i hi
    obtain ⟨⟨a0, a1⟩, ⟨b0, b1⟩, _, e1, e2⟩ := cubicIntersect_sound csort hc _ _ 40 M M h1 h2 k1 k2 i hi
    rw [hd, show 3 * (M + M) = 6 * M by ring] at e1 e2
    have p1 : ∀ (c : Cubic ℝ) t, c.pointAt t = c.eval t := pointAt_exact
    rw [p1, p1] at e1 e2
    exact hsep _ _ a0 a1 b0 b1 e1 e2
  · intro i hi
    obtain ⟨⟨a0, a1⟩, ⟨b0, b1⟩, _, e1, e2⟩ := cubicIntersect_sound csort hc _ _ 40 M M h2 h1 k2 k1 i hi
    rw [hd, show 3 * (M + M) = 6 * M by ring, abs_sub_comm] at e1 e2
    have p1 : ∀ (c : Cubic ℝ) t, c.pointAt t = c.eval t := pointAt_exact
    rw [p1, p1] at e1 e2
    exact (hsep _ _ b0 b1 a0 a1 e1 e2).symm

end River
