import Verif.Lemmas.LineExact
import Verif.RatTrans

/-! # C73: points and vectors compute as in the plane

In exact arithmetic over any ordered field. -/

namespace River
variable {K : Type}

attribute [local instance 10000] FTrans.toFNum

variable [Field K] [LinearOrder K] [IsStrictOrderedRing K] [FTrans K] [LawfulOrd K] [Exact K]

omit [IsStrictOrderedRing K] [LawfulOrd K] in
/-- **Sums, differences, multiples**: the operators obey the laws of a vector space, differences undo sums, and adding or subtracting a
number is adding or subtracting the vector with that number twice. -/
theorem vector_laws (a b c : Vec2 K) (s t : K) :
    a.add b = b.add a ∧ (a.add b).add c = a.add (b.add c) ∧ (a.add b).sub b = a ∧ (a.sub b).add b = a ∧ a.add ⟨0, 0⟩ = a ∧
    a.add a.neg = ⟨0, 0⟩ ∧ a.sub b = a.add b.neg ∧ a.smul 1 = a ∧ (a.smul s).smul t = a.smul (s * t) ∧
    (a.add b).smul s = (a.smul s).add (b.smul s) ∧ a.smul (s + t) = (a.smul s).add (a.smul t) ∧ (s ≠ 0 → (a.smul s).sdiv s = a ∧
    (a.sdiv s).smul s = a) ∧ a.addS s = a.add ⟨s, s⟩ ∧ a.subS s = a.sub ⟨s, s⟩ := by
  simp only [Vec2.add, Vec2.sub, Vec2.neg, Vec2.smul, Vec2.sdiv, Vec2.addS, Vec2.subS, Vec2.ext_iff, Exact.add_eq, Exact.sub_eq,
    Exact.mul_eq, Exact.div_eq, Exact.neg_eq]
  refine ⟨⟨by ring, by ring⟩, ⟨by ring, by ring⟩, ⟨by ring, by ring⟩, ⟨by ring, by ring⟩, ⟨by ring, by ring⟩, ⟨by ring, by ring⟩,
    ⟨by ring, by ring⟩, ⟨by ring, by ring⟩, ⟨by ring, by ring⟩, ⟨by ring, by ring⟩, ⟨by ring, by ring⟩, fun h => ?_,
    trivial, trivial⟩
  exact ⟨⟨by field_simp, by field_simp⟩, ⟨by field_simp, by field_simp⟩⟩

omit [IsStrictOrderedRing K] [LawfulOrd K] in
/-- **Scalar and cross product by angle**: for two vectors that are multiples `r`, `q` of a vector `a` and of `a` turned by an angle with
cosine `c` and sine `s`, the scalar product is `r·q·|a|²·c`, the cross product is `r·q·|a|²·s` (positive for a turn to the left), and
`dist2` is the square of the length. -/
theorem products_angle (a u v : Vec2 K) (r q c s : K) (hcs : c * c + s * s = 1) (hu : u = ⟨r * a.x, r * a.y⟩)
    (hv : v = ⟨q * (c * a.x - s * a.y), q * (s * a.x + c * a.y)⟩) :
    u.dot v = r * q * (a.x ^ 2 + a.y ^ 2) * c ∧ u.cross v = r * q * (a.x ^ 2 + a.y ^ 2) * s ∧
    u.dist2 = r ^ 2 * (a.x ^ 2 + a.y ^ 2) ∧ v.dist2 = q ^ 2 * (a.x ^ 2 + a.y ^ 2) := by
  subst hu hv
  simp only [Vec2.dot, Vec2.cross, Vec2.dist2, Exact.add_eq, Exact.sub_eq, Exact.mul_eq]
  refine ⟨by ring, by ring, by ring, ?_⟩
  linear_combination q ^ 2 * (a.x ^ 2 + a.y ^ 2) * hcs

omit [LawfulOrd K] in
/-- **What the signs say**: the cross product vanishes exactly for vectors on one line through the origin, the scalar product exactly
for vectors at a right angle (the distance of the ends to both multiples `±b` is the same), and only the zero vector has length zero. -/
theorem products_zero (a b : Vec2 K) :
    (a.cross b = 0 ↔ ∃ d : Vec2 K, ∃ r q : K, a = ⟨r * d.x, r * d.y⟩ ∧ b = ⟨q * d.x, q * d.y⟩) ∧
    (a.dot b = 0 ↔ (a.x - b.x) ^ 2 + (a.y - b.y) ^ 2 = (a.x + b.x) ^ 2 + (a.y + b.y) ^ 2) ∧
    (a.dist2 = 0 ↔ a = ⟨0, 0⟩) ∧ 0 ≤ a.dist2 ∧ (a.dot b) ^ 2 + (a.cross b) ^ 2 = a.dist2 * b.dist2 := by
  simp only [Vec2.dot, Vec2.cross, Vec2.dist2, Exact.add_eq, Exact.sub_eq, Exact.mul_eq, Vec2.ext_iff]
  refine ⟨⟨fun h => ?_, ?_⟩, ⟨fun h => ?_, fun h => ?_⟩, ⟨fun h => ?_, ?_⟩, ?_, by ring⟩
  · by_cases hx : a.x = 0
    · by_cases hy : a.y = 0
      · exact ⟨b, 0, 1, by simp [hx, hy], by simp⟩
      · refine ⟨a, 1, b.y / a.y, by simp, ?_, by field_simp⟩
        rw [hx] at h ⊢
        rw [zero_mul, zero_sub, neg_eq_zero] at h
        rcases mul_eq_zero.1 h with h | h
        · simp [h]
        · exact absurd h hy
    · refine ⟨a, 1, b.x / a.x, by simp, by field_simp, ?_⟩
      field_simp
      linear_combination h
  · rintro ⟨d, r, q, ⟨h1, h2⟩, h3, h4⟩
    rw [h1, h2, h3, h4]
    ring
  · linear_combination (-4) * h
  · have : 4 * (a.x * b.x + a.y * b.y) = 0 := by linear_combination -h
    rcases mul_eq_zero.1 this with h | h
    · norm_num at h
    · exact h
  · have h1 := mul_self_nonneg a.x
    have h2 := mul_self_nonneg a.y
    exact ⟨mul_self_eq_zero.1 (by linarith), mul_self_eq_zero.1 (by linarith)⟩
  · rintro ⟨h1, h2⟩
    rw [h1, h2]; ring
  · exact add_nonneg (mul_self_nonneg _) (mul_self_nonneg _)

/-- **Left or right**: the cross product of two vectors is positive exactly when the second lies strictly to the left of the line
along the first: it is a multiple of the first plus a positive multiple of the first turned left by a right angle. -/
theorem cross_pos_iff (a b : Vec2 K) (ha : a ≠ ⟨0, 0⟩) :
    0 < a.cross b ↔ ∃ k l : K, 0 < l ∧ b = ⟨k * a.x - l * a.y, k * a.y + l * a.x⟩ := by
  have hp : 0 < a.x * a.x + a.y * a.y := by
    rcases lt_or_eq_of_le (add_nonneg (mul_self_nonneg a.x) (mul_self_nonneg a.y)) with h | h
    · exact h
    · exfalso
      have h1 := mul_self_nonneg a.x
      have h2 := mul_self_nonneg a.y
      exact ha (Vec2.ext (mul_self_eq_zero.1 (by linarith)) (mul_self_eq_zero.1 (by linarith)))
  simp only [Vec2.cross, Exact.sub_eq, Exact.mul_eq]
  constructor
  · intro h
    refine ⟨(a.x * b.x + a.y * b.y) / (a.x * a.x + a.y * a.y), (a.x * b.y - b.x * a.y) / (a.x * a.x + a.y * a.y), div_pos h hp, ?_⟩
    obtain ⟨n, hn⟩ : ∃ n, n = a.x * a.x + a.y * a.y := ⟨_, rfl⟩
    rw [← hn] at hp ⊢
    have hn0 := hp.ne'
    ext
    · simp only; field_simp; rw [hn]; ring
    · simp only; field_simp; rw [hn]; ring
  · rintro ⟨k, l, hl, rfl⟩
    have : 0 < l * (a.x * a.x + a.y * a.y) := mul_pos hl hp
    simp only
    linarith [this]

/-- A case: `(3, 4)` and `(-4, 3)`, a quarter turn to the left. -/
example : (⟨3, 4⟩ : Vec2 ℚ).dot ⟨-4, 3⟩ = 0 ∧ (⟨3, 4⟩ : Vec2 ℚ).cross ⟨-4, 3⟩ = 25 ∧ (⟨3, 4⟩ : Vec2 ℚ).dist2 = 25 := by decide +kernel

end River
