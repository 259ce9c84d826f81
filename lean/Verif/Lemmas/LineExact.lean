import Verif.Lemmas.Lines
import Verif.Props.Rect
import Verif.Spec.Line

/-! # `intersect` of two straight segments in exact arithmetic -/

namespace River
variable {K : Type}

attribute [local instance 10000] FTrans.toFNum

variable [Field K] [LinearOrder K] [IsStrictOrderedRing K] [FTrans K] [LawfulOrd K] [Exact K]

omit [IsStrictOrderedRing K] [LawfulOrd K] in
theorem exact_one : (FNum.lit 1 : K) = 1 := by rw [Exact.lit_eq]; simp
omit [IsStrictOrderedRing K] [LawfulOrd K] in
theorem exact_zero : (FNum.lit 0 : K) = 0 := by rw [Exact.lit_eq]; simp

/-- Not parallel: the result is exactly the common point, if there is one, with both parameters. -/
theorem lineIntersect_exact {p0 p1 p2 p3 : Vec2 K} (hn : ¬ Parallel p0 p1 p2 p3) :
    ∃ l, lineIntersect p0 p1 p2 p3 = some l ∧
      (∀ i ∈ l, 0 ≤ i.t0 ∧ i.t0 ≤ 1 ∧ 0 ≤ i.t1 ∧ i.t1 ≤ 1 ∧ i.p = lerp p0 p1 i.t0 ∧ i.p = lerp p2 p3 i.t1) ∧
      ∀ a b, 0 ≤ a → a ≤ 1 → 0 ≤ b → b ≤ 1 → lerp p0 p1 a = lerp p2 p3 b → (⟨lerp p0 p1 a, a, b⟩ : Info K) ∈ l := by
  obtain ⟨D, hD⟩ : ∃ D, D = (p1.y - p0.y) * (p2.x - p3.x) - (p1.x - p0.x) * (p2.y - p3.y) := ⟨_, rfl⟩
  have hD0 : D ≠ 0 := by
    intro h; apply hn; unfold Parallel; rw [hD] at h; linear_combination h
  unfold lineIntersect
  simp only [Vec2.sub, Vec2.add, Vec2.smul, Exact.add_eq, Exact.sub_eq, Exact.mul_eq, Exact.div_eq, exact_one, exact_zero, Exact.fin_eq,
    le_eq_decide, eq_eq_decide, ← hD]
  rw [if_neg (by simp [hD0])]
  obtain ⟨na, hna⟩ : ∃ na, na = ((p2.y - p3.y) * (p0.x - p2.x) - (p2.x - p3.x) * (p0.y - p2.y)) * (1 / D) := ⟨_, rfl⟩
  obtain ⟨nb, hnb⟩ : ∃ nb, nb = ((p1.x - p0.x) * (p0.y - p2.y) - (p1.y - p0.y) * (p0.x - p2.x)) * (1 / D) := ⟨_, rfl⟩
  rw [← hna, ← hnb]
  have ea : na * D = (p2.y - p3.y) * (p0.x - p2.x) - (p2.x - p3.x) * (p0.y - p2.y) := by rw [hna]; field_simp
  have eb : nb * D = (p1.x - p0.x) * (p0.y - p2.y) - (p1.y - p0.y) * (p0.x - p2.x) := by rw [hnb]; field_simp
  have com : lerp p0 p1 na = lerp p2 p3 nb := by
    unfold lerp
    ext
    · apply mul_right_cancel₀ hD0
      simp only
      have : (p0.x + na * (p1.x - p0.x)) * D = p0.x * D + (na * D) * (p1.x - p0.x) := by ring
      rw [this, ea]
      have : (p2.x + nb * (p3.x - p2.x)) * D = p2.x * D + (nb * D) * (p3.x - p2.x) := by ring
      rw [this, eb, hD]
      ring
    · apply mul_right_cancel₀ hD0
      simp only
      have : (p0.y + na * (p1.y - p0.y)) * D = p0.y * D + (na * D) * (p1.y - p0.y) := by ring
      rw [this, ea]
      have : (p2.y + nb * (p3.y - p2.y)) * D = p2.y * D + (nb * D) * (p3.y - p2.y) := by ring
      rw [this, eb, hD]
      ring
  have uniq : ∀ a b, lerp p0 p1 a = lerp p2 p3 b → a = na ∧ b = nb := by
    intro a b h
    have hx := congrArg Vec2.x h
    have hy := congrArg Vec2.y h
    simp only [lerp] at hx hy
    constructor
    · apply mul_right_cancel₀ hD0
      rw [ea, hD]
      linear_combination (-(p2.y - p3.y)) * hx + (p2.x - p3.x) * hy
    · apply mul_right_cancel₀ hD0
      rw [eb, hD]
      linear_combination (p1.y - p0.y) * hx - (p1.x - p0.x) * hy
  have hp : (⟨p0.x + (p1.x - p0.x) * na, p0.y + (p1.y - p0.y) * na⟩ : Vec2 K) = lerp p0 p1 na := by
    unfold lerp; ext <;> simp only <;> ring
  rw [hp]
  by_cases hin : 0 ≤ na ∧ na ≤ 1 ∧ 0 ≤ nb ∧ nb ≤ 1
  · obtain ⟨h1, h2, h3, h4⟩ := hin
    refine ⟨_, if_pos (by simp [h1, h2, h3, h4]), ?_, ?_⟩
    · intro i hi
      rw [List.mem_singleton] at hi
      subst hi
      exact ⟨h1, h2, h3, h4, rfl, com⟩
    · intro a b _ _ _ _ h
      obtain ⟨rfl, rfl⟩ := uniq a b h
      exact List.mem_singleton.2 rfl
  · refine ⟨_, if_neg ?_, by simp, ?_⟩
    · simp only [Bool.and_eq_true, decide_eq_true_eq]
      tauto
    · intro a b k1 k2 k3 k4 h
      obtain ⟨rfl, rfl⟩ := uniq a b h
      exact absurd ⟨k1, k2, k3, k4⟩ hin

theorem pointBetween_exact {p q r : Vec2 K} (hq : InDoubles q) (hr : InDoubles r) (t : K) (hne : q ≠ r) (hp : p = lerp q r t) :
    pointBetween p q r = true ↔ 0 ≤ t ∧ t ≤ 1 := by
  obtain ⟨k1, k2, k3, k4⟩ := hq
  obtain ⟨l1, l2, l3, l4⟩ := hr
  have hx : p.x - q.x = t * (r.x - q.x) := by rw [hp]; simp [lerp]
  have hy : p.y - q.y = t * (r.y - q.y) := by rw [hp]; simp [lerp]
  have main : ∀ u v w : K, u - v = t * (w - v) → v ≠ w → (min v w ≤ u ∧ u ≤ max v w ↔ 0 ≤ t ∧ t ≤ 1) := by
    intro u v w h hne
    rcases lt_or_gt_of_ne hne with hlt | hlt
    · rw [min_eq_left hlt.le, max_eq_right hlt.le]
      have hd : 0 < w - v := sub_pos.2 hlt
      constructor
      · rintro ⟨h1, h2⟩
        refine ⟨?_, ?_⟩
        · by_contra hc
          have := mul_neg_of_neg_of_pos (not_le.1 hc) hd
          linarith
        · by_contra hc
          have := mul_lt_mul_of_pos_right (not_le.1 hc) hd
          linarith
      · rintro ⟨h1, h2⟩
        have a1 := mul_nonneg h1 hd.le
        have a2 := mul_le_mul_of_nonneg_right h2 hd.le
        constructor <;> linarith
    · rw [min_eq_right hlt.le, max_eq_left hlt.le]
      have hd : 0 < v - w := sub_pos.2 hlt
      have h' : v - u = t * (v - w) := by linear_combination -h
      constructor
      · rintro ⟨h1, h2⟩
        refine ⟨?_, ?_⟩
        · by_contra hc
          have := mul_neg_of_neg_of_pos (not_le.1 hc) hd
          linarith
        · by_contra hc
          have := mul_lt_mul_of_pos_right (not_le.1 hc) hd
          linarith
      · rintro ⟨h1, h2⟩
        have a1 := mul_nonneg h1 hd.le
        have a2 := mul_le_mul_of_nonneg_right h2 hd.le
        constructor <;> linarith
  unfold pointBetween Rect.of
  simp only [List.foldl_cons, List.foldl_nil, Rect.extend, Rect.start, fmin_eq_min, fmax_eq_max, le_eq_decide, eq_eq_decide,
    min_eq_right k2, min_eq_right k4, max_eq_right k1, max_eq_right k3, decide_eq_true_eq]
  split
  · next e =>
    have hne' : q.y ≠ r.y := fun h => hne (Vec2.ext e h)
    rw [Bool.and_eq_true, decide_eq_true_eq, decide_eq_true_eq]
    exact main p.y q.y r.y hy hne'
  · next e =>
    rw [Bool.and_eq_true, decide_eq_true_eq, decide_eq_true_eq]
    exact main p.x q.x r.x hx e

omit [IsStrictOrderedRing K] [FTrans K] [LawfulOrd K] [Exact K] [LinearOrder K] in
theorem lerp_inj {a b : Vec2 K} (h : a ≠ b) {s t : K} (he : lerp a b s = lerp a b t) : s = t := by
  have hx := congrArg Vec2.x he
  have hy := congrArg Vec2.y he
  simp only [lerp, add_right_inj] at hx hy
  by_cases h' : a.y = b.y
  · exact mul_right_cancel₀ (sub_ne_zero.2 (fun e => h (Vec2.ext e.symm h'))) hx
  · exact mul_right_cancel₀ (sub_ne_zero.2 (Ne.symm h')) hy

theorem dist2PointLine_exact {p q r : Vec2 K} (hne : q ≠ r) (h : dist2PointLine p q r = 0) : ∃ t, 0 ≤ t ∧ t ≤ 1 ∧ p = lerp q r t := by
  unfold dist2PointLine at h
  simp only [Vec2.sub, Vec2.add, Vec2.smul, Vec2.dot, Vec2.dist2, Exact.add_eq, Exact.sub_eq, Exact.mul_eq, Exact.div_eq, exact_zero,
    lt_eq_decide, decide_eq_true_eq] at h
  have sq : ∀ a b : K, a * a + b * b = 0 → a = 0 ∧ b = 0 := by
    intro a b h
    have h1 := mul_self_nonneg a
    have h2 := mul_self_nonneg b
    exact ⟨mul_self_eq_zero.1 (by linarith), mul_self_eq_zero.1 (by linarith)⟩
  obtain ⟨d, hd⟩ : ∃ d, d = (r.x - q.x) * (r.x - q.x) + (r.y - q.y) * (r.y - q.y) := ⟨_, rfl⟩
  obtain ⟨f, hf⟩ : ∃ f, f = (r.x - q.x) * (p.x - q.x) + (r.y - q.y) * (p.y - q.y) := ⟨_, rfl⟩
  rw [← hd, ← hf] at h
  have hd0 : 0 < d := by
    rcases lt_or_eq_of_le (add_nonneg (mul_self_nonneg (r.x - q.x)) (mul_self_nonneg (r.y - q.y))) with h | h
    · rw [hd]; exact h
    · obtain ⟨h1, h2⟩ := sq _ _ h.symm
      exact absurd (Vec2.ext (sub_eq_zero.1 h1).symm (sub_eq_zero.1 h2).symm) hne
  split at h
  · obtain ⟨h1, h2⟩ := sq _ _ h
    exact ⟨0, le_refl _, zero_le_one, by rw [lerp_zero]; exact Vec2.ext (sub_eq_zero.1 h1) (sub_eq_zero.1 h2)⟩
  · next hf0 =>
    split at h
    · obtain ⟨h1, h2⟩ := sq _ _ h
      exact ⟨1, zero_le_one, le_refl _, by rw [lerp_one]; exact Vec2.ext (sub_eq_zero.1 h1) (sub_eq_zero.1 h2)⟩
    · next hfd =>
      obtain ⟨h1, h2⟩ := sq _ _ h
      refine ⟨f / d, div_nonneg (not_lt.1 hf0) hd0.le, (div_le_one hd0).2 (not_lt.1 hfd), Vec2.ext ?_ ?_⟩
      · rw [sub_eq_zero] at h1; rw [h1]; simp only [lerp]; ring
      · rw [sub_eq_zero] at h2; rw [h2]; simp only [lerp]; ring

/-- Parallel segments: whatever is reported is a common point of both and an end point of one of them. -/
theorem lineIntersect_along {p0 p1 p2 p3 : Vec2 K} (hp : Parallel p0 p1 p2 p3) (n01 : p0 ≠ p1) (n23 : p2 ≠ p3)
    (r0 : InDoubles p0) (r1 : InDoubles p1) (r2 : InDoubles p2) (r3 : InDoubles p3) :
    ∃ l, lineIntersect p0 p1 p2 p3 = some l ∧ ∀ d ∈ l, 0 ≤ d.t0 ∧ d.t0 ≤ 1 ∧ 0 ≤ d.t1 ∧ d.t1 ≤ 1 ∧ d.p = lerp p0 p1 d.t0 ∧
      d.p = lerp p2 p3 d.t1 ∧ (d.t0 = 0 ∨ d.t0 = 1 ∨ d.t1 = 0 ∨ d.t1 = 1) := by
  have hD : (p1.y - p0.y) * (p2.x - p3.x) - (p1.x - p0.x) * (p2.y - p3.y) = 0 := by
    unfold Parallel at hp; linear_combination hp
  have hb : lineIntersect p0 p1 p2 p3 =
      if dist2PointLine p0 p2 p3 ==. FNum.lit 0 then
        let res := some []
        let res := if p0.bne p2 && p0.bne p3 && pointBetween p0 p2 p3
          then pushInfo 2 res ⟨p0, FNum.lit 0, paramOnNeg p0 p2 (p2.sub p3)⟩ else res
        let res := if p1.bne p2 && p1.bne p3 && pointBetween p1 p2 p3
          then pushInfo 2 res ⟨p1, FNum.lit 1, paramOnNeg p1 p2 (p2.sub p3)⟩ else res
        let res := if p2.bne p0 && p2.bne p1 && pointBetween p2 p0 p1
          then pushInfo 2 res ⟨p2, paramOn p2 p0 (p1.sub p0), FNum.lit 0⟩ else res
        if p3.bne p0 && p3.bne p1 && pointBetween p3 p0 p1
          then pushInfo 2 res ⟨p3, paramOn p3 p0 (p1.sub p0), FNum.lit 1⟩ else res
      else some [] := by
    unfold lineIntersect
    rw [if_pos]
    simp only [Vec2.sub, Exact.sub_eq, Exact.mul_eq, exact_zero, eq_eq_decide]
    rw [hD]; simp
  rw [hb]
  by_cases hdist : (dist2PointLine p0 p2 p3 ==. FNum.lit 0) = true
  swap
  · rw [if_neg hdist]; exact ⟨[], rfl, by simp⟩
  rw [if_pos hdist]
  rw [exact_zero, eq_eq_decide, decide_eq_true_eq] at hdist
  obtain ⟨t, t1, t2, e0⟩ := dist2PointLine_exact n23 hdist
  -- all four points lie on one line
  obtain ⟨c, cx, cy⟩ : ∃ c, p1.x - p0.x = c * (p3.x - p2.x) ∧ p1.y - p0.y = c * (p3.y - p2.y) := by
    unfold Parallel at hp
    by_cases h23 : p2.y = p3.y
    · have d23 : p3.x - p2.x ≠ 0 := sub_ne_zero.2 (fun h => n23 (Vec2.ext h.symm h23))
      refine ⟨(p1.x - p0.x) / (p3.x - p2.x), by field_simp, ?_⟩
      have e : p3.y - p2.y = 0 := sub_eq_zero.2 h23.symm
      rw [e, mul_zero] at hp ⊢
      exact (mul_eq_zero.1 hp.symm).resolve_right d23
    · have d23 : p3.y - p2.y ≠ 0 := sub_ne_zero.2 (Ne.symm h23)
      refine ⟨(p1.y - p0.y) / (p3.y - p2.y), ?_, by field_simp⟩
      field_simp
      linear_combination hp
  have c0 : c ≠ 0 := by
    intro h
    rw [h, zero_mul] at cx cy
    exact n01 (Vec2.ext (sub_eq_zero.1 cx).symm (sub_eq_zero.1 cy).symm)
  have e1 : p1 = lerp p2 p3 (t + c) := by
    have x0 := congrArg Vec2.x e0
    have y0 := congrArg Vec2.y e0
    simp only [lerp] at x0 y0
    refine Vec2.ext ?_ ?_ <;> simp only [lerp]
    · linear_combination cx + x0
    · linear_combination cy + y0
  have e2 : p2 = lerp p0 p1 (-t / c) := by
    have x0 := congrArg Vec2.x e0
    have y0 := congrArg Vec2.y e0
    simp only [lerp] at x0 y0
    refine Vec2.ext ?_ ?_ <;> simp only [lerp]
    · rw [cx]; field_simp; linear_combination -x0
    · rw [cy]; field_simp; linear_combination -y0
  have e3 : p3 = lerp p0 p1 ((1 - t) / c) := by
    have x0 := congrArg Vec2.x e0
    have y0 := congrArg Vec2.y e0
    simp only [lerp] at x0 y0
    refine Vec2.ext ?_ ?_ <;> simp only [lerp]
    · rw [cx]; field_simp; linear_combination -x0
    · rw [cy]; field_simp; linear_combination -y0
  have bne : ∀ a b : Vec2 K, a.bne b = true ↔ a ≠ b := by
    intro a b; unfold Vec2.bne; rw [Bool.not_eq_true', ← Bool.not_eq_true, Vec2.beq_iff]
  -- the computed parameters
  have par : ∀ (q a b : Vec2 K) (s : K), a ≠ b → q = lerp a b s → paramOn q a (b.sub a) = s := by
    intro q a b s hne hq
    have x := congrArg Vec2.x hq
    have y := congrArg Vec2.y hq
    simp only [lerp] at x y
    unfold paramOn
    simp only [Vec2.sub, Exact.sub_eq, Exact.div_eq, exact_zero, eq_eq_decide, decide_eq_true_eq]
    split
    · next h =>
      have : b.x - a.x ≠ 0 := sub_ne_zero.2 (fun e => hne (Vec2.ext e.symm (sub_eq_zero.1 h).symm))
      rw [div_eq_iff this]; linear_combination x
    · next h => rw [div_eq_iff h]; linear_combination y
  have parN : ∀ (q a b : Vec2 K) (s : K), a ≠ b → q = lerp a b s → paramOnNeg q a (a.sub b) = s := by
    intro q a b s hne hq
    have x := congrArg Vec2.x hq
    have y := congrArg Vec2.y hq
    simp only [lerp] at x y
    unfold paramOnNeg
    simp only [Vec2.sub, Exact.sub_eq, Exact.div_eq, Exact.neg_eq, exact_zero, eq_eq_decide, decide_eq_true_eq]
    split
    · next h =>
      have : -(a.x - b.x) ≠ 0 := neg_ne_zero.2 (sub_ne_zero.2 (fun e => hne (Vec2.ext e (sub_eq_zero.1 h))))
      rw [div_eq_iff this]; linear_combination x
    · next h => rw [div_eq_iff (neg_ne_zero.2 h)]; linear_combination y
  rw [parN p0 p2 p3 t n23 e0, parN p1 p2 p3 _ n23 e1, par p2 p0 p1 _ n01 e2, par p3 p0 p1 _ n01 e3, exact_zero, exact_one]
  obtain ⟨b0, hb0⟩ : ∃ b, b = (p0.bne p2 && p0.bne p3 && pointBetween p0 p2 p3) := ⟨_, rfl⟩
  obtain ⟨b1, hb1⟩ : ∃ b, b = (p1.bne p2 && p1.bne p3 && pointBetween p1 p2 p3) := ⟨_, rfl⟩
  obtain ⟨b2, hb2⟩ : ∃ b, b = (p2.bne p0 && p2.bne p1 && pointBetween p2 p0 p1) := ⟨_, rfl⟩
  obtain ⟨b3, hb3⟩ : ∃ b, b = (p3.bne p0 && p3.bne p1 && pointBetween p3 p0 p1) := ⟨_, rfl⟩
  rw [← hb0, ← hb1, ← hb2, ← hb3]
  have k1 : b1 = true → 0 < t + c ∧ t + c < 1 := by
    intro h
    rw [hb1, Bool.and_eq_true, Bool.and_eq_true, bne, bne, pointBetween_exact r2 r3 _ n23 e1] at h
    obtain ⟨⟨h1, h2⟩, h3, h4⟩ := h
    refine ⟨lt_of_le_of_ne h3 (fun h => h1 ?_), lt_of_le_of_ne h4 (fun h => h2 ?_)⟩
    · rw [← h, lerp_zero] at e1; exact e1
    · rw [h, lerp_one] at e1; exact e1
  have k2 : b2 = true → 0 < -t / c ∧ -t / c < 1 := by
    intro h
    rw [hb2, Bool.and_eq_true, Bool.and_eq_true, bne, bne, pointBetween_exact r0 r1 _ n01 e2] at h
    obtain ⟨⟨h1, h2⟩, h3, h4⟩ := h
    refine ⟨lt_of_le_of_ne h3 (fun h => h1 ?_), lt_of_le_of_ne h4 (fun h => h2 ?_)⟩
    · rw [← h, lerp_zero] at e2; exact e2
    · rw [h, lerp_one] at e2; exact e2
  have k3 : b3 = true → 0 < (1 - t) / c ∧ (1 - t) / c < 1 := by
    intro h
    rw [hb3, Bool.and_eq_true, Bool.and_eq_true, bne, bne, pointBetween_exact r0 r1 _ n01 e3] at h
    obtain ⟨⟨h1, h2⟩, h3, h4⟩ := h
    refine ⟨lt_of_le_of_ne h3 (fun h => h1 ?_), lt_of_le_of_ne h4 (fun h => h2 ?_)⟩
    · rw [← h, lerp_zero] at e3; exact e3
    · rw [h, lerp_one] at e3; exact e3
  have s2 : b2 = true → c < 0 ∧ t + c < 0 := by
    intro h
    obtain ⟨a, b⟩ := k2 h
    have hc : c < 0 := by
      rcases lt_or_gt_of_ne c0 with h | h
      · exact h
      · exact absurd a (not_lt.2 (div_nonpos_of_nonpos_of_nonneg (by linarith) h.le))
    rw [div_lt_one_of_neg hc] at b
    exact ⟨hc, by linarith⟩
  have s3 : b3 = true → 0 < c ∧ 1 < t + c := by
    intro h
    obtain ⟨a, b⟩ := k3 h
    have hc : 0 < c := by
      rcases lt_or_gt_of_ne c0 with h | h
      · exact absurd a (not_lt.2 (div_nonpos_of_nonneg_of_nonpos (by linarith) h.le))
      · exact h
    rw [div_lt_one hc] at b
    exact ⟨hc, by linarith⟩
  have n12 : b1 = true → b2 = true → False := fun h h' => by have := (k1 h).1; have := (s2 h').2; linarith
  have n13 : b1 = true → b3 = true → False := fun h h' => by have := (k1 h).2; have := (s3 h').2; linarith
  have n23' : b2 = true → b3 = true → False := fun h h' => by have := (s2 h).1; have := (s3 h').1; linarith
  have i0 : ∀ d : Info K, d = ⟨p0, 0, t⟩ → 0 ≤ d.t0 ∧ d.t0 ≤ 1 ∧ 0 ≤ d.t1 ∧ d.t1 ≤ 1 ∧ d.p = lerp p0 p1 d.t0 ∧
      d.p = lerp p2 p3 d.t1 ∧ (d.t0 = 0 ∨ d.t0 = 1 ∨ d.t1 = 0 ∨ d.t1 = 1) := by
    rintro d rfl
    exact ⟨le_refl _, zero_le_one, t1, t2, (lerp_zero _ _).symm, e0, Or.inl rfl⟩
  have i1 : b1 = true → ∀ d : Info K, d = ⟨p1, 1, t + c⟩ → 0 ≤ d.t0 ∧ d.t0 ≤ 1 ∧ 0 ≤ d.t1 ∧ d.t1 ≤ 1 ∧ d.p = lerp p0 p1 d.t0 ∧
      d.p = lerp p2 p3 d.t1 ∧ (d.t0 = 0 ∨ d.t0 = 1 ∨ d.t1 = 0 ∨ d.t1 = 1) := by
    rintro h d rfl
    exact ⟨zero_le_one, le_refl _, (k1 h).1.le, (k1 h).2.le, (lerp_one _ _).symm, e1, Or.inr (Or.inl rfl)⟩
  have i2 : b2 = true → ∀ d : Info K, d = ⟨p2, -t / c, 0⟩ → 0 ≤ d.t0 ∧ d.t0 ≤ 1 ∧ 0 ≤ d.t1 ∧ d.t1 ≤ 1 ∧ d.p = lerp p0 p1 d.t0 ∧
      d.p = lerp p2 p3 d.t1 ∧ (d.t0 = 0 ∨ d.t0 = 1 ∨ d.t1 = 0 ∨ d.t1 = 1) := by
    rintro h d rfl
    exact ⟨(k2 h).1.le, (k2 h).2.le, le_refl _, zero_le_one, e2, (lerp_zero _ _).symm, Or.inr (Or.inr (Or.inl rfl))⟩
  have i3 : b3 = true → ∀ d : Info K, d = ⟨p3, (1 - t) / c, 1⟩ → 0 ≤ d.t0 ∧ d.t0 ≤ 1 ∧ 0 ≤ d.t1 ∧ d.t1 ≤ 1 ∧ d.p = lerp p0 p1 d.t0 ∧
      d.p = lerp p2 p3 d.t1 ∧ (d.t0 = 0 ∨ d.t0 = 1 ∨ d.t1 = 0 ∨ d.t1 = 1) := by
    rintro h d rfl
    exact ⟨(k3 h).1.le, (k3 h).2.le, zero_le_one, le_refl _, e3, (lerp_one _ _).symm, Or.inr (Or.inr (Or.inr rfl))⟩
  clear hb0 hb1 hb2 hb3
  cases b0 <;> cases b1 <;> cases b2 <;> cases b3
  all_goals first
    | exact absurd rfl (n12 rfl)
    | exact absurd rfl (n13 rfl)
    | exact absurd rfl (n23' rfl)
    | (simp only [if_true, if_false, Bool.false_eq_true, pushInfo, List.length_nil, List.length_cons, List.nil_append,
        List.cons_append, Nat.zero_add, Nat.reduceLT, Nat.reduceAdd]
       refine ⟨_, rfl, fun d hd => ?_⟩
       first
         | (simp only [List.not_mem_nil] at hd)
         | (simp only [List.mem_cons, List.not_mem_nil, or_false] at hd
            rcases hd with hd | hd <;> first
             | exact i0 d hd | exact i1 rfl d hd | exact i2 rfl d hd | exact i3 rfl d hd)
         | (simp only [List.mem_cons, List.not_mem_nil, or_false] at hd
            first | exact i0 d hd | exact i1 rfl d hd | exact i2 rfl d hd | exact i3 rfl d hd))

/-- Parallel segments that have at most end points in common: nothing is reported. -/
theorem lineIntersect_apart {p0 p1 p2 p3 : Vec2 K} (hp : Parallel p0 p1 p2 p3) (n01 : p0 ≠ p1) (n23 : p2 ≠ p3)
    (r0 : InDoubles p0) (r1 : InDoubles p1) (r2 : InDoubles p2) (r3 : InDoubles p3)
    (hm : ∀ a b, 0 ≤ a → a ≤ 1 → 0 ≤ b → b ≤ 1 → lerp p0 p1 a = lerp p2 p3 b → (a = 0 ∨ a = 1) ∧ (b = 0 ∨ b = 1)) :
    lineIntersect p0 p1 p2 p3 = some [] := by
  have hD : (p1.y - p0.y) * (p2.x - p3.x) - (p1.x - p0.x) * (p2.y - p3.y) = 0 := by
    unfold Parallel at hp; linear_combination hp
  unfold lineIntersect
  simp only [Vec2.sub, Exact.sub_eq, Exact.mul_eq, exact_zero, eq_eq_decide]
  rw [hD, if_pos (by simp)]
  split
  · next hdist =>
    obtain ⟨t, t1, t2, e0⟩ := dist2PointLine_exact n23 (by simpa using hdist)
    -- all four points lie on one line
    obtain ⟨c, cx, cy⟩ : ∃ c, p1.x - p0.x = c * (p3.x - p2.x) ∧ p1.y - p0.y = c * (p3.y - p2.y) := by
      unfold Parallel at hp
      by_cases h23 : p2.y = p3.y
      · have d23 : p3.x - p2.x ≠ 0 := sub_ne_zero.2 (fun h => n23 (Vec2.ext h.symm h23))
        refine ⟨(p1.x - p0.x) / (p3.x - p2.x), by field_simp, ?_⟩
        have e : p3.y - p2.y = 0 := sub_eq_zero.2 h23.symm
        rw [e, mul_zero] at hp ⊢
        exact (mul_eq_zero.1 hp.symm).resolve_right d23
      · have d23 : p3.y - p2.y ≠ 0 := sub_ne_zero.2 (Ne.symm h23)
        refine ⟨(p1.y - p0.y) / (p3.y - p2.y), ?_, by field_simp⟩
        field_simp
        linear_combination hp
    have c0 : c ≠ 0 := by
      intro h
      rw [h, zero_mul] at cx cy
      exact n01 (Vec2.ext (sub_eq_zero.1 cx).symm (sub_eq_zero.1 cy).symm)
    have e1 : p1 = lerp p2 p3 (t + c) := by
      have x0 := congrArg Vec2.x e0
      have y0 := congrArg Vec2.y e0
      simp only [lerp] at x0 y0
      refine Vec2.ext ?_ ?_ <;> simp only [lerp]
      · linear_combination cx + x0
      · linear_combination cy + y0
    have e2 : p2 = lerp p0 p1 (-t / c) := by
      have x0 := congrArg Vec2.x e0
      have y0 := congrArg Vec2.y e0
      simp only [lerp] at x0 y0
      refine Vec2.ext ?_ ?_ <;> simp only [lerp]
      · rw [cx]; field_simp; linear_combination -x0
      · rw [cy]; field_simp; linear_combination -y0
    have e3 : p3 = lerp p0 p1 ((1 - t) / c) := by
      have x0 := congrArg Vec2.x e0
      have y0 := congrArg Vec2.y e0
      simp only [lerp] at x0 y0
      refine Vec2.ext ?_ ?_ <;> simp only [lerp]
      · rw [cx]; field_simp; linear_combination -x0
      · rw [cy]; field_simp; linear_combination -y0
    have bne : ∀ a b : Vec2 K, a.bne b = true ↔ a ≠ b := by
      intro a b; unfold Vec2.bne; rw [Bool.not_eq_true', ← Bool.not_eq_true, Vec2.beq_iff]
    have k0 : (p0.bne p2 && p0.bne p3 && pointBetween p0 p2 p3) = false := by
      rw [Bool.eq_false_iff]
      intro h
      rw [Bool.and_eq_true, Bool.and_eq_true, bne, bne, pointBetween_exact r2 r3 t n23 e0] at h
      obtain ⟨⟨h1, h2⟩, h3, h4⟩ := h
      rcases (hm 0 t (le_refl _) zero_le_one h3 h4 (by rw [lerp_zero]; exact e0)).2 with h | h
      · rw [h, lerp_zero] at e0; exact h1 e0
      · rw [h, lerp_one] at e0; exact h2 e0
    have k1 : (p1.bne p2 && p1.bne p3 && pointBetween p1 p2 p3) = false := by
      rw [Bool.eq_false_iff]
      intro h
      rw [Bool.and_eq_true, Bool.and_eq_true, bne, bne, pointBetween_exact r2 r3 _ n23 e1] at h
      obtain ⟨⟨h1, h2⟩, h3, h4⟩ := h
      rcases (hm 1 _ zero_le_one (le_refl _) h3 h4 (by rw [lerp_one]; exact e1)).2 with h | h
      · rw [h, lerp_zero] at e1; exact h1 e1
      · rw [h, lerp_one] at e1; exact h2 e1
    have k2 : (p2.bne p0 && p2.bne p1 && pointBetween p2 p0 p1) = false := by
      rw [Bool.eq_false_iff]
      intro h
      rw [Bool.and_eq_true, Bool.and_eq_true, bne, bne, pointBetween_exact r0 r1 _ n01 e2] at h
      obtain ⟨⟨h1, h2⟩, h3, h4⟩ := h
      rcases (hm _ 0 h3 h4 (le_refl _) zero_le_one (by rw [lerp_zero]; exact e2.symm)).1 with h | h
      · rw [h, lerp_zero] at e2; exact h1 e2
      · rw [h, lerp_one] at e2; exact h2 e2
    have k3 : (p3.bne p0 && p3.bne p1 && pointBetween p3 p0 p1) = false := by
      rw [Bool.eq_false_iff]
      intro h
      rw [Bool.and_eq_true, Bool.and_eq_true, bne, bne, pointBetween_exact r0 r1 _ n01 e3] at h
      obtain ⟨⟨h1, h2⟩, h3, h4⟩ := h
      rcases (hm _ 1 h3 h4 zero_le_one (le_refl _) (by rw [lerp_one]; exact e3.symm)).1 with h | h
      · rw [h, lerp_zero] at e3; exact h1 e3
      · rw [h, lerp_one] at e3; exact h2 e3
    rw [k0, k1, k2, k3]
    rfl
  · rfl

end River
