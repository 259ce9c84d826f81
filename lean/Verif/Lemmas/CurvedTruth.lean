import Verif.Lemmas.CurvedQuiet
import Verif.Lemmas.CurvedCollect
import Verif.Props.BezierBox

/-! # When the library's intersections of a straight and a curved side are right -/

namespace River
variable {K : Type}

attribute [local instance 10000] FTrans.toFNum

section
variable [Field K] [LinearOrder K] [IsStrictOrderedRing K] [FTrans K] [LawfulOrd K] [Exact K]

/-- If what the solver delivers are exactly the roots, the intersections of a line and a curve are right. -/
theorem truth_roots {p q p0 c1 c2 r : Vec2 K} (hst : p.y ≠ q.y) (hp : InDoubles p) (hq : InDoubles q)
    (hroot : ∀ A B C, generalFrom p q = (A, B, C) → ∀ t, t ∈ resolvCubic (A *. (Cubic.polT3 ⟨p0, c1, c2, r⟩).x +. B *. (Cubic.polT3 ⟨p0, c1, c2, r⟩).y)
      (A *. (Cubic.polT2 ⟨p0, c1, c2, r⟩).x +. B *. (Cubic.polT2 ⟨p0, c1, c2, r⟩).y)
      (A *. (Cubic.polT1 ⟨p0, c1, c2, r⟩).x +. B *. (Cubic.polT1 ⟨p0, c1, c2, r⟩).y) (A *. p0.x +. B *. p0.y +. C) ↔
      A * (Cubic.eval ⟨p0, c1, c2, r⟩ t).x + B * (Cubic.eval ⟨p0, c1, c2, r⟩ t).y + C = 0) :
    Truthful (p, Seg.line q) (p0, Seg.cubic c1 c2 r) := by
  show ∀ l, lineCubicIntersect p q ⟨p0, c1, c2, r⟩ = some l → Truth (p, Seg.line q) (p0, Seg.cubic c1 c2 r) l
  intro l hl
  obtain ⟨A, B, C, k, hg, hk, hline⟩ := generalFrom_steep hst
  have hro := hroot A B C hg
  unfold lineCubicIntersect at hl
  rw [hg] at hl
  dsimp only at hl
  generalize hts : resolvCubic (K := K) _ _ _ _ = ts at hl hro
  have hlen : ts.length ≤ 3 := by rw [← hts]; exact resolvCubic_length _ _ _ _
  have hf := lcFold p q ⟨p0, c1, c2, r⟩ ts [] (by simpa using hlen)
  unfold lcStep at hf
  rw [hl, Option.some.injEq, List.nil_append] at hf
  have hd : q.y - p.y ≠ 0 := sub_ne_zero.2 hst.symm
  have hpq : p ≠ q := fun e => hst (congrArg Vec2.y e)
  have hpar : ∀ z : Vec2 K, paramOn z p (q.sub p) = (z.y - p.y) / (q.y - p.y) := by
    intro z
    unfold paramOn Vec2.sub
    simp only [eq_eq_decide, decide_eq_true_eq, exact_zero, Exact.sub_eq, Exact.div_eq, if_neg hd]
  constructor
  · intro i hi _
    rw [hf] at hi
    simp only [List.mem_map, List.mem_filter, Bool.and_eq_true] at hi
    obtain ⟨t, ⟨ht, ⟨h1, h2⟩, h3⟩, rfl⟩ := hi
    simp only [le_eq_decide, decide_eq_true_eq, exact_zero, exact_one] at h1 h2
    have hr0 := (hro t).1 ht
    rw [hline] at hr0
    have hcross := (mul_eq_zero.1 hr0).resolve_left hk
    rw [pointAt_exact] at h3 ⊢
    obtain ⟨z, hz⟩ : ∃ z, z = Cubic.eval ⟨p0, c1, c2, r⟩ t := ⟨_, rfl⟩
    rw [← hz] at hcross h3 ⊢
    have hzl : z = lerp p q ((z.y - p.y) / (q.y - p.y)) := by
      ext
      · simp only [lerp]; field_simp; linear_combination hcross
      · simp only [lerp]; field_simp; ring
    obtain ⟨u0, u1⟩ := (pointBetween_exact hp hq _ hpq hzl).1 h3
    rw [hpar]
    exact ⟨⟨u0, u1, h1, h2, by show lerp p q _ = Cubic.eval ⟨p0, c1, c2, r⟩ t; rw [← hzl, hz]⟩, hzl⟩
  · rintro a b ⟨a0, a1, b0, b1, e⟩ _
    have e' : lerp p q a = Cubic.eval ⟨p0, c1, c2, r⟩ b := e
    have hb : b ∈ ts := by
      rw [hro b, hline, ← e']
      simp only [lerp]
      ring
    refine ⟨⟨Cubic.pointAt ⟨p0, c1, c2, r⟩ b, paramOn (Cubic.pointAt ⟨p0, c1, c2, r⟩ b) p (q.sub p), b⟩, ?_, ?_, rfl⟩
    · rw [hf]
      refine List.mem_map.2 ⟨b, List.mem_filter.2 ⟨hb, ?_⟩, rfl⟩
      simp only [Bool.and_eq_true, le_eq_decide, decide_eq_true_eq, exact_zero, exact_one]
      refine ⟨⟨b0, b1⟩, ?_⟩
      rw [pointAt_exact, ← e']
      exact (pointBetween_exact hp hq a hpq rfl).2 ⟨a0, a1⟩
    · dsimp only
      rw [hpar, pointAt_exact, ← e']
      simp only [lerp]
      field_simp
      ring

end

/-! ## exact reals -/

theorem resolvQuad_complete {a b c t : ℝ} (ha : Clear a) (hb : a = 0 → 1 / 100000000 ≤ |b|) (hk : Clear (b * b - 4 * a * c))
    (h : a * t ^ 2 + b * t + c = 0) : t ∈ resolvQuad a b c := by
  unfold resolvQuad
  by_cases hz : isZero a = true
  · rw [if_pos hz]
    rw [isZero_exact] at hz
    have a0 : a = 0 := ha.resolve_right (not_le.2 hz)
    have hb' := hb a0
    have nb : ¬ isZero b = true := by rw [isZero_exact]; exact not_lt.2 hb'
    have b0 : b ≠ 0 := by rintro rfl; norm_num at hb'
    rw [if_neg nb, List.mem_singleton, Exact.div_eq, Exact.neg_eq]
    field_simp
    rw [a0] at h
    linarith
  · rw [if_neg hz]
    have a0 : a ≠ 0 := by
      rintro rfl
      apply hz; rw [isZero_exact]; norm_num
    simp only [Exact.mul_eq, Exact.sub_eq, Exact.lit_eq, Exact.neg_eq, Exact.div_eq, Exact.add_eq, lt_eq_decide, decide_eq_true_eq]
    push_cast
    have sq : (2 * a * t + b) * (2 * a * t + b) = b * b - 4 * a * c := by linear_combination 4 * a * h
    by_cases hkz : isZero (b * b - 4 * a * c) = true
    · rw [if_pos hkz, List.mem_singleton]
      rw [isZero_exact] at hkz
      have k0 : b * b - 4 * a * c = 0 := hk.resolve_right (not_le.2 hkz)
      rw [k0] at sq
      have := mul_self_eq_zero.1 sq
      field_simp; linarith
    · rw [if_neg hkz]
      have k0 : b * b - 4 * a * c ≠ 0 := by
        intro e
        apply hkz; rw [isZero_exact, e]; norm_num
      have hp : 0 < b * b - 4 * a * c := lt_of_le_of_ne (by rw [← sq]; exact mul_self_nonneg _) k0.symm
      rw [if_pos hp]
      have hs : Real.sqrt (b * b - 4 * a * c) * Real.sqrt (b * b - 4 * a * c) = b * b - 4 * a * c := Real.mul_self_sqrt hp.le
      have e : (FTrans.sqrt (b * b - 4 * a * c) : ℝ) = Real.sqrt (b * b - 4 * a * c) := rfl
      rw [e]
      generalize Real.sqrt (b * b - 4 * a * c) = w at hs
      have hw : (2 * a * t + b - w) * (2 * a * t + b + w) = 0 := by linear_combination sq - hs
      simp only [List.mem_cons, List.not_mem_nil, or_false]
      rcases mul_eq_zero.1 hw with e | e
      · left; field_simp; linarith
      · right; field_simp; linarith

/-- A line and a parabola, in exact arithmetic, provided the coefficients of the quadratic equation for their intersection and its
discriminant are not close to zero unless they are zero. -/
theorem truthful_parabola {p q p0 c1 c2 r : Vec2 ℝ} (hst : p.y ≠ q.y) (hev : Even (p0, Seg.cubic c1 c2 r))
    (hp : InDoubles p) (hq : InDoubles q) (hpar : r.x - p0.x = 3 * (c2.x - c1.x))
    (hA : ∀ A B C, generalFrom p q = (A, B, C) → Clear (3 * A * (p0.x - 2 * c1.x + c2.x)) ∧
      (3 * A * (p0.x - 2 * c1.x + c2.x) = 0 → 1 / 100000000 ≤ |3 * A * (c1.x - p0.x) + B * (r.y - p0.y)|) ∧
      Clear ((3 * A * (c1.x - p0.x) + B * (r.y - p0.y)) * (3 * A * (c1.x - p0.x) + B * (r.y - p0.y)) -
        4 * (3 * A * (p0.x - 2 * c1.x + c2.x)) * (A * p0.x + B * p0.y + C))) :
    Truthful (p, Seg.line q) (p0, Seg.cubic c1 c2 r) := by
  refine truth_roots hst hp hq (fun A B C hg t => ?_)
  obtain ⟨k1, kb, k2⟩ := hA A B C hg
  obtain ⟨e1, e2⟩ := hev
  simp only at e1 e2
  have x3 : A *. (Cubic.polT3 ⟨p0, c1, c2, r⟩).x +. B *. (Cubic.polT3 ⟨p0, c1, c2, r⟩).y = 0 := by
    unfold Cubic.polT3 Vec2.sub Vec2.add Vec2.smul
    simp only [Exact.mul_eq, Exact.sub_eq, Exact.lit_eq, Exact.add_eq, e1, e2]
    push_cast
    linear_combination A * hpar
  have x2 : A *. (Cubic.polT2 ⟨p0, c1, c2, r⟩).x +. B *. (Cubic.polT2 ⟨p0, c1, c2, r⟩).y = 3 * A * (p0.x - 2 * c1.x + c2.x) := by
    unfold Cubic.polT2 Vec2.sub Vec2.add Vec2.smul
    simp only [Exact.mul_eq, Exact.sub_eq, Exact.lit_eq, Exact.add_eq, e1, e2]
    push_cast
    ring
  have x1 : A *. (Cubic.polT1 ⟨p0, c1, c2, r⟩).x +. B *. (Cubic.polT1 ⟨p0, c1, c2, r⟩).y = 3 * A * (c1.x - p0.x) + B * (r.y - p0.y) := by
    unfold Cubic.polT1 Vec2.sub Vec2.smul
    simp only [Exact.mul_eq, Exact.sub_eq, Exact.lit_eq, Exact.add_eq, e1]
    push_cast
    ring
  have x0 : A *. p0.x +. B *. p0.y +. C = A * p0.x + B * p0.y + C := by simp only [Exact.mul_eq, Exact.add_eq]
  rw [x3, x2, x1, x0]
  have hz : isZero (0 : ℝ) = true := by rw [isZero_exact]; norm_num
  unfold resolvCubic
  rw [if_pos hz]
  have key : A * (Cubic.eval ⟨p0, c1, c2, r⟩ t).x + B * (Cubic.eval ⟨p0, c1, c2, r⟩ t).y + C =
      3 * A * (p0.x - 2 * c1.x + c2.x) * t ^ 2 + (3 * A * (c1.x - p0.x) + B * (r.y - p0.y)) * t + (A * p0.x + B * p0.y + C) := by
    simp only [Cubic.eval, bern, e1, e2]
    linear_combination A * t ^ 3 * hpar
  rw [key]
  exact ⟨resolvQuad_real k1 k2, resolvQuad_complete k1 kb k2⟩

/-- The bounding box of a curve contains it if the coefficients of its coordinates are not close to zero unless they are zero. -/
theorem boxed_exact {p c1 c2 q : Vec2 ℝ} (h : ∀ z ∈ sidePoints (p, Seg.cubic c1 c2 q), InDoubles z)
    (hx : Cubic.ExactCoord ⟨p, c1, c2, q⟩ Vec2.x) (hy : Cubic.ExactCoord ⟨p, c1, c2, q⟩ Vec2.y) (r : ℝ) (h0 : 0 ≤ r) (h1 : r ≤ 1) :
    ((Seg.cubic c1 c2 q).boundary p).Mem (sidePoint (p, Seg.cubic c1 c2 q) r) := by
  have := Cubic.getBoundary_contains_exact ⟨p, c1, c2, q⟩ (fun z hz => h z hz) hx hy r h0 h1
  rw [pointAt_exact] at this
  exact this

end River
