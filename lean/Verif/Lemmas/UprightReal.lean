import Verif.Lemmas.Upright
import Verif.Lemmas.CurvedQuiet
import Verif.Props.Solver

/-! # Sides that rise or fall all the way: which ones they are, in exact arithmetic -/

namespace River.Upright
variable {K : Type}

attribute [local instance 10000] FTrans.toFNum

section
variable [Field K] [LinearOrder K] [IsStrictOrderedRing K] [FTrans K] [LawfulOrd K] [Exact K]

omit [LawfulOrd K] [Exact K] in
/-- A straight side that is not horizontal. -/
theorem fine_line {p q : Vec2 K} (h : p.y ≠ q.y) : Fine (p, Seg.line q) := by
  have e : ∀ r, (sidePoint (p, Seg.line q) r).y = p.y + r * (q.y - p.y) := fun r => rfl
  refine ⟨?_, ?_, trivial⟩
  · rcases lt_or_gt_of_ne h with hl | hl
    · left
      intro a b _ hab _
      rw [e, e]
      nlinarith [mul_pos (sub_pos.2 hab) (sub_pos.2 hl)]
    · right
      intro a b _ hab _
      rw [e, e]
      nlinarith [mul_pos (sub_pos.2 hab) (sub_pos.2 hl)]
  · intro y h1 h2
    obtain ⟨u0, u1⟩ := param_unit h h1 h2
    refine ⟨_, u0, u1, ?_⟩
    rw [e]
    have := sub_ne_zero.2 h.symm
    field_simp
    ring

/-- The sides of `Spec/Curved.lean`: four points at equally spaced heights. -/
theorem fine_even {s : Vec2 K × Seg K} (h : River.Fine s) : Fine s := by
  have e := sidePoint_y h.even
  refine ⟨?_, ?_, ?_⟩
  · rcases lt_or_gt_of_ne h.steep with hl | hl
    · left
      intro a b _ hab _
      rw [e, e]
      nlinarith [mul_pos (sub_pos.2 hab) (sub_pos.2 hl)]
    · right
      intro a b _ hab _
      rw [e, e]
      nlinarith [mul_pos (sub_pos.2 hab) (sub_pos.2 hl)]
  · intro y h1 h2
    obtain ⟨u0, u1⟩ := param_unit h.steep h1 h2
    refine ⟨_, u0, u1, ?_⟩
    rw [e]
    have := sub_ne_zero.2 h.steep.symm
    field_simp
    ring
  · obtain ⟨p, g⟩ := s
    cases g with
    | line q => exact trivial
    | cubic c1 c2 q =>
      refine ⟨even_pieces h.even, fun r r0 r1 => ?_⟩
      obtain ⟨k1, k2⟩ := height_range h.even r0 r1
      rw [River.currX_fine h k1 k2, abscissa_at h.even h.steep]

/-! ## sides far from each other -/

omit [LawfulOrd K] [Exact K] [FTrans K] in
theorem beside_of_left {s t : Vec2 K × Seg K} (h : ∀ p ∈ sidePoints s, ∀ q ∈ sidePoints t, p.x < q.x) : Beside s t := by
  intro u v u0 u1 v0 v1 _
  obtain ⟨a, ha, ha'⟩ := exists_top Vec2.x _ (sidePoints_ne s)
  obtain ⟨b, hb, hb'⟩ := exists_low Vec2.x _ (sidePoints_ne t)
  have l1 := (sidePoint_range u0 u1).2 a.x ha'
  have l2 := (sidePoint_range v0 v1).1 b.x hb'
  have l3 := h a ha b hb
  have hlt : (sidePoint s u).x < (sidePoint t v).x := lt_of_le_of_lt l1 (lt_of_lt_of_le l3 l2)
  exact ⟨hlt.le, fun e => absurd e hlt.ne⟩

omit [FTrans K] [LawfulOrd K] [Exact K] in
/-- Sides that are far from each other do not cross. -/
theorem far_clear {s t : Vec2 K × Seg K} (h : Far s t) : Clear2 s t := by
  intro h1 h2
  rcases h with h | h | h | h
  · exact Or.inl (beside_of_left h)
  · exact Or.inr (beside_of_left (fun p hp q hq => h q hq p hp))
  · exfalso
    have e : highest s < lowest t := by
      unfold highest lowest
      rw [max_lt_iff, lt_min_iff, lt_min_iff]
      exact ⟨⟨h _ (end_mem s).1 _ (end_mem t).1, h _ (end_mem s).1 _ (end_mem t).2⟩, h _ (end_mem s).2 _ (end_mem t).1, h _ (end_mem s).2 _ (end_mem t).2⟩
    exact absurd h2 (not_lt.2 e.le)
  · exfalso
    have e : highest t < lowest s := by
      unfold highest lowest
      rw [max_lt_iff, lt_min_iff, lt_min_iff]
      exact ⟨⟨h _ (end_mem s).1 _ (end_mem t).1, h _ (end_mem s).2 _ (end_mem t).1⟩, h _ (end_mem s).1 _ (end_mem t).2, h _ (end_mem s).2 _ (end_mem t).2⟩
    exact absurd h1 (not_lt.2 e.le)

/-- If every value the solver delivers is a root, a line and a curve that do not cross are not reported. -/
theorem noReport_roots {p q p0 c1 c2 r : Vec2 K} (fs : Fine (p, Seg.line q)) (ft : Fine (p0, Seg.cubic c1 c2 r))
    (hp : InDoubles p) (hq : InDoubles q) (hcl : Clear2 (p, Seg.line q) (p0, Seg.cubic c1 c2 r))
    (hroot : ∀ A B C, generalFrom p q = (A, B, C) → ∀ t ∈ resolvCubic (A *. (Cubic.polT3 ⟨p0, c1, c2, r⟩).x +. B *. (Cubic.polT3 ⟨p0, c1, c2, r⟩).y)
      (A *. (Cubic.polT2 ⟨p0, c1, c2, r⟩).x +. B *. (Cubic.polT2 ⟨p0, c1, c2, r⟩).y)
      (A *. (Cubic.polT1 ⟨p0, c1, c2, r⟩).x +. B *. (Cubic.polT1 ⟨p0, c1, c2, r⟩).y) (A *. p0.x +. B *. p0.y +. C),
      A * (Cubic.eval ⟨p0, c1, c2, r⟩ t).x + B * (Cubic.eval ⟨p0, c1, c2, r⟩ t).y + C = 0) :
    ∀ l, lineCubicIntersect p q ⟨p0, c1, c2, r⟩ = some l → ∀ i ∈ l, NearEnd i.t0 ∧ NearEnd i.t1 := by
  intro l hl i hi
  obtain ⟨A, B, C, k, hg, hk, hline⟩ := generalFrom_steep (show p.y ≠ q.y from fs.steep)
  have hro := hroot A B C hg
  unfold lineCubicIntersect at hl
  rw [hg] at hl
  dsimp only at hl
  generalize hts : resolvCubic (K := K) _ _ _ _ = ts at hl hro
  have hlen : ts.length ≤ 3 := by rw [← hts]; exact resolvCubic_length _ _ _ _
  have hf := lcFold p q ⟨p0, c1, c2, r⟩ ts [] (by simpa using hlen)
  unfold lcStep at hf
  rw [hl, Option.some.injEq] at hf
  subst hf
  simp only [List.nil_append, List.mem_map, List.mem_filter, Bool.and_eq_true] at hi
  obtain ⟨t, ⟨ht, ⟨h1, h2⟩, h3⟩, rfl⟩ := hi
  simp only [le_eq_decide, decide_eq_true_eq, exact_zero, exact_one] at h1 h2
  have hr0 := hro t ht
  rw [hline] at hr0
  have hcross := (mul_eq_zero.1 hr0).resolve_left hk
  have hd : q.y - p.y ≠ 0 := sub_ne_zero.2 (Ne.symm fs.steep)
  rw [pointAt_exact] at h3 ⊢
  obtain ⟨z, hz⟩ : ∃ z, z = Cubic.eval ⟨p0, c1, c2, r⟩ t := ⟨_, rfl⟩
  rw [← hz] at hcross h3 ⊢
  have hzl : z = lerp p q ((z.y - p.y) / (q.y - p.y)) := by
    ext
    · simp only [lerp]; field_simp; linear_combination hcross
    · simp only [lerp]; field_simp; ring
  have hpq : p ≠ q := fun e => fs.steep (congrArg Vec2.y e)
  obtain ⟨u0, u1⟩ := (pointBetween_exact hp hq _ hpq hzl).1 h3
  have hm := meet_ends fs ft hcl u0 u1 h1 h2 (show lerp p q _ = Cubic.eval ⟨p0, c1, c2, r⟩ t by rw [← hzl, hz])
  have hpar : paramOn z p (q.sub p) = (z.y - p.y) / (q.y - p.y) := by
    unfold paramOn Vec2.sub
    simp only [eq_eq_decide, decide_eq_true_eq, exact_zero, Exact.sub_eq, Exact.div_eq, if_neg hd]
  have ends : ∀ t : K, t = 0 ∨ t = 1 → NearEnd t := by
    rintro t (rfl | rfl) <;> unfold NearEnd <;> norm_num
  exact ⟨by rw [hpar]; exact ends _ hm.1, ends _ hm.2⟩

end

/-! ## exact reals -/

/-- The coefficients of the height of a curve as a polynomial in the parameter. -/
def htA (p c1 c2 q : Vec2 ℝ) : ℝ := q.y - 3 * c2.y + 3 * c1.y - p.y
def htB (p c1 c2 : Vec2 ℝ) : ℝ := 3 * c2.y - 6 * c1.y + 3 * p.y
def htC (p c1 : Vec2 ℝ) : ℝ := 3 * c1.y - 3 * p.y

theorem height_pol (p c1 c2 q : Vec2 ℝ) (r : ℝ) :
    (sidePoint (p, Seg.cubic c1 c2 q) r).y = htA p c1 c2 q * r ^ 3 + htB p c1 c2 * r ^ 2 + htC p c1 * r + p.y := by
  simp only [sidePoint, Cubic.eval, bern, htA, htB, htC]; ring

theorem reaches_real (s : Vec2 ℝ × Seg ℝ) : Reaches s := by
  intro y l1 l2
  have hc : Continuous (fun r => (sidePoint s r).y) := by
    obtain ⟨p, g⟩ := s
    cases g with
    | line q => simp only [sidePoint, lerp]; fun_prop
    | cubic c1 c2 q => simp only [sidePoint, Cubic.eval, bern]; fun_prop
  have e := sidePoint_ends s
  have := intermediate_value_uIcc (a := (0 : ℝ)) (b := 1) (f := fun r => (sidePoint s r).y) hc.continuousOn
  have hm : y ∈ Set.uIcc ((fun r => (sidePoint s r).y) 0) ((fun r => (sidePoint s r).y) 1) := by
    simp only [e.1, e.2]
    exact ⟨l1, l2⟩
  obtain ⟨r, hr, er⟩ := this hm
  rw [Set.uIcc_of_le zero_le_one] at hr
  exact ⟨r, hr.1, hr.2, er⟩

theorem pol_real (p c1 c2 q : Vec2 ℝ) : (Cubic.polT3 ⟨p, c1, c2, q⟩).y = htA p c1 c2 q ∧ (Cubic.polT2 ⟨p, c1, c2, q⟩).y = htB p c1 c2 ∧
    (Cubic.polT1 ⟨p, c1, c2, q⟩).y = htC p c1 ∧ (Cubic.derA ⟨p, c1, c2, q⟩).y = 3 * htA p c1 c2 q ∧ (Cubic.derB ⟨p, c1, c2, q⟩).y = 2 * htB p c1 c2 ∧
    (Cubic.derC ⟨p, c1, c2, q⟩).y = htC p c1 := by
  have l3 : (FNum.lit 3 : ℝ) = 3 := by rw [Exact.lit_eq]; norm_num
  have l6 : (FNum.lit 6 : ℝ) = 6 := by rw [Exact.lit_eq]; norm_num
  have l9 : (FNum.lit 9 : ℝ) = 9 := by rw [Exact.lit_eq]; norm_num
  have l12 : (FNum.lit 12 : ℝ) = 12 := by rw [Exact.lit_eq]; norm_num
  unfold Cubic.polT3 Cubic.polT2 Cubic.polT1 Cubic.derA Cubic.derB Cubic.derC htA htB htC
  simp only [Vec2.add, Vec2.sub, Vec2.smul, Exact.add_eq, Exact.sub_eq, Exact.mul_eq, l3, l6, l9, l12]
  refine ⟨?_, ?_, ?_, ?_, ?_, ?_⟩ <;> ring

/-- If the solver finds the parameter, and no other one between 0 and 1, the abscissa is right. -/
theorem currX_real {p c1 c2 q : Vec2 ℝ} {r : ℝ}
    (h : (resolvCubic (htA p c1 c2 q) (htB p c1 c2) (htC p c1) (p.y - (sidePoint (p, Seg.cubic c1 c2 q) r).y)).filter (fun t => decide (0 ≤ t ∧ t ≤ 1)) = [r]) :
    Seg.currX (.cubic c1 c2 q) p (sidePoint (p, Seg.cubic c1 c2 q) r).y = (sidePoint (p, Seg.cubic c1 c2 q) r).x := by
  obtain ⟨e3, e2, e1, _⟩ := pol_real p c1 c2 q
  have hr : Cubic.pointAtY ⟨p, c1, c2, q⟩ (sidePoint (p, Seg.cubic c1 c2 q) r).y = [r] := by
    unfold Cubic.pointAtY
    rw [e3, e2, e1]
    simp only [Exact.neg_eq, Exact.add_eq, ← sub_eq_add_neg]
    rw [← h]
    refine List.filter_congr (fun t _ => ?_)
    simp only [le_eq_decide, exact_zero, exact_one, Bool.decide_and]
  simp only [Seg.currX, Seg.getCubic, hr, pointAt_exact]
  rfl

theorem whole_of {c : Cubic ℝ} (h : Cubic.splitY c = []) : Cubic.readPieces c = [c] := by
  unfold Cubic.readPieces
  rw [h]
  rfl

end River.Upright
