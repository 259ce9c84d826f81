import Verif.Props.UprightReal
import Verif.Props.UprightEven
import Verif.Props.CurvedDemo

/-! # C74: a concrete case with curves whose heights are cubic and quadratic polynomials -/

namespace River.Upright
attribute [local instance 10000] FTrans.toFNum

/-! ## two contours -/

/-- The height along `s1` is `r³ + 3r`, along `t1` it is `r² + 2r`. -/
noncomputable def s1 : Vec2 ℝ × Seg ℝ := (⟨0, 0⟩, .cubic ⟨1, 1⟩ ⟨1, 2⟩ ⟨0, 4⟩)
noncomputable def s2 : Vec2 ℝ × Seg ℝ := (⟨0, 4⟩, .line ⟨0, 0⟩)
noncomputable def t1 : Vec2 ℝ × Seg ℝ := (⟨10, 0⟩, .cubic ⟨11, 2 / 3⟩ ⟨11, 5 / 3⟩ ⟨10, 3⟩)
noncomputable def t2 : Vec2 ℝ × Seg ℝ := (⟨10, 3⟩, .line ⟨10, 0⟩)

noncomputable def dee1 : Loop ℝ := ⟨⟨0, 0⟩, [s1.2, s2.2]⟩
noncomputable def dee2 : Loop ℝ := ⟨⟨10, 0⟩, [t1.2, t2.2]⟩

theorem s1_point (r : ℝ) : sidePoint s1 r = ⟨3 * r * (1 - r), r ^ 3 + 3 * r⟩ := by
  simp only [s1, sidePoint, Cubic.eval, bern, Vec2.mk.injEq]; constructor <;> ring
theorem t1_point (r : ℝ) : sidePoint t1 r = ⟨10 + 3 * r * (1 - r), r ^ 2 + 2 * r⟩ := by
  simp only [t1, sidePoint, Cubic.eval, bern, Vec2.mk.injEq]; constructor <;> ring
theorem s2_point (r : ℝ) : sidePoint s2 r = ⟨0, 4 - 4 * r⟩ := by
  simp only [s2, sidePoint, lerp, Vec2.mk.injEq]; constructor <;> ring
theorem t2_point (r : ℝ) : sidePoint t2 r = ⟨10, 3 - 3 * r⟩ := by
  simp only [t2, sidePoint, lerp, Vec2.mk.injEq]; constructor <;> ring

theorem demo_sides : ([dee1] ++ [dee2]).flatMap Loop.sides = [s1, s2, t1, t2] := rfl

/-- The first curve is not one of `Spec/Curved.lean`, nor is the second. -/
theorem demo_uneven : ¬ Even s1 ∧ ¬ Even t1 := by
  constructor
  · intro h
    have := h.1
    simp only [s1] at this; norm_num at this
  · intro h
    have := h.1
    simp only [t1] at this; norm_num at this

theorem fine_s1 : Fine s1 := by
  refine fine_cubic ?_ ?_
  · unfold htA; norm_num
  · unfold depP htA htB htC; norm_num

theorem fine_t1 : Fine t1 := by
  refine fine_quadratic ?_ ?_ (Or.inl ?_)
  · unfold htA; norm_num
  · unfold htB; norm_num
  · norm_num

theorem fine_s2 : Fine s2 := fine_line (by norm_num)
theorem fine_t2 : Fine t2 := fine_line (by norm_num)

theorem demo_fine : ∀ s ∈ [s1, s2, t1, t2], Fine s := by
  simp only [List.mem_cons, List.not_mem_nil, or_false]
  rintro s (rfl | rfl | rfl | rfl)
  exacts [fine_s1, fine_s2, fine_t1, fine_t2]

theorem demo_points : ∀ s ∈ [s1, s2, t1, t2], ∀ p ∈ sidePoints s, -30 ≤ p.x ∧ p.x ≤ 30 ∧ -9 ≤ p.y ∧ p.y ≤ 12 := by
  simp only [List.mem_cons, List.not_mem_nil, or_false]
  rintro s (rfl | rfl | rfl | rfl) p hp <;> simp only [s1, s2, t1, t2, sidePoints, List.mem_cons, List.not_mem_nil, or_false] at hp
  · rcases hp with rfl | rfl | rfl | rfl <;> norm_num
  · rcases hp with rfl | rfl <;> norm_num
  · rcases hp with rfl | rfl | rfl | rfl <;> norm_num
  · rcases hp with rfl | rfl <;> norm_num

theorem demo_range : ∀ s ∈ [s1, s2, t1, t2], ∀ p ∈ sidePoints s, -(dblMax : ℝ) ≤ p.x ∧ p.x ≤ dblMax ∧ -(dblMax : ℝ) < p.y ∧ p.y ≤ dblMax := by
  intro s hs p hp
  obtain ⟨h1, h2, h3, h4⟩ := demo_points s hs p hp
  have := CurvedDemo.demo_max
  exact ⟨by linarith, by linarith, by linarith, by linarith⟩

theorem demo_far : ∀ s ∈ [s1, s2], ∀ t ∈ [t1, t2], Far s t := by
  intro s hs t ht
  left
  have h1 : ∀ p ∈ sidePoints s, p.x ≤ 1 := by
    simp only [List.mem_cons, List.not_mem_nil, or_false] at hs
    intro p hp
    rcases hs with rfl | rfl <;> simp only [s1, s2, sidePoints, List.mem_cons, List.not_mem_nil, or_false] at hp
    · rcases hp with rfl | rfl | rfl | rfl <;> norm_num
    · rcases hp with rfl | rfl <;> norm_num
  have h2 : ∀ p ∈ sidePoints t, 10 ≤ p.x := by
    simp only [List.mem_cons, List.not_mem_nil, or_false] at ht
    intro p hp
    rcases ht with rfl | rfl <;> simp only [t1, t2, sidePoints, List.mem_cons, List.not_mem_nil, or_false] at hp
    · rcases hp with rfl | rfl | rfl | rfl <;> norm_num
    · rcases hp with rfl | rfl <;> norm_num
  intro p hp q hq
  linarith [h1 p hp, h2 q hq]

theorem demo_ends : (lowest s1 = 0 ∧ highest s1 = 4) ∧ (lowest s2 = 0 ∧ highest s2 = 4) ∧ (lowest t1 = 0 ∧ highest t1 = 3) ∧ (lowest t2 = 0 ∧ highest t2 = 3) := by
  simp only [lowest, highest, s1, s2, t1, t2, Seg.target]
  norm_num

theorem demo_feet : foot s1 = ⟨0, 0⟩ ∧ foot s2 = ⟨0, 0⟩ ∧ foot t1 = ⟨10, 0⟩ ∧ foot t2 = ⟨10, 0⟩ := by
  simp only [foot, s1, s2, t1, t2, Seg.target]
  norm_num

theorem clear_s : Beside s2 s1 := by
  intro a b a0 a1 b0 b1 e
  obtain ⟨⟨e1, e2⟩, ⟨e3, e4⟩, _⟩ := demo_ends
  rw [s1_point, s2_point] at *
  simp only at e ⊢
  rw [e1, e2, e3, e4]
  have := mul_nonneg b0 (sub_nonneg.2 b1)
  refine ⟨by linarith, fun h => ?_⟩
  have : b * (1 - b) = 0 := by linarith
  rcases mul_eq_zero.1 this with rfl | h
  · left; norm_num at e ⊢; linarith
  · right
    have : b = 1 := by linarith
    subst this
    norm_num at e ⊢; linarith

theorem clear_t : Beside t2 t1 := by
  intro a b a0 a1 b0 b1 e
  obtain ⟨_, _, ⟨e1, e2⟩, e3, e4⟩ := demo_ends
  rw [t1_point, t2_point] at *
  simp only at e ⊢
  rw [e1, e2, e3, e4]
  have := mul_nonneg b0 (sub_nonneg.2 b1)
  refine ⟨by linarith, fun h => ?_⟩
  have : b * (1 - b) = 0 := by linarith
  rcases mul_eq_zero.1 this with rfl | h
  · left; norm_num at e ⊢; linarith
  · right
    have : b = 1 := by linarith
    subst this
    norm_num at e ⊢; linarith

theorem vertical_line {x y y' A B C : ℝ} (hy : y ≠ y') (h : generalFrom (⟨x, y⟩ : Vec2 ℝ) ⟨x, y'⟩ = (A, B, C)) : A = 1 ∧ B = 0 ∧ C = -x := by
  unfold generalFrom at h
  have hne : Vec2.beq (⟨x, y⟩ : Vec2 ℝ) ⟨x, y'⟩ = false := by
    rw [Bool.eq_false_iff]; intro hb
    exact hy (congrArg Vec2.y ((Vec2.beq_iff _ _).1 hb))
  rw [hne] at h
  simp only [Bool.false_eq_true, if_false, eq_eq_decide, decide_true, if_true, exact_one, exact_zero, Exact.neg_eq, Prod.mk.injEq] at h
  exact ⟨h.1.symm, h.2.1.symm, h.2.2.symm⟩

/-- A vertical line, and a curve whose control points have the abscissas `x`, `x + 1`, `x + 1`, `x`. -/
theorem quiet_dee {x y y' a b : ℝ} (hy : y ≠ y') (hf : Fine (⟨x, y⟩, Seg.cubic ⟨x + 1, a⟩ ⟨x + 1, b⟩ ⟨x, y'⟩))
    (hp : InDoubles (⟨x, y⟩ : Vec2 ℝ)) (hq : InDoubles (⟨x, y'⟩ : Vec2 ℝ)) (hb : Beside (⟨x, y'⟩, Seg.line ⟨x, y⟩) (⟨x, y⟩, Seg.cubic ⟨x + 1, a⟩ ⟨x + 1, b⟩ ⟨x, y'⟩)) :
    NoReport (⟨x, y⟩, Seg.cubic ⟨x + 1, a⟩ ⟨x + 1, b⟩ ⟨x, y'⟩) (⟨x, y'⟩, Seg.line ⟨x, y⟩) := by
  refine noReport_roots (fine_line hy.symm) hf hq hp (fun _ _ => Or.inl hb) (fun A B C hg t ht => ?_)
  obtain ⟨rfl, rfl, rfl⟩ := vertical_line hy.symm hg
  have l3 : (FNum.lit 3 : ℝ) = 3 := by rw [Exact.lit_eq]; norm_num
  have l6 : (FNum.lit 6 : ℝ) = 6 := by rw [Exact.lit_eq]; norm_num
  have hz : isZero (0 : ℝ) = true := by rw [isZero_exact]; norm_num
  simp only [Cubic.polT3, Cubic.polT2, Cubic.polT1, Vec2.add, Vec2.sub, Vec2.smul, Exact.add_eq, Exact.sub_eq, Exact.mul_eq, l3, l6, one_mul, zero_mul, add_zero] at ht
  rw [show x - (x + 1) * 3 + (x + 1) * 3 - x = 0 by ring, show (x + 1) * 3 - (x + 1) * 6 + x * 3 = -3 by ring, show (x + 1) * 3 - x * 3 = 3 by ring,
    show x + -x = 0 by ring] at ht
  unfold resolvCubic at ht
  rw [if_pos hz] at ht
  have := resolvQuad_real (Or.inr (by norm_num [abs_of_neg])) (Or.inr (by norm_num)) ht
  simp only [Cubic.eval, bern]
  linear_combination this

theorem demo_nonCrossing : NonCrossing ([dee1] ++ [dee2]) := by
  have hd : ∀ s ∈ [s1, s2, t1, t2], ∀ p ∈ sidePoints s, InDoubles p := by
    intro s hs p hp
    obtain ⟨h1, h2, h3, h4⟩ := demo_range s hs p hp
    exact ⟨h1, h2, h3.le, h4⟩
  refine ⟨?_, ?_, ?_, ?_, ?_, ?_, ?_, ?_⟩
  · simp only [List.mem_append, List.mem_cons, List.not_mem_nil, or_false]
    rintro l (rfl | rfl)
    · exact ⟨s2.2, rfl, rfl⟩
    · exact ⟨t2.2, rfl, rfl⟩
  · rw [demo_sides]; exact demo_range
  · rw [demo_sides]; exact fun s hs => (demo_fine s hs).runs
  · rw [demo_sides]; exact fun s hs => (demo_fine s hs).reach
  · rw [demo_sides]; exact fun s hs => (demo_fine s hs).traced
  · rw [demo_sides]
    refine List.Pairwise.cons ?_ (List.Pairwise.cons ?_ (List.Pairwise.cons ?_ (List.Pairwise.cons ?_ List.Pairwise.nil)))
    · intro t ht
      rcases List.mem_cons.1 ht with rfl | ht
      · exact fun _ _ => Or.inr clear_s
      · exact far_clear (demo_far s1 (by simp) t ht)
    · exact fun t ht => far_clear (demo_far s2 (by simp) t ht)
    · intro t ht
      rw [List.mem_singleton.1 ht]; exact fun _ _ => Or.inr clear_t
    · simp
  · rw [demo_sides]
    refine List.Pairwise.cons ?_ (List.Pairwise.cons ?_ (List.Pairwise.cons ?_ (List.Pairwise.cons ?_ List.Pairwise.nil)))
    · intro t ht
      rcases List.mem_cons.1 ht with rfl | ht
      · right
        have := quiet_dee (x := 0) (y := 0) (y' := 4) (a := 1) (b := 2) (by norm_num)
        rw [zero_add] at this
        exact this fine_s1 (hd s1 (by simp) _ (by simp [s1, sidePoints])) (hd s1 (by simp) _ (by simp [s1, sidePoints])) clear_s
      · exact Or.inl (demo_far s1 (by simp) t ht)
    · exact fun t ht => Or.inl (demo_far s2 (by simp) t ht)
    · intro t ht
      rw [List.mem_singleton.1 ht]
      right
      have := quiet_dee (x := 10) (y := 0) (y' := 3) (a := 2 / 3) (b := 5 / 3) (by norm_num)
      rw [show (10 : ℝ) + 1 = 11 by norm_num] at this
      exact this fine_t1 (hd t1 (by simp) _ (by simp [t1, sidePoints])) (hd t1 (by simp) _ (by simp [t1, sidePoints])) clear_t
    · simp
  · rw [demo_sides]
    obtain ⟨f1, f2, f3, f4⟩ := demo_feet
    simp only [List.mem_cons, List.not_mem_nil, or_false]
    rintro s (rfl | rfl | rfl | rfl) t (rfl | rfl | rfl | rfl) u (rfl | rfl | rfl | rfl) <;> simp [f1, f2, f3, f4]

/-- The point `(1/4, 13/8)` is in the first contour, `(1, 13/8)` in none of the two. -/
theorem demo_winding : loopWinding [dee1] (1 / 4) (13 / 8) = 1 ∧ loopWinding [dee1] 1 (13 / 8) = 0 ∧ loopWinding [dee2] 1 (13 / 8) = 0 := by
  have hs1 : ∀ r : ℝ, 0 ≤ r → r ^ 3 + 3 * r = 13 / 8 → r = 1 / 2 := by
    intro r r0 h
    have : (r - 1 / 2) * (r ^ 2 + r / 2 + 13 / 4) = 0 := by linear_combination h
    rcases mul_eq_zero.1 this with h | h
    · linarith
    · nlinarith
  have a1 : ¬ LeftAt (1 / 4) (13 / 8) s1 := by
    rintro ⟨r, r0, r1, e, h⟩
    rw [s1_point] at e h
    rw [hs1 r r0 e] at h
    norm_num at h
  have a2 : LeftAt (1 / 4) (13 / 8) s2 := ⟨19 / 32, by norm_num, by norm_num, by rw [s2_point]; norm_num, by rw [s2_point]; norm_num⟩
  have b1 : LeftAt 1 (13 / 8) s1 := ⟨1 / 2, by norm_num, by norm_num, by rw [s1_point]; norm_num, by rw [s1_point]; norm_num⟩
  have b2 : LeftAt 1 (13 / 8) s2 := ⟨19 / 32, by norm_num, by norm_num, by rw [s2_point]; norm_num, by rw [s2_point]; norm_num⟩
  have c1 : ¬ LeftAt 1 (13 / 8) t1 := by
    rintro ⟨r, r0, r1, e, h⟩
    rw [t1_point] at h
    simp only at h
    nlinarith [mul_nonneg r0 (sub_nonneg.2 r1)]
  have c2 : ¬ LeftAt 1 (13 / 8) t2 := by
    rintro ⟨r, r0, r1, e, h⟩
    rw [t2_point] at h
    norm_num at h
  have e1 : [dee1].flatMap Loop.sides = [s1, s2] := rfl
  have e2 : [dee2].flatMap Loop.sides = [t1, t2] := rfl
  unfold loopWinding sidesWinding
  rw [e1, e2]
  simp only [List.map_cons, List.map_nil, List.sum_cons, List.sum_nil, curveWinding, if_pos a2, if_neg a1, if_pos b1, if_pos b2, if_neg c1, if_neg c2]
  simp only [s1, s2, t1, t2, Seg.target]
  norm_num

/-- `process_upright` applies: the union of the two contours with the positive rule. -/
theorem demo_union (env : Env ℝ) (hok : env.Ok) (msort : List (LocMin ℝ) → List (LocMin ℝ)) (hm : MinSort msort) :
    ∃ c1 c2 : Clipper ℝ, (Clipper.new (K := ℝ)).addPath [Path.build dee1.cmds] .subject = some c1 ∧
      c1.addPath [Path.build dee2.cmds] .clip = some c2 ∧
      ∃ n, ∀ fuel, n ≤ fuel → ∃ (c' : Clipper ℝ) (out : List (Loop ℝ)),
        c2.process env msort fuel .union .positive Path.recorder [] = some (some (c', out.flatMap (fun l => eventsFrom zeroPt l.cmds))) ∧
        (∀ l ∈ out, l.Closed) ∧ loopWinding out (1 / 4) (13 / 8) = 1 ∧ loopWinding out 1 (13 / 8) = 0 := by
  obtain ⟨c1, c2, h1, h2, n, h3⟩ := process_upright env hok msort hm [dee1] [dee2] demo_nonCrossing .union .positive 1 (Or.inl rfl)
    (loops_positive _ _ _ (Or.inl rfl))
  refine ⟨c1, c2, h1, h2, n, fun fuel hf => ?_⟩
  obtain ⟨c', out, e1, e2, _, e4⟩ := h3 fuel hf
  obtain ⟨w1, w2, w3⟩ := demo_winding
  refine ⟨c', out, e1, e2, ?_, ?_⟩
  · rw [e4, if_pos]
    left
    rw [w1]; exact Int.zero_lt_one
  · rw [e4, if_neg]
    unfold InLoops
    rw [w2, w3]
    simp [ClipType.op, FillRule.inside]

end River.Upright
