import Verif.Props.BezierMono

/-! # Bounding box of a cubic (C19), circle approximation (C45) -/

namespace River
namespace Cubic

/-- Coefficients of the derivative of the coordinate `sel`. -/
def cA (c : Cubic ℝ) (sel : Vec2 ℝ → ℝ) : ℝ := dA (sel c.p0) (sel c.p1) (sel c.p2) (sel c.p3)
def cB (c : Cubic ℝ) (sel : Vec2 ℝ → ℝ) : ℝ := dB (sel c.p0) (sel c.p1) (sel c.p2)
def cC (c : Cubic ℝ) (sel : Vec2 ℝ → ℝ) : ℝ := dC (sel c.p0) (sel c.p1)

/-- `sel` is one of the two coordinates. -/
def IsCoord (sel : Vec2 ℝ → ℝ) : Prop := sel = Vec2.x ∨ sel = Vec2.y

theorem sel_derA {sel} (h : IsCoord sel) (c : Cubic ℝ) : sel c.derA = c.cA sel := by
  rcases h with rfl | rfl <;> (unfold derA cA dA Vec2.smul Vec2.add Vec2.sub; simp; ring)
theorem sel_derB {sel} (h : IsCoord sel) (c : Cubic ℝ) : sel c.derB = c.cB sel := by
  rcases h with rfl | rfl <;> (unfold derB cB dB Vec2.smul Vec2.add Vec2.sub; simp; ring)
theorem sel_derC {sel} (h : IsCoord sel) (c : Cubic ℝ) : sel c.derC = c.cC sel := by
  rcases h with rfl | rfl <;> (unfold derC cC dC Vec2.smul Vec2.sub; simp; ring)
theorem sel_pointAt {sel} (h : IsCoord sel) (c : Cubic ℝ) (t : ℝ) :
    sel (c.pointAt t) = cub (c.cA sel) (c.cB sel) (c.cC sel) (sel c.p0) t := by
  rw [pointAt_eq_eval]
  rcases h with rfl | rfl <;> exact bern_eq_cub _ _ _ _ _

/-- The coordinate is outside the solver's tolerance band. -/
def ExactCoord (c : Cubic ℝ) (sel : Vec2 ℝ → ℝ) : Prop :=
  (c.cA sel = 0 ∨ 1 / 100000000 ≤ |c.cA sel|) ∧ (c.cA sel = 0 → c.cB sel = 0 ∨ 1 / 100000000 ≤ |c.cB sel|)

theorem cub_neg (A B C o t : ℝ) : cub (-A) (-B) (-C) (-o) t = -cub A B C o t := by unfold cub; ring

theorem cub_sub_cubic (A B C o t : ℝ) : cub A B C o t = cub 0 B C o t + A * t ^ 3 / 3 := by unfold cub; ring
theorem cub_sub_quad (B C o t : ℝ) : cub 0 B C o t = cub 0 0 C o t + B * t ^ 2 / 2 := by unfold cub; ring

theorem small_term {A t e : ℝ} (n : ℕ) (hA : |A| ≤ e) (h0 : 0 ≤ t) (h1 : t ≤ 1) : |A * t ^ n| ≤ e := by
  rw [abs_mul, abs_of_nonneg (pow_nonneg h0 n)]
  have : t ^ n ≤ 1 := pow_le_one₀ h0 h1
  nlinarith [abs_nonneg A, pow_nonneg h0 n]

/-- Lower bound of one coordinate (`σ = 1`) or of its negative (`σ = -1`) from the end values and the candidate
values, with the error the tolerance branches admit. -/
theorem candidates_bound {sel} (hsel : IsCoord sel) (c : Cubic ℝ) (σ : ℝ) (hσ : σ = 1 ∨ σ = -1) (lo : ℝ)
    (h0 : lo ≤ σ * sel c.p0) (h3 : lo ≤ σ * sel c.p3) (hx1 : lo ≤ σ * (c.candidates sel).1)
    (hx2 : lo ≤ σ * (c.candidates sel).2) (t : ℝ) (ht0 : 0 ≤ t) (ht1 : t ≤ 1) :
    lo - 2 / 100000000 ≤ σ * sel (c.pointAt t) ∧ (c.ExactCoord sel → lo ≤ σ * sel (c.pointAt t)) := by
  set A := c.cA sel with hA
  set B := c.cB sel with hB
  set C := c.cC sel with hC
  -- work with the polynomial multiplied by σ
  have hcub : ∀ A B C o t, σ * cub A B C o t = cub (σ * A) (σ * B) (σ * C) (σ * o) t := by
    intro A B C o t; unfold cub; ring
  have hσ2 : σ * σ = 1 := by rcases hσ with rfl | rfl <;> norm_num
  have hσa : |σ| = 1 := by rcases hσ with rfl | rfl <;> norm_num
  have hp : ∀ t, sel (c.pointAt t) = cub A B C (sel c.p0) t := sel_pointAt hsel c
  have hp0 : lo ≤ σ * cub A B C (sel c.p0) 0 := by
    have : cub A B C (sel c.p0) 0 = sel c.p0 := by unfold cub; ring
    rw [this]; exact h0
  have hp1 : lo ≤ σ * cub A B C (sel c.p0) 1 := by
    rw [← hp, pointAt_one]; exact h3
  have hcd : c.candidates sel = c.candidates sel := rfl
  conv_rhs at hcd => unfold candidates
  simp only [sel_derA hsel, sel_derB hsel, sel_derC hsel, ← hA, ← hB, ← hC] at hcd
  rw [hp]
  by_cases ha : isZero A = true
  · rw [if_pos ha] at hcd
    have haε := (isZero_real A).mp ha
    by_cases hb : isZero B = true
    · have hbε := (isZero_real B).mp hb
      -- linear up to tolerance
      have hlin : ∀ lo', lo' ≤ σ * cub 0 0 C (sel c.p0) 0 → lo' ≤ σ * cub 0 0 C (sel c.p0) 1 →
          lo' ≤ σ * cub 0 0 C (sel c.p0) t := by
        intro lo' a b
        rw [hcub] at a b ⊢
        simp only [mul_zero] at a b ⊢
        exact (constSign_const (σ * C) 0 1).lower _ lo' t ht0 ht1 a b
      constructor
      · have e0 : cub 0 0 C (sel c.p0) 0 = cub A B C (sel c.p0) 0 := by unfold cub; ring
        have e1 : cub 0 0 C (sel c.p0) 1 = cub A B C (sel c.p0) 1 - A / 3 - B / 2 := by unfold cub; ring
        have et : cub A B C (sel c.p0) t = cub 0 0 C (sel c.p0) t + A * t ^ 3 / 3 + B * t ^ 2 / 2 := by unfold cub; ring
        have s1 := abs_le.mp (small_term 3 haε.le ht0 ht1)
        have s2 := abs_le.mp (small_term 2 hbε.le ht0 ht1)
        have a1 := abs_lt.mp haε
        have b1 := abs_lt.mp hbε
        have := hlin (lo - 5 / 6 / 100000000) (by rw [e0]; linarith) (by
          rw [e1]; rcases hσ with rfl | rfl <;> linarith)
        rw [et]; rcases hσ with rfl | rfl <;> linarith
      · rintro ⟨x, y⟩
        rw [← hA] at x y; rw [← hB] at y
        have a0 : A = 0 := by
          rcases x with x | x
          · exact x
          · linarith
        have b0 : B = 0 := by
          rcases y a0 with x | x
          · exact x
          · linarith
        rw [a0, b0] at hp0 hp1 ⊢
        exact hlin lo hp0 hp1
    · rw [if_neg hb] at hcd
      have hb0 : B ≠ 0 := by intro e; rw [e] at hb; apply hb; rw [isZero_real]; norm_num
      set r := FNum.neg C /. B with hr
      have hr' : r = -C / B := rfl
      have hcrit : 0 < r → r < 1 → lo ≤ σ * cub A B C (sel c.p0) r := by
        intro g0 g1
        have hcond : (FNum.lit 0 <. r && r <. FNum.lit 1) = true := by simp [g0, g1]
        rw [if_pos hcond] at hcd
        rw [hcd] at hx1; rw [hp] at hx1; exact hx1
      have hquad : ∀ lo', lo' ≤ σ * cub 0 B C (sel c.p0) 0 → lo' ≤ σ * cub 0 B C (sel c.p0) 1 →
          (0 < r → r < 1 → lo' ≤ σ * cub 0 B C (sel c.p0) r) → lo' ≤ σ * cub 0 B C (sel c.p0) t := by
        intro lo' a b d
        rw [hcub] at a b ⊢
        simp only [hcub] at d
        simp only [mul_zero] at a b d ⊢
        have hf : ∀ w, σ * B * w + σ * C = σ * B * (w - r) := by
          intro w; rw [hr']; field_simp; ring
        exact lower_linear hf _ lo' t ht0 ht1 a b d
      constructor
      · have e0 : cub 0 B C (sel c.p0) 0 = cub A B C (sel c.p0) 0 := by unfold cub; ring
        have ee : ∀ u, cub 0 B C (sel c.p0) u = cub A B C (sel c.p0) u - A * u ^ 3 / 3 := by
          intro u; unfold cub; ring
        have s : ∀ u : ℝ, 0 ≤ u → u ≤ 1 → _ := fun u g0 g1 => abs_le.mp (small_term 3 haε.le (t := u) g0 g1)
        have := hquad (lo - 1 / 3 / 100000000) (by rw [e0]; linarith)
          (by rw [ee]; have := s 1 zero_le_one (le_refl _); rcases hσ with rfl | rfl <;> linarith)
          (by
            intro g0 g1; rw [ee]; have := s r g0.le g1.le; have := hcrit g0 g1
            rcases hσ with rfl | rfl <;> linarith)
        rw [ee] at this
        have := s t ht0 ht1
        rcases hσ with rfl | rfl <;> linarith
      · rintro ⟨x, y⟩
        rw [← hA] at x
        have a0 : A = 0 := by
          rcases x with x | x
          · exact x
          · linarith
        rw [a0] at hp0 hp1 hcrit ⊢
        exact hquad lo hp0 hp1 hcrit
  · rw [if_neg ha] at hcd
    have ha0 : A ≠ 0 := by intro e; rw [e] at ha; apply ha; rw [isZero_real]; norm_num
    have hσA : σ * A ≠ 0 := mul_ne_zero (by rcases hσ with rfl | rfl <;> norm_num) ha0
    have main : lo ≤ σ * cub A B C (sel c.p0) t := by
      by_cases hk : (B *. B -. FNum.lit 4 *. A *. C <. FNum.lit 0) = true
      · have hk' : B * B - 4 * A * C < 0 := by simpa using hk
        rw [hcub] at hp0 hp1 ⊢
        refine (constSign_disc ?_ hσA 0 1).lower _ lo t ht0 ht1 hp0 hp1
        have : σ * B * (σ * B) - 4 * (σ * A) * (σ * C) = (σ * σ) * (B * B - 4 * A * C) := by ring
        rw [this, hσ2]; linarith
      · rw [if_neg hk] at hcd
        have hk' : 0 ≤ B * B - 4 * A * C := by simpa using hk
        set r1 := (FNum.neg B +. FTrans.sqrt (B *. B -. FNum.lit 4 *. A *. C)) /. (FNum.lit 2 *. A) with hr1
        set r2 := (FNum.neg B -. FTrans.sqrt (B *. B -. FNum.lit 4 *. A *. C)) /. (FNum.lit 2 *. A) with hr2
        have hf : ∀ w, A * w ^ 2 + B * w + C = A * (w - r1) * (w - r2) := by
          intro w; rw [quad_factor ha0 hk' w, hr1, hr2]; simp; rfl
        have c1 : 0 < r1 → r1 < 1 → lo ≤ σ * cub A B C (sel c.p0) r1 := by
          intro g0 g1
          have hcond : (FNum.lit 0 <. r1 && r1 <. FNum.lit 1) = true := by simp [g0, g1]
          rw [if_pos hcond] at hcd
          rw [hcd] at hx1; rw [← hp]; exact hx1
        have c2 : 0 < r2 → r2 < 1 → lo ≤ σ * cub A B C (sel c.p0) r2 := by
          intro g0 g1
          have hcond : (FNum.lit 0 <. r2 && r2 <. FNum.lit 1) = true := by simp [g0, g1]
          rw [if_pos hcond] at hcd
          rw [hcd] at hx2; rw [← hp]; exact hx2
        rw [hcub] at hp0 hp1 ⊢
        rw [hcub] at c1 c2
        rcases le_total r1 r2 with h12 | h12
        · refine lower_factored h12 ?_ _ lo t ht0 ht1 hp0 hp1 c1 c2
          intro w; linear_combination σ * hf w
        · refine lower_factored h12 ?_ _ lo t ht0 ht1 hp0 hp1 c2 c1
          intro w; linear_combination σ * hf w
    exact ⟨by linarith, fun _ => main⟩

/-- Every candidate value is a value of the coordinate on the curve. -/
theorem candidates_on_curve {sel} (_hsel : IsCoord sel) (c : Cubic ℝ) :
    (∃ t, 0 ≤ t ∧ t ≤ 1 ∧ sel (c.pointAt t) = (c.candidates sel).1) ∧
    (∃ t, 0 ≤ t ∧ t ≤ 1 ∧ sel (c.pointAt t) = (c.candidates sel).2) := by
  have e0 : ∃ t, 0 ≤ t ∧ t ≤ 1 ∧ sel (c.pointAt t) = sel c.p0 := ⟨0, le_refl _, zero_le_one, by rw [pointAt_zero]⟩
  have e3 : ∃ t, 0 ≤ t ∧ t ≤ 1 ∧ sel (c.pointAt t) = sel c.p3 := ⟨1, zero_le_one, le_refl _, by rw [pointAt_one]⟩
  unfold candidates
  dsimp only
  split
  · split
    · exact ⟨e0, e3⟩
    · split
      · rename_i h; simp at h
        exact ⟨⟨_, h.1.le, h.2.le, rfl⟩, ⟨_, h.1.le, h.2.le, rfl⟩⟩
      · exact ⟨e0, e3⟩
  · split
    · exact ⟨e0, e3⟩
    · constructor
      · dsimp only; split
        · rename_i h; simp at h; exact ⟨_, h.1.le, h.2.le, rfl⟩
        · exact e0
      · dsimp only; split
        · rename_i h; simp at h; exact ⟨_, h.1.le, h.2.le, rfl⟩
        · exact e3

/-- All four control points have coordinates in double range. -/
def InRange (c : Cubic ℝ) : Prop :=
  ∀ p ∈ [c.p0, c.p1, c.p2, c.p3], -(dblMax : ℝ) ≤ p.x ∧ p.x ≤ dblMax ∧ -(dblMax : ℝ) ≤ p.y ∧ p.y ≤ dblMax

theorem getBoundary_isBBox (c : Cubic ℝ) (h : c.InRange) :
    c.getBoundary.IsBBox [c.p0, c.p3,
      ⟨min (c.candidates Vec2.x).1 (c.candidates Vec2.x).2, min (c.candidates Vec2.y).1 (c.candidates Vec2.y).2⟩,
      ⟨max (c.candidates Vec2.x).1 (c.candidates Vec2.x).2, max (c.candidates Vec2.y).1 (c.candidates Vec2.y).2⟩] := by
  unfold getBoundary
  simp only [fmin_eq_min, fmax_eq_max]
  have box : ∀ t, 0 ≤ t → t ≤ 1 → (⟨⟨-dblMax, -dblMax⟩, ⟨dblMax, dblMax⟩⟩ : Rect ℝ).Mem (c.pointAt t) := by
    intro t h0 h1
    have q : ∀ p ∈ [c.p0, c.p1, c.p2, c.p3], (⟨⟨-dblMax, -dblMax⟩, ⟨dblMax, dblMax⟩⟩ : Rect ℝ).Mem p := fun p hp => h p hp
    exact pointAt_mem_box c _ (q _ (by simp)) (q _ (by simp)) (q _ (by simp)) (q _ (by simp)) t h0 h1
  obtain ⟨⟨a, a0, a1, ea⟩, ⟨b, b0, b1, eb⟩⟩ := candidates_on_curve (Or.inl rfl : IsCoord Vec2.x) c
  obtain ⟨⟨d, d0, d1, ed⟩, ⟨e, e0, e1, ee⟩⟩ := candidates_on_curve (Or.inr rfl : IsCoord Vec2.y) c
  have ba := box a a0 a1
  have bb := box b b0 b1
  have bd := box d d0 d1
  have be := box e e0 e1
  unfold Rect.Mem at ba bb bd be
  rw [ea] at ba
  rw [eb] at bb
  rw [ed] at bd
  rw [ee] at be
  apply Rect.of_isBBox
  · simp
  · intro p hp
    simp only [List.mem_cons, List.not_mem_nil, or_false] at hp
    show -(dblMax : ℝ) ≤ p.x ∧ p.x ≤ dblMax ∧ -(dblMax : ℝ) ≤ p.y ∧ p.y ≤ dblMax
    rcases hp with rfl | rfl | rfl | rfl
    · exact h _ (by simp)
    · exact h _ (by simp)
    · exact ⟨le_min ba.1 bb.1, (min_le_left _ _).trans ba.2.1, le_min bd.2.2.1 be.2.2.1, (min_le_left _ _).trans bd.2.2.2⟩
    · exact ⟨ba.1.trans (le_max_left _ _), max_le ba.2.1 bb.2.1, bd.2.2.1.trans (le_max_left _ _), max_le bd.2.2.2 be.2.2.2⟩

/-- C19: every point of the curve lies within `2e-8` of the reported box, for every curve in double range. -/
theorem getBoundary_contains (c : Cubic ℝ) (h : c.InRange) (t : ℝ) (ht0 : 0 ≤ t) (ht1 : t ≤ 1) :
    c.getBoundary.min.x - 2 / 100000000 ≤ (c.pointAt t).x ∧ (c.pointAt t).x ≤ c.getBoundary.max.x + 2 / 100000000 ∧
    c.getBoundary.min.y - 2 / 100000000 ≤ (c.pointAt t).y ∧ (c.pointAt t).y ≤ c.getBoundary.max.y + 2 / 100000000 := by
  have hb := (getBoundary_isBBox c h).mem
  have m0 := hb c.p0 (by simp)
  have m3 := hb c.p3 (by simp)
  have m1 := hb _ (by simp : (⟨min (c.candidates Vec2.x).1 (c.candidates Vec2.x).2,
    min (c.candidates Vec2.y).1 (c.candidates Vec2.y).2⟩ : Vec2 ℝ) ∈ _)
  have m2 := hb ⟨max (c.candidates Vec2.x).1 (c.candidates Vec2.x).2,
    max (c.candidates Vec2.y).1 (c.candidates Vec2.y).2⟩ (by simp)
  unfold Rect.Mem at m0 m1 m2 m3
  simp only [le_min_iff, max_le_iff] at m1 m2
  have l := (candidates_bound (Or.inl rfl) c 1 (Or.inl rfl) c.getBoundary.min.x (by linarith [m0.1]) (by linarith [m3.1])
    (by linarith [m1.1.1]) (by linarith [m1.1.2]) t ht0 ht1).1
  have r := (candidates_bound (Or.inl rfl) c (-1) (Or.inr rfl) (-c.getBoundary.max.x) (by linarith [m0.2.1])
    (by linarith [m3.2.1]) (by linarith [m2.2.1.1]) (by linarith [m2.2.1.2]) t ht0 ht1).1
  have b := (candidates_bound (Or.inr rfl) c 1 (Or.inl rfl) c.getBoundary.min.y (by linarith [m0.2.2.1])
    (by linarith [m3.2.2.1]) (by linarith [m1.2.2.1.1]) (by linarith [m1.2.2.1.2]) t ht0 ht1).1
  have u := (candidates_bound (Or.inr rfl) c (-1) (Or.inr rfl) (-c.getBoundary.max.y) (by linarith [m0.2.2.2])
    (by linarith [m3.2.2.2]) (by linarith [m2.2.2.2.1]) (by linarith [m2.2.2.2.2]) t ht0 ht1).1
  refine ⟨?_, ?_, ?_, ?_⟩ <;> linarith

/-- C19: outside the solver's tolerance band the box contains the curve exactly. -/
theorem getBoundary_contains_exact (c : Cubic ℝ) (h : c.InRange) (hx : c.ExactCoord Vec2.x) (hy : c.ExactCoord Vec2.y)
    (t : ℝ) (ht0 : 0 ≤ t) (ht1 : t ≤ 1) : c.getBoundary.Mem (c.pointAt t) := by
  have hb := (getBoundary_isBBox c h).mem
  have m0 := hb c.p0 (by simp)
  have m3 := hb c.p3 (by simp)
  have m1 := hb _ (by simp : (⟨min (c.candidates Vec2.x).1 (c.candidates Vec2.x).2,
    min (c.candidates Vec2.y).1 (c.candidates Vec2.y).2⟩ : Vec2 ℝ) ∈ _)
  have m2 := hb ⟨max (c.candidates Vec2.x).1 (c.candidates Vec2.x).2,
    max (c.candidates Vec2.y).1 (c.candidates Vec2.y).2⟩ (by simp)
  unfold Rect.Mem at m0 m1 m2 m3
  simp only [le_min_iff, max_le_iff] at m1 m2
  have l := (candidates_bound (Or.inl rfl) c 1 (Or.inl rfl) c.getBoundary.min.x (by linarith [m0.1]) (by linarith [m3.1])
    (by linarith [m1.1.1]) (by linarith [m1.1.2]) t ht0 ht1).2 hx
  have r := (candidates_bound (Or.inl rfl) c (-1) (Or.inr rfl) (-c.getBoundary.max.x) (by linarith [m0.2.1])
    (by linarith [m3.2.1]) (by linarith [m2.2.1.1]) (by linarith [m2.2.1.2]) t ht0 ht1).2 hx
  have b := (candidates_bound (Or.inr rfl) c 1 (Or.inl rfl) c.getBoundary.min.y (by linarith [m0.2.2.1])
    (by linarith [m3.2.2.1]) (by linarith [m1.2.2.1.1]) (by linarith [m1.2.2.1.2]) t ht0 ht1).2 hy
  have u := (candidates_bound (Or.inr rfl) c (-1) (Or.inr rfl) (-c.getBoundary.max.y) (by linarith [m0.2.2.2])
    (by linarith [m3.2.2.2]) (by linarith [m2.2.2.2.1]) (by linarith [m2.2.2.2.2]) t ht0 ht1).2 hy
  refine ⟨?_, ?_, ?_, ?_⟩ <;> linarith

/-- C19: the box is tight — each side is touched by the curve, for every curve in double range. -/
theorem getBoundary_touched (c : Cubic ℝ) (h : c.InRange) :
    (∃ t, 0 ≤ t ∧ t ≤ 1 ∧ (c.pointAt t).x = c.getBoundary.min.x) ∧
    (∃ t, 0 ≤ t ∧ t ≤ 1 ∧ (c.pointAt t).x = c.getBoundary.max.x) ∧
    (∃ t, 0 ≤ t ∧ t ≤ 1 ∧ (c.pointAt t).y = c.getBoundary.min.y) ∧
    (∃ t, 0 ≤ t ∧ t ≤ 1 ∧ (c.pointAt t).y = c.getBoundary.max.y) := by
  have hb := getBoundary_isBBox c h
  obtain ⟨ax, bx⟩ := candidates_on_curve (Or.inl rfl : IsCoord Vec2.x) c
  obtain ⟨ay, by'⟩ := candidates_on_curve (Or.inr rfl : IsCoord Vec2.y) c
  have e0 : ∀ sel : Vec2 ℝ → ℝ, ∃ t, 0 ≤ t ∧ t ≤ 1 ∧ sel (c.pointAt t) = sel c.p0 :=
    fun sel => ⟨0, le_refl _, zero_le_one, by rw [pointAt_zero]⟩
  have e3 : ∀ sel : Vec2 ℝ → ℝ, ∃ t, 0 ≤ t ∧ t ≤ 1 ∧ sel (c.pointAt t) = sel c.p3 :=
    fun sel => ⟨1, zero_le_one, le_refl _, by rw [pointAt_one]⟩
  have cmin : ∀ sel : Vec2 ℝ → ℝ, ∀ a b : ℝ, (∃ t, 0 ≤ t ∧ t ≤ 1 ∧ sel (c.pointAt t) = a) →
      (∃ t, 0 ≤ t ∧ t ≤ 1 ∧ sel (c.pointAt t) = b) → ∃ t, 0 ≤ t ∧ t ≤ 1 ∧ sel (c.pointAt t) = min a b := by
    intro sel a b h1 h2
    rcases min_choice a b with h | h <;> rw [h] <;> assumption
  have cmax : ∀ sel : Vec2 ℝ → ℝ, ∀ a b : ℝ, (∃ t, 0 ≤ t ∧ t ≤ 1 ∧ sel (c.pointAt t) = a) →
      (∃ t, 0 ≤ t ∧ t ≤ 1 ∧ sel (c.pointAt t) = b) → ∃ t, 0 ≤ t ∧ t ≤ 1 ∧ sel (c.pointAt t) = max a b := by
    intro sel a b h1 h2
    rcases max_choice a b with h | h <;> rw [h] <;> assumption
  refine ⟨?_, ?_, ?_, ?_⟩
  · obtain ⟨p, hp, e⟩ := hb.left
    rw [← e]; simp only [List.mem_cons, List.not_mem_nil, or_false] at hp
    rcases hp with rfl | rfl | rfl | rfl
    · exact e0 _
    · exact e3 _
    · exact cmin Vec2.x _ _ ax bx
    · exact cmax Vec2.x _ _ ax bx
  · obtain ⟨p, hp, e⟩ := hb.right
    rw [← e]; simp only [List.mem_cons, List.not_mem_nil, or_false] at hp
    rcases hp with rfl | rfl | rfl | rfl
    · exact e0 _
    · exact e3 _
    · exact cmin Vec2.x _ _ ax bx
    · exact cmax Vec2.x _ _ ax bx
  · obtain ⟨p, hp, e⟩ := hb.bottom
    rw [← e]; simp only [List.mem_cons, List.not_mem_nil, or_false] at hp
    rcases hp with rfl | rfl | rfl | rfl
    · exact e0 _
    · exact e3 _
    · exact cmin Vec2.y _ _ ay by'
    · exact cmax Vec2.y _ _ ay by'
  · obtain ⟨p, hp, e⟩ := hb.top
    rw [← e]; simp only [List.mem_cons, List.not_mem_nil, or_false] at hp
    rcases hp with rfl | rfl | rfl | rfl
    · exact e0 _
    · exact e3 _
    · exact cmin Vec2.y _ _ ay by'
    · exact cmax Vec2.y _ _ ay by'

/-- The hypotheses are met by the wave curve, whose extrema are interior. -/
example : wave.InRange ∧ wave.ExactCoord Vec2.x ∧ wave.ExactCoord Vec2.y := by
  have hm : (4 : ℝ) ≤ (dblMax : ℝ) := by
    have : (4 : ℚ) ≤ dblMax := by decide +kernel
    exact_mod_cast this
  refine ⟨?_, ⟨?_, ?_⟩, ⟨?_, ?_⟩⟩
  · intro p hp
    simp only [wave, List.mem_cons, List.not_mem_nil, or_false] at hp
    rcases hp with rfl | rfl | rfl | rfl <;> refine ⟨?_, ?_, ?_, ?_⟩ <;> dsimp only <;> linarith
  · left; unfold cA wave dA; norm_num
  · intro; left; unfold cB wave dB; norm_num
  · right; unfold cA wave dA; norm_num
  · intro h; unfold cA wave dA at h; norm_num at h

/-! ## Circle (C45) -/

/-- Squared distance of a Bézier quarter from the centre, as a polynomial in `t(1-t)`. -/
theorem quarter_radius (k t : ℝ) :
    ((1 - t) ^ 3 + 3 * (1 - t) ^ 2 * t + 3 * (1 - t) * t ^ 2 * k) ^ 2 +
    (3 * (1 - t) ^ 2 * t * k + 3 * (1 - t) * t ^ 2 + t ^ 3) ^ 2 =
      1 + (t * (1 - t)) ^ 2 * (9 * k ^ 2 + 6 * k - 6 - 2 * (2 - 3 * k) ^ 2 * (t * (1 - t))) := by ring

theorem quarter_bounds (t : ℝ) (h0 : 0 ≤ t) (h1 : t ≤ 1) :
    1 ≤ ((1 - t) ^ 3 + 3 * (1 - t) ^ 2 * t + 3 * (1 - t) * t ^ 2 * (55228475 / 100000000)) ^ 2 +
      (3 * (1 - t) ^ 2 * t * (55228475 / 100000000) + 3 * (1 - t) * t ^ 2 + t ^ 3) ^ 2 ∧
    ((1 - t) ^ 3 + 3 * (1 - t) ^ 2 * t + 3 * (1 - t) * t ^ 2 * (55228475 / 100000000)) ^ 2 +
      (3 * (1 - t) ^ 2 * t * (55228475 / 100000000) + 3 * (1 - t) * t ^ 2 + t ^ 3) ^ 2 ≤ 1 + 55 / 100000 := by
  rw [quarter_radius]
  set u := t * (1 - t) with hu
  have u0 : 0 ≤ u := mul_nonneg h0 (by linarith)
  have u1 : u ≤ 1 / 4 := by nlinarith [sq_nonneg (t - 1 / 2)]
  constructor
  · have : 0 ≤ 9 * (55228475 / 100000000 : ℝ) ^ 2 + 6 * (55228475 / 100000000) - 6 -
        2 * (2 - 3 * (55228475 / 100000000)) ^ 2 * u := by nlinarith
    nlinarith [mul_nonneg (sq_nonneg u) this]
  · norm_num
    nlinarith [mul_nonneg (sq_nonneg (u - 1 / 6)) u0, sq_nonneg (u - 1 / 6), mul_nonneg u0 u0]

/-- C45: for every centre and radius, every point of each of the four arcs of `circle` is at a squared distance between
`r²` and `1.00055·r²` from the centre. -/
theorem circle_radius (o : Vec2 ℝ) (r : ℝ) (p : Cubic ℝ) (hp : p ∈ circle o r) (t : ℝ) (h0 : 0 ≤ t) (h1 : t ≤ 1) :
    r ^ 2 ≤ sqDist (p.pointAt t) o ∧ sqDist (p.pointAt t) o ≤ (1 + 55 / 100000) * r ^ 2 := by
  have hq := quarter_bounds t h0 h1
  set X := (1 - t) ^ 3 + 3 * (1 - t) ^ 2 * t + 3 * (1 - t) * t ^ 2 * (55228475 / 100000000) with hX
  set Y := 3 * (1 - t) ^ 2 * t * (55228475 / 100000000) + 3 * (1 - t) * t ^ 2 + t ^ 3 with hY
  have key : sqDist (p.pointAt t) o = r ^ 2 * (X ^ 2 + Y ^ 2) := by
    rw [pointAt_eq_eval]
    unfold circle at hp
    simp only [List.mem_cons, List.not_mem_nil, or_false] at hp
    rcases hp with rfl | rfl | rfl | rfl <;>
      (rw [hX, hY]; simp [eval, bern, sqDist, Vec2.add, Vec2.sub]; ring)
  rw [key]
  constructor <;> nlinarith [mul_le_mul_of_nonneg_left hq.1 (sq_nonneg r), mul_le_mul_of_nonneg_left hq.2 (sq_nonneg r)]

/-- C45: the four arcs form a closed chain starting at the east point, joining exactly and with equal tangents. -/
theorem circle_closed (o : Vec2 ℝ) (r : ℝ) : ∃ a b c d, circle o r = [a, b, c, d] ∧
    a.p0 = ⟨o.x + r, o.y⟩ ∧ a.p3 = ⟨o.x, o.y + r⟩ ∧ b.p3 = ⟨o.x - r, o.y⟩ ∧ c.p3 = ⟨o.x, o.y - r⟩ ∧
    a.p3 = b.p0 ∧ b.p3 = c.p0 ∧ c.p3 = d.p0 ∧ d.p3 = a.p0 ∧
    a.p3.sub a.p2 = b.p1.sub b.p0 ∧ b.p3.sub b.p2 = c.p1.sub c.p0 ∧ c.p3.sub c.p2 = d.p1.sub d.p0 ∧
    d.p3.sub d.p2 = a.p1.sub a.p0 := by
  refine ⟨_, _, _, _, rfl, ?_⟩
  unfold Vec2.add Vec2.sub
  simp

/-- C45: each arc, run backwards, is the mirror image of the arc before it: the second in the vertical line through the centre, the third in the
horizontal one, the fourth in the vertical one again, and the first in the horizontal one. -/
theorem circle_mirror (o : Vec2 ℝ) (r : ℝ) : ∃ a b c d, circle o r = [a, b, c, d] ∧ ∀ t,
    b.pointAt (1 - t) = ⟨2 * o.x - (a.pointAt t).x, (a.pointAt t).y⟩ ∧
    c.pointAt (1 - t) = ⟨(b.pointAt t).x, 2 * o.y - (b.pointAt t).y⟩ ∧
    d.pointAt (1 - t) = ⟨2 * o.x - (c.pointAt t).x, (c.pointAt t).y⟩ ∧
    a.pointAt (1 - t) = ⟨(d.pointAt t).x, 2 * o.y - (d.pointAt t).y⟩ := by
  refine ⟨_, _, _, _, rfl, fun t => ?_⟩
  unfold Cubic.pointAt Vec2.add Vec2.sub Vec2.smul
  simp only [Vec2.mk.injEq, field_add, field_sub, field_mul, field_lit]
  refine ⟨⟨?_, ?_⟩, ⟨?_, ?_⟩, ⟨?_, ?_⟩, ?_, ?_⟩ <;> push_cast <;> ring

end Cubic
end River
