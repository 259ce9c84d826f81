import Verif.Props.Curved
import Verif.Lemmas.CurvedQuiet

/-! # C74: a concrete case

A lens made of two curves, and inside it a smaller one and a contour of a curve and a straight line. -/

namespace River.CurvedDemo

attribute [local instance 10000] FTrans.toFNum

/-- A parabolic arc from `(x, y)` to `(x, y + h)`, `w` the offset of its control points. -/
noncomputable def bow (x w y h : ℝ) : Vec2 ℝ × Seg ℝ := (⟨x, y⟩, .cubic ⟨x + w, y + h / 3⟩ ⟨x + w, y + 2 * h / 3⟩ ⟨x, y + h⟩)

theorem bow_eval (x w y h t : ℝ) : sidePoint (bow x w y h) t = ⟨x + 3 * w * t * (1 - t), y + t * h⟩ := by
  simp only [bow, sidePoint, Cubic.eval, bern, Vec2.mk.injEq]
  constructor <;> ring

theorem bow_abscissa (x w y h Y : ℝ) : abscissa (bow x w y h) Y = x + 3 * w * ((Y - y) / h) * (1 - (Y - y) / h) := by
  unfold abscissa
  rw [bow_eval]
  simp [bow, Seg.target]

theorem bow_fine (x w y : ℝ) {h : ℝ} (hh : 1 / 100000000 ≤ |h|) : Fine (bow x w y h) := by
  have h0 : h ≠ 0 := by rintro rfl; norm_num at hh
  refine ⟨?_, fun _ => ?_, ?_⟩
  · simp [bow, Seg.target, h0]
  · simpa [bow, Seg.target] using hh
  · exact ⟨by simp [bow], by simp [bow]⟩

/-- The right and the left side of the big lens, of the small one, and the two sides of the third contour. -/
noncomputable def b1 := bow 0 30 (-9) 21
noncomputable def b2 := bow 0 (-30) 12 (-21)
noncomputable def s1 := bow 0 1 0 3
noncomputable def s2 := bow 0 (-1) 3 (-3)
noncomputable def d1 := bow 3 1 0 3
noncomputable def d2 : Vec2 ℝ × Seg ℝ := (⟨3, 3⟩, .line ⟨3, 0⟩)

noncomputable def bigLens : Loop ℝ := ⟨⟨0, -9⟩, [b1.2, b2.2]⟩
noncomputable def smallLens : Loop ℝ := ⟨⟨0, 0⟩, [s1.2, s2.2]⟩
noncomputable def dee : Loop ℝ := ⟨⟨3, 0⟩, [d1.2, d2.2]⟩

theorem demo_sides : ([bigLens] ++ [smallLens, dee]).flatMap Loop.sides = [b1, b2, s1, s2, d1, d2] := by
  simp only [bigLens, smallLens, dee, Loop.sides, List.cons_append, List.nil_append, List.flatMap_cons, List.flatMap_nil, chain, b1, b2, s1, s2, d1, d2, bow, Seg.target]
  norm_num

theorem d2_abscissa (Y : ℝ) : abscissa d2 Y = 3 := by
  simp [abscissa, d2, sidePoint, lerp]

theorem big_abscissa (Y : ℝ) : abscissa b1 Y = 90 * ((Y + 9) / 21) * ((12 - Y) / 21) ∧ abscissa b2 Y = -(90 * ((Y + 9) / 21) * ((12 - Y) / 21)) := by
  rw [b1, b2, bow_abscissa, bow_abscissa]
  constructor <;> ring

theorem small_abscissa (Y : ℝ) : abscissa s1 Y = 3 * (Y / 3) * ((3 - Y) / 3) ∧ abscissa s2 Y = -(3 * (Y / 3) * ((3 - Y) / 3)) ∧
    abscissa d1 Y = 3 + 3 * (Y / 3) * ((3 - Y) / 3) := by
  rw [s1, s2, d1, bow_abscissa, bow_abscissa, bow_abscissa]
  refine ⟨?_, ?_, ?_⟩ <;> ring

theorem demo_heights : (lowest b1 = -9 ∧ highest b1 = 12) ∧ (lowest b2 = -9 ∧ highest b2 = 12) ∧ (lowest s1 = 0 ∧ highest s1 = 3) ∧
    (lowest s2 = 0 ∧ highest s2 = 3) ∧ (lowest d1 = 0 ∧ highest d1 = 3) ∧ (lowest d2 = 0 ∧ highest d2 = 3) := by
  simp only [lowest, highest, b1, b2, s1, s2, d1, d2, bow, Seg.target]
  norm_num

theorem demo_feet : foot b1 = ⟨0, -9⟩ ∧ foot b2 = ⟨0, -9⟩ ∧ foot s1 = ⟨0, 0⟩ ∧ foot s2 = ⟨0, 0⟩ ∧ foot d1 = ⟨3, 0⟩ ∧ foot d2 = ⟨3, 0⟩ := by
  simp only [foot, b1, b2, s1, s2, d1, d2, bow, Seg.target]
  norm_num

theorem fine_b1 : Fine b1 := bow_fine _ _ _ (by norm_num)
theorem fine_b2 : Fine b2 := bow_fine _ _ _ (by norm_num [abs_of_neg])
theorem fine_s1 : Fine s1 := bow_fine _ _ _ (by norm_num)
theorem fine_s2 : Fine s2 := bow_fine _ _ _ (by norm_num [abs_of_neg])
theorem fine_d1 : Fine d1 := bow_fine _ _ _ (by norm_num)
theorem fine_d2 : Fine d2 := ⟨by simp [d2, Seg.target], fun h => by simp [d2, Seg.isCubic] at h, trivial⟩

theorem demo_fine : ∀ s ∈ [b1, b2, s1, s2, d1, d2], Fine s := by
  simp only [List.mem_cons, List.not_mem_nil, or_false]
  rintro s (rfl | rfl | rfl | rfl | rfl | rfl)
  exacts [fine_b1, fine_b2, fine_s1, fine_s2, fine_d1, fine_d2]

theorem demo_points : ∀ s ∈ [b1, b2, s1, s2, d1, d2], ∀ p ∈ sidePoints s, -30 ≤ p.x ∧ p.x ≤ 30 ∧ -9 ≤ p.y ∧ p.y ≤ 12 := by
  simp only [List.mem_cons, List.not_mem_nil, or_false]
  rintro s (rfl | rfl | rfl | rfl | rfl | rfl) p hp <;>
    simp only [b1, b2, s1, s2, d1, d2, bow, sidePoints, List.mem_cons, List.not_mem_nil, or_false] at hp
  case inr.inr.inr.inr.inr => rcases hp with rfl | rfl <;> norm_num
  all_goals rcases hp with rfl | rfl | rfl | rfl <;> norm_num

theorem demo_max : (1000 : ℝ) ≤ dblMax := by
  unfold dblMax
  have h1 : (2 : ℝ) ^ 1024 = 2 ^ 971 * 2 ^ 53 := by rw [← pow_add]
  have h2 : (1 : ℝ) ≤ 2 ^ 971 := one_le_pow₀ (by norm_num)
  push_cast
  rw [h1]
  norm_num
  have h3 := mul_le_mul_of_nonneg_right h2 (show (0 : ℝ) ≤ 9007199254740991 by norm_num)
  clear h1
  generalize (2 : ℝ) ^ 971 = P at *
  linarith

theorem demo_range : ∀ s ∈ [b1, b2, s1, s2, d1, d2], ∀ p ∈ sidePoints s, -(dblMax : ℝ) ≤ p.x ∧ p.x ≤ dblMax ∧ -(dblMax : ℝ) < p.y ∧ p.y ≤ dblMax := by
  intro s hs p hp
  obtain ⟨h1, h2, h3, h4⟩ := demo_points s hs p hp
  have := demo_max
  exact ⟨by linarith, by linarith, by linarith, by linarith⟩

theorem demo_doubles : ∀ s ∈ [b1, b2, s1, s2, d1, d2], ∀ p ∈ sidePoints s, InDoubles p := by
  intro s hs p hp
  obtain ⟨h1, h2, h3, h4⟩ := demo_range s hs p hp
  exact ⟨h1, h2, h3.le, h4⟩

/-! ## the sides do not cross -/

theorem mem_b1 : bow 0 30 (-9) 21 ∈ [b1, b2, s1, s2, d1, d2] := List.mem_cons_self

theorem mem_b2 : bow 0 (-30) 12 (-21) ∈ [b1, b2, s1, s2, d1, d2] := List.mem_cons_of_mem _ List.mem_cons_self

theorem mem_s1 : bow 0 1 0 3 ∈ [b1, b2, s1, s2, d1, d2] := List.mem_cons_of_mem _ (List.mem_cons_of_mem _ List.mem_cons_self)

theorem mem_s2 : bow 0 (-1) 3 (-3) ∈ [b1, b2, s1, s2, d1, d2] :=
  List.mem_cons_of_mem _ (List.mem_cons_of_mem _ (List.mem_cons_of_mem _ List.mem_cons_self))

theorem mem_d1 : bow 3 1 0 3 ∈ [b1, b2, s1, s2, d1, d2] :=
  List.mem_cons_of_mem _ (List.mem_cons_of_mem _ (List.mem_cons_of_mem _ (List.mem_cons_of_mem _ List.mem_cons_self)))

theorem quad_nonneg {Y : ℝ} (h0 : 0 ≤ Y) (h1 : Y ≤ 3) : 0 ≤ 3 * (Y / 3) * ((3 - Y) / 3) ∧ 3 * (Y / 3) * ((3 - Y) / 3) ≤ 1 := by
  constructor
  · have := mul_nonneg h0 (sub_nonneg.2 h1); nlinarith
  · nlinarith [sq_nonneg (Y - 3 / 2)]

theorem quad_big {Y : ℝ} (h0 : 0 ≤ Y) (h1 : Y ≤ 3) : 5 < 90 * ((Y + 9) / 21) * ((12 - Y) / 21) := by
  nlinarith

theorem quad_zero {Y : ℝ} (h : 3 * (Y / 3) * ((3 - Y) / 3) = 0) : Y = 0 ∨ Y = 3 := by
  have : Y * (3 - Y) = 0 := by linarith
  rcases mul_eq_zero.1 this with h | h
  · exact Or.inl h
  · exact Or.inr (by linarith)

/-- Strictly to the left. -/
theorem beside_strict {s t : Vec2 ℝ × Seg ℝ} (h : ∀ y, lowest s ≤ y → lowest t ≤ y → y ≤ highest s → y ≤ highest t → abscissa s y < abscissa t y) : Beside s t :=
  fun y h1 h2 h3 h4 => ⟨(h y h1 h2 h3 h4).le, fun e => absurd e (h y h1 h2 h3 h4).ne⟩

theorem clear_big : Clear2 b1 b2 := by
  refine fun _ _ => Or.inr (fun y h1 h2 h3 h4 => ?_)
  obtain ⟨⟨e1, e2⟩, ⟨e3, e4⟩, _⟩ := demo_heights
  rw [e3] at h1; rw [e1] at h2; rw [e4] at h3; rw [e2] at h4
  rw [(big_abscissa y).1, (big_abscissa y).2]
  have hp : 0 ≤ 90 * ((y + 9) / 21) * ((12 - y) / 21) := by
    have := mul_nonneg (show 0 ≤ y + 9 by linarith) (show 0 ≤ 12 - y by linarith)
    nlinarith
  refine ⟨by linarith, fun e => ?_⟩
  have : (y + 9) * (12 - y) = 0 := by linarith
  rcases mul_eq_zero.1 this with h | h
  · exact Or.inl ⟨by linarith, by linarith⟩
  · exact Or.inr ⟨by linarith, by linarith⟩

theorem clear_small : Clear2 s1 s2 := by
  refine fun _ _ => Or.inr (fun y h1 h2 h3 h4 => ?_)
  obtain ⟨_, _, ⟨e1, e2⟩, ⟨e3, e4⟩, _⟩ := demo_heights
  rw [e3] at h1; rw [e1] at h2; rw [e4] at h3; rw [e2] at h4
  rw [(small_abscissa y).1, (small_abscissa y).2.1]
  have hp := (quad_nonneg h1 h3).1
  exact ⟨by linarith, fun e => (quad_zero (Y := y) (by linarith)).imp (fun h => ⟨h.trans e3.symm, h.trans e1.symm⟩)
    (fun h => ⟨h.trans e4.symm, h.trans e2.symm⟩)⟩

theorem clear_dee : Clear2 d1 d2 := by
  refine fun _ _ => Or.inr (fun y h1 h2 h3 h4 => ?_)
  obtain ⟨_, _, _, _, ⟨e1, e2⟩, ⟨e3, e4⟩⟩ := demo_heights
  rw [e3] at h1; rw [e1] at h2; rw [e4] at h3; rw [e2] at h4
  rw [(small_abscissa y).2.2, d2_abscissa]
  have hp := (quad_nonneg h1 h3).1
  exact ⟨by linarith, fun e => (quad_zero (Y := y) (by linarith)).imp (fun h => ⟨h.trans e3.symm, h.trans e1.symm⟩)
    (fun h => ⟨h.trans e4.symm, h.trans e2.symm⟩)⟩

/-- What is inside the big lens. -/
theorem clear_inner : ∀ t ∈ [s1, s2, d1, d2], Clear2 b1 t ∧ Clear2 b2 t := by
  have key : ∀ t ∈ [s1, s2, d1, d2], lowest t = 0 ∧ highest t = 3 ∧ ∀ y, 0 ≤ y → y ≤ 3 → -1 ≤ abscissa t y ∧ abscissa t y ≤ 4 := by
    obtain ⟨_, _, ⟨e1, e2⟩, ⟨e3, e4⟩, ⟨e5, e6⟩, ⟨e7, e8⟩⟩ := demo_heights
    simp only [List.mem_cons, List.not_mem_nil, or_false]
    rintro t (rfl | rfl | rfl | rfl)
    · refine ⟨e1, e2, fun y h0 h1 => ?_⟩
      have := quad_nonneg h0 h1
      rw [(small_abscissa y).1]; constructor <;> linarith
    · refine ⟨e3, e4, fun y h0 h1 => ?_⟩
      have := quad_nonneg h0 h1
      rw [(small_abscissa y).2.1]; constructor <;> linarith
    · refine ⟨e5, e6, fun y h0 h1 => ?_⟩
      have := quad_nonneg h0 h1
      rw [(small_abscissa y).2.2]; constructor <;> linarith
    · refine ⟨e7, e8, fun y h0 h1 => ?_⟩
      rw [d2_abscissa]; norm_num
  intro t ht
  obtain ⟨k1, k2, k3⟩ := key t ht
  constructor
  · refine fun _ _ => Or.inr (beside_strict (fun y h1 h2 h3 h4 => ?_))
    rw [k1] at h1; rw [k2] at h3
    rw [(big_abscissa y).1]
    have := k3 y h1 h3
    have := quad_big h1 h3
    linarith
  · refine fun _ _ => Or.inl (beside_strict (fun y h1 h2 h3 h4 => ?_))
    rw [k1] at h2; rw [k2] at h4
    rw [(big_abscissa y).2]
    have := k3 y h2 h4
    have := quad_big h2 h4
    linarith

theorem far_inner : ∀ s ∈ [s1, s2], ∀ t ∈ [d1, d2], Far s t := by
  simp only [List.mem_cons, List.not_mem_nil, or_false]
  have hs : ∀ s, s = s1 ∨ s = s2 → ∀ p ∈ sidePoints s, p.x ≤ 1 := by
    rintro s (rfl | rfl) p hp <;> simp only [s1, s2, bow, sidePoints, List.mem_cons, List.not_mem_nil, or_false] at hp <;>
      rcases hp with rfl | rfl | rfl | rfl <;> norm_num
  have ht : ∀ s, s = d1 ∨ s = d2 → ∀ p ∈ sidePoints s, 3 ≤ p.x := by
    rintro s (rfl | rfl) p hp <;> simp only [d1, d2, bow, sidePoints, List.mem_cons, List.not_mem_nil, or_false] at hp
    · rcases hp with rfl | rfl | rfl | rfl <;> norm_num
    · rcases hp with rfl | rfl <;> norm_num
  exact fun s h1 t h2 => Or.inl (fun p hp q hq => by linarith [hs s h1 p hp, ht t h2 q hq])

/-! ## and the library does not report that they do -/

theorem nearEnd_of {a : ℝ} (h0 : 0 < a) (h1 : a < 1) (h : a * (1 - a) ≤ 1 / 10000000) : NearEnd a := by
  rintro ⟨k1, k2⟩
  nlinarith [mul_pos (sub_pos.2 k1) (sub_pos.2 k2)]

theorem quiet_bows {x w y h x' w' y' h' M : ℝ} (hM : |w| ≤ M ∧ |w'| ≤ M ∧ |h / 3| ≤ M ∧ |h' / 3| ≤ M ∧ 0 ≤ M)
    (hs : bow x w y h ∈ [b1, b2, s1, s2, d1, d2]) (ht : bow x' w' y' h' ∈ [b1, b2, s1, s2, d1, d2])
    (hsep : ∀ a b : ℝ, 0 < a → a < 1 → 0 < b → b < 1 → |(x + 3 * w * a * (1 - a)) - (x' + 3 * w' * b * (1 - b))| ≤ 6 * M / 2 ^ 41 →
      |(y + a * h) - (y' + b * h')| ≤ 6 * M / 2 ^ 41 → NearEnd a ∧ NearEnd b) : NoReport (bow x w y h) (bow x' w' y' h') := by
  have step : ∀ x w y h, |w| ≤ M → |h / 3| ≤ M → CtrlStep (⟨⟨x, y⟩, ⟨x + w, y + h / 3⟩, ⟨x + w, y + 2 * h / 3⟩, ⟨x, y + h⟩⟩ : Cubic ℝ) M := by
    intro x w y h hw hh
    refine ⟨⟨by simpa using hw, by simpa using hM.2.2.2.2, by simpa using hw⟩, by simpa using hh, ?_, ?_⟩
    · rw [show y + 2 * h / 3 - (y + h / 3) = h / 3 by ring]; exact hh
    · rw [show y + h - (y + 2 * h / 3) = h / 3 by ring]; exact hh
  refine noReport_cubics (step x w y h hM.1 hM.2.2.1) (step x' w' y' h' hM.2.1 hM.2.2.2.1) (demo_doubles _ hs) (demo_doubles _ ht) ?_
  intro a b a0 a1 b0 b1 e1 e2
  have ea := bow_eval x w y h a
  have eb := bow_eval x' w' y' h' b
  simp only [bow, sidePoint] at ea eb
  rw [ea, eb] at e1 e2
  exact hsep a b a0 a1 b0 b1 e1 e2

theorem quiet_big : NoReport b1 b2 := by
  refine quiet_bows (M := 30) (by norm_num [abs_of_neg]) mem_b1 mem_b2 (fun a b a0 a1 b0 b1 e1 _ => ?_)
  rw [abs_le] at e1
  have ha := mul_pos a0 (sub_pos.2 a1)
  have hb := mul_pos b0 (sub_pos.2 b1)
  norm_num at e1
  exact ⟨nearEnd_of a0 a1 (by nlinarith), nearEnd_of b0 b1 (by nlinarith)⟩

theorem quiet_small : NoReport s1 s2 := by
  refine quiet_bows (M := 1) (by norm_num [abs_of_neg]) mem_s1 mem_s2 (fun a b a0 a1 b0 b1 e1 _ => ?_)
  rw [abs_le] at e1
  have ha := mul_pos a0 (sub_pos.2 a1)
  have hb := mul_pos b0 (sub_pos.2 b1)
  norm_num at e1
  exact ⟨nearEnd_of a0 a1 (by nlinarith), nearEnd_of b0 b1 (by nlinarith)⟩

theorem quiet_inner {x w y h : ℝ} (ht : bow x w y h ∈ [b1, b2, s1, s2, d1, d2]) (hh : y = 0 ∧ h = 3 ∨ y = 3 ∧ h = -3) (hw : w = 1 ∨ w = -1) (hx : x = 0 ∨ x = 3) :
    NoReport b1 (bow x w y h) ∧ NoReport b2 (bow x w y h) := by
  have hM : |w| ≤ 30 ∧ |h / 3| ≤ 30 := by
    constructor
    · rcases hw with rfl | rfl <;> norm_num
    · rcases hh with ⟨_, rfl⟩ | ⟨_, rfl⟩ <;> norm_num [abs_of_neg]
  have hx' : ∀ b : ℝ, 0 < b → b < 1 → -1 ≤ x + 3 * w * b * (1 - b) ∧ x + 3 * w * b * (1 - b) ≤ 4 := by
    intro b b0 b1
    have hb := mul_pos b0 (sub_pos.2 b1)
    have hb2 : b * (1 - b) ≤ 1 / 4 := by nlinarith [sq_nonneg (b - 1 / 2)]
    rcases hw with rfl | rfl <;> rcases hx with rfl | rfl <;> constructor <;> nlinarith
  have hy' : ∀ b : ℝ, 0 < b → b < 1 → 0 ≤ y + b * h ∧ y + b * h ≤ 3 := by
    intro b b0 b1
    rcases hh with ⟨rfl, rfl⟩ | ⟨rfl, rfl⟩ <;> constructor <;> linarith
  constructor
  · refine quiet_bows (M := 30) ⟨by norm_num, hM.1, by norm_num, hM.2, by norm_num⟩ mem_b1 ht (fun a b a0 a1 b0 b1 e1 e2 => ?_)
    exfalso
    obtain ⟨k1, k2⟩ := hx' b b0 b1
    obtain ⟨k3, k4⟩ := hy' b b0 b1
    generalize x + 3 * w * b * (1 - b) = X at *
    generalize y + b * h = Z at *
    rw [abs_le] at e1 e2
    norm_num at e1 e2
    have l1 : 2 / 5 ≤ a := by linarith
    have l2 : a ≤ 3 / 5 := by linarith
    nlinarith [mul_nonneg (sub_nonneg.2 l1) (sub_nonneg.2 l2)]
  · refine quiet_bows (M := 30) ⟨by norm_num [abs_of_neg], hM.1, by norm_num [abs_of_neg], hM.2, by norm_num⟩ mem_b2 ht (fun a b a0 a1 b0 b1 e1 e2 => ?_)
    exfalso
    obtain ⟨k1, k2⟩ := hx' b b0 b1
    obtain ⟨k3, k4⟩ := hy' b b0 b1
    generalize x + 3 * w * b * (1 - b) = X at *
    generalize y + b * h = Z at *
    rw [abs_le] at e1 e2
    norm_num at e1 e2
    have l1 : 2 / 5 ≤ a := by linarith
    have l2 : a ≤ 3 / 5 := by linarith
    nlinarith [mul_nonneg (sub_nonneg.2 l1) (sub_nonneg.2 l2)]

theorem d2_line {A B C : ℝ} (h : generalFrom (⟨3, 3⟩ : Vec2 ℝ) ⟨3, 0⟩ = (A, B, C)) : A = 1 ∧ B = 0 ∧ C = -3 := by
  unfold generalFrom at h
  have hne : Vec2.beq (⟨3, 3⟩ : Vec2 ℝ) ⟨3, 0⟩ = false := by
    rw [Bool.eq_false_iff]; intro hb
    have := congrArg Vec2.y ((Vec2.beq_iff _ _).1 hb)
    norm_num at this
  rw [hne] at h
  simp only [Bool.false_eq_true, if_false, eq_eq_decide, decide_true, if_true, exact_one, exact_zero, Exact.neg_eq, Prod.mk.injEq] at h
  exact ⟨h.1.symm, h.2.1.symm, h.2.2.symm⟩

theorem quiet_line {x w y h : ℝ} (hs : bow x w y h ∈ [b1, b2, s1, s2, d1, d2]) (hf : Fine (bow x w y h)) (hc : Clear2 (bow x w y h) d2)
    (h1 : Clear (3 * (x - 2 * (x + w) + (x + w)))) (h2 : Clear (3 * w * (3 * w) - 4 * (3 * (x - 2 * (x + w) + (x + w))) * (x - 3))) : NoReport (bow x w y h) d2 := by
  have hd := demo_doubles d2 (by simp)
  have := noReport_parabola (p := ⟨3, 3⟩) (q := ⟨3, 0⟩) (p0 := ⟨x, y⟩) (c1 := ⟨x + w, y + h / 3⟩) (c2 := ⟨x + w, y + 2 * h / 3⟩) (r := ⟨x, y + h⟩)
    fine_d2 hf (hd _ (by simp [d2, sidePoints])) (hd _ (by simp [d2, sidePoints])) hc.symm (by simp) (fun A B C hg => by
      obtain ⟨rfl, rfl, rfl⟩ := d2_line hg
      constructor
      · rw [mul_one]; exact h1
      · convert h2 using 1; ring)
  exact this

theorem demo_nonCrossing : NonCrossing ([bigLens] ++ [smallLens, dee]) := by
  refine ⟨?_, ?_, ?_, ?_, ?_, ?_, ?_, ?_⟩
  · simp only [List.mem_append, List.mem_cons, List.not_mem_nil, or_false]
    rintro l (rfl | rfl | rfl)
    · exact ⟨b2.2, rfl, by simp [b2, bow, bigLens, Seg.target]; norm_num⟩
    · exact ⟨s2.2, rfl, by simp [s2, bow, smallLens, Seg.target]⟩
    · exact ⟨d2.2, rfl, by simp [d2, dee, Seg.target]⟩
  · rw [demo_sides]; exact demo_range
  · rw [demo_sides]; exact fun s hs => (demo_fine s hs).steep
  · rw [demo_sides]; exact fun s hs => (demo_fine s hs).tall
  · rw [demo_sides]; exact fun s hs => (demo_fine s hs).even
  · rw [demo_sides]
    have hfar : ∀ s ∈ [s1, s2], ∀ t ∈ [d1, d2], Clear2 s t := by
      intro s hs t ht
      refine far_clear (demo_fine s ?_).steep (demo_fine t ?_).steep (far_inner s hs t ht)
      · simp only [List.mem_cons, List.not_mem_nil, or_false] at hs ⊢; tauto
      · simp only [List.mem_cons, List.not_mem_nil, or_false] at ht ⊢; tauto
    refine List.Pairwise.cons ?_ (List.Pairwise.cons ?_ (List.Pairwise.cons ?_ (List.Pairwise.cons ?_ (List.Pairwise.cons ?_ (List.Pairwise.cons ?_ List.Pairwise.nil)))))
    · intro t ht
      rcases List.mem_cons.1 ht with rfl | ht
      · exact clear_big
      · exact (clear_inner t ht).1
    · exact fun t ht => (clear_inner t ht).2
    · intro t ht
      rcases List.mem_cons.1 ht with rfl | ht
      · exact clear_small
      · exact hfar s1 (by simp) t ht
    · exact fun t ht => hfar s2 (by simp) t ht
    · intro t ht
      rw [List.mem_singleton.1 ht]; exact clear_dee
    · simp
  · rw [demo_sides]
    have hb : ∀ {t}, t ∈ [s1, s2, d1, d2] → (Far b1 t ∨ NoReport b1 t) ∧ (Far b2 t ∨ NoReport b2 t) := by
      intro t ht
      simp only [List.mem_cons, List.not_mem_nil, or_false] at ht
      rcases ht with rfl | rfl | rfl | rfl
      · have := quiet_inner (x := 0) (w := 1) (y := 0) (h := 3) mem_s1 (by simp) (by simp) (by simp)
        exact ⟨Or.inr this.1, Or.inr this.2⟩
      · have := quiet_inner (x := 0) (w := -1) (y := 3) (h := -3) mem_s2 (by simp) (by simp) (by simp)
        exact ⟨Or.inr this.1, Or.inr this.2⟩
      · have := quiet_inner (x := 3) (w := 1) (y := 0) (h := 3) mem_d1 (by simp) (by simp) (by simp)
        exact ⟨Or.inr this.1, Or.inr this.2⟩
      · exact ⟨Or.inr (quiet_line mem_b1 fine_b1 (clear_inner d2 (by simp)).1 (Or.inr (by norm_num [abs_of_neg])) (Or.inr (by norm_num))),
          Or.inr (quiet_line mem_b2 fine_b2 (clear_inner d2 (by simp)).2 (Or.inr (by norm_num)) (Or.inr (by norm_num)))⟩
    refine List.Pairwise.cons ?_ (List.Pairwise.cons ?_ (List.Pairwise.cons ?_ (List.Pairwise.cons ?_ (List.Pairwise.cons ?_ (List.Pairwise.cons ?_ List.Pairwise.nil)))))
    · intro t ht
      rcases List.mem_cons.1 ht with rfl | ht
      · exact Or.inr quiet_big
      · exact (hb ht).1
    · exact fun t ht => (hb ht).2
    · intro t ht
      rcases List.mem_cons.1 ht with rfl | ht
      · exact Or.inr quiet_small
      · exact Or.inl (far_inner s1 (by simp) t ht)
    · exact fun t ht => Or.inl (far_inner s2 (by simp) t ht)
    · intro t ht
      rw [List.mem_singleton.1 ht]
      exact Or.inr (quiet_line mem_d1 fine_d1 clear_dee (Or.inr (by norm_num [abs_of_neg])) (Or.inr (by norm_num)))
    · simp
  · rw [demo_sides]
    obtain ⟨f1, f2, f3, f4, f5, f6⟩ := demo_feet
    simp only [List.mem_cons, List.not_mem_nil, or_false]
    rintro s (rfl | rfl | rfl | rfl | rfl | rfl) t (rfl | rfl | rfl | rfl | rfl | rfl) u (rfl | rfl | rfl | rfl | rfl | rfl) <;>
      simp [f1, f2, f3, f4, f5, f6]

/-- The point `(1/2, 3/2)` is in all of the big and the small lens, `(2, 3/2)` only in the big one. -/
theorem demo_points_in : InLoops [bigLens] [smallLens, dee] .intersection .positive (1 / 2) (3 / 2) ∧
    ¬ InLoops [bigLens] [smallLens, dee] .intersection .positive 2 (3 / 2) := by
  have hb : [bigLens].flatMap Loop.sides = [b1, b2] := by
    simp only [bigLens, Loop.sides, List.flatMap_cons, List.flatMap_nil, chain, b1, b2, bow, Seg.target]
    norm_num
  have hc : [smallLens, dee].flatMap Loop.sides = [s1, s2, d1, d2] := by
    simp only [smallLens, dee, Loop.sides, List.cons_append, List.nil_append, List.flatMap_cons, List.flatMap_nil, chain, s1, s2, d1, d2, bow, Seg.target]
    norm_num
  unfold InLoops loopWinding sidesWinding
  rw [hb, hc]
  simp only [List.map_cons, List.map_nil, List.sum_cons, List.sum_nil, curveWinding, (big_abscissa _).1, (big_abscissa _).2, (small_abscissa _).1,
    (small_abscissa _).2.1, (small_abscissa _).2.2, d2_abscissa]
  simp only [b1, b2, s1, s2, d1, d2, bow, Seg.target]
  norm_num [ClipType.op, FillRule.inside]

/-- `process_curved` applies to the three contours: the intersection of the big lens with the small lens and the D, with the positive rule. -/
theorem demo_intersection (env : Env ℝ) (hok : env.Ok) (msort : List (LocMin ℝ) → List (LocMin ℝ)) (hm : MinSort msort) :
    ∃ c1 c2 : Clipper ℝ, (Clipper.new (K := ℝ)).addPath [Path.build bigLens.cmds] .subject = some c1 ∧
      c1.addPath [Path.build smallLens.cmds, Path.build dee.cmds] .clip = some c2 ∧
      ∃ n, ∀ fuel, n ≤ fuel → ∃ (c' : Clipper ℝ) (out : List (Loop ℝ)),
        c2.process env msort fuel .intersection .positive Path.recorder [] = some (some (c', out.flatMap (fun l => eventsFrom zeroPt l.cmds))) ∧
        (∀ l ∈ out, l.Closed) ∧ loopWinding out (1 / 2) (3 / 2) = 1 ∧ loopWinding out 2 (3 / 2) = 0 := by
  obtain ⟨c1, c2, h1, h2, n, h3⟩ := process_curved env hok msort hm [bigLens] [smallLens, dee] demo_nonCrossing .intersection .positive 1 (Or.inl rfl)
    (loops_positive _ _ _ (Or.inr rfl))
  refine ⟨c1, c2, h1, h2, n, fun fuel hf => ?_⟩
  obtain ⟨c', out, e1, e2, _, e4⟩ := h3 fuel hf
  refine ⟨c', out, e1, e2, ?_, ?_⟩
  · rw [e4, if_pos demo_points_in.1]
  · rw [e4, if_neg demo_points_in.2]

end River.CurvedDemo
