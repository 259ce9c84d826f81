import Verif.Props.UprightCrossReal
import Verif.Props.UprightDemo

/-! # C82: a concrete case with a curve whose height is a cubic polynomial

The first contour of `UprightDemo.lean`, and a quadrilateral; one side of the quadrilateral cuts the curve twice. -/

namespace River.Upright

attribute [local instance 10000] FTrans.toFNum

noncomputable def b1 : Vec2 ℝ × Seg ℝ := (⟨9 / 16, 5⟩, .line ⟨9 / 16, -1⟩)
noncomputable def b2 : Vec2 ℝ × Seg ℝ := (⟨9 / 16, -1⟩, .line ⟨5, -2⟩)
noncomputable def b3 : Vec2 ℝ × Seg ℝ := (⟨5, -2⟩, .line ⟨5, 6⟩)
noncomputable def b4 : Vec2 ℝ × Seg ℝ := (⟨5, 6⟩, .line ⟨9 / 16, 5⟩)

noncomputable def frame : Loop ℝ := ⟨⟨9 / 16, 5⟩, [b1.2, b2.2, b3.2, b4.2]⟩

theorem b1_point (r : ℝ) : sidePoint b1 r = ⟨9 / 16, 5 - 6 * r⟩ := by
  simp only [b1, sidePoint, lerp, Vec2.mk.injEq]; constructor <;> ring
theorem b2_point (r : ℝ) : sidePoint b2 r = ⟨9 / 16 + 71 / 16 * r, -1 - r⟩ := by
  simp only [b2, sidePoint, lerp, Vec2.mk.injEq]; constructor <;> ring
theorem b3_point (r : ℝ) : sidePoint b3 r = ⟨5, -2 + 8 * r⟩ := by
  simp only [b3, sidePoint, lerp, Vec2.mk.injEq]; constructor <;> ring
theorem b4_point (r : ℝ) : sidePoint b4 r = ⟨5 - 71 / 16 * r, 6 - r⟩ := by
  simp only [b4, sidePoint, lerp, Vec2.mk.injEq]; constructor <;> ring

theorem cut_sides : ([dee1] ++ [frame]).flatMap Loop.sides = [s1, s2, b1, b2, b3, b4] := rfl

theorem cut_fine : ∀ s ∈ [s1, s2, b1, b2, b3, b4], Fine s := by
  simp only [List.mem_cons, List.not_mem_nil, or_false]
  rintro s (rfl | rfl | rfl | rfl | rfl | rfl)
  · exact fine_s1
  all_goals exact fine_line (by norm_num [s2, b1, b2, b3, b4])

theorem cut_range : ∀ s ∈ [s1, s2, b1, b2, b3, b4], ∀ p ∈ sidePoints s, -(dblMax : ℝ) ≤ p.x ∧ p.x ≤ dblMax ∧ -(dblMax : ℝ) < p.y ∧ p.y ≤ dblMax := by
  have key : ∀ s ∈ [s1, s2, b1, b2, b3, b4], ∀ p ∈ sidePoints s, -10 ≤ p.x ∧ p.x ≤ 10 ∧ -10 ≤ p.y ∧ p.y ≤ 10 := by
    simp only [List.mem_cons, List.not_mem_nil, or_false]
    rintro s (rfl | rfl | rfl | rfl | rfl | rfl) p hp <;>
      simp only [s1, s2, b1, b2, b3, b4, sidePoints, List.mem_cons, List.not_mem_nil, or_false] at hp
    · rcases hp with rfl | rfl | rfl | rfl <;> norm_num
    all_goals rcases hp with rfl | rfl <;> norm_num
  intro s hs p hp
  obtain ⟨h1, h2, h3, h4⟩ := key s hs p hp
  have := CurvedDemo.demo_max
  exact ⟨by linarith, by linarith, by linarith, by linarith⟩

theorem cut_doubles : ∀ s ∈ [s1, s2, b1, b2, b3, b4], ∀ p ∈ sidePoints s, InDoubles p := by
  intro s hs p hp
  obtain ⟨h1, h2, h3, h4⟩ := cut_range s hs p hp
  exact ⟨h1, h2, h3.le, h4⟩

/-! ## common points -/

theorem meet_s1_s2 {a b : ℝ} (h : Meet2 s1 s2 a b) : (a = 0 ∧ b = 1) ∨ (a = 1 ∧ b = 0) := by
  obtain ⟨_, _, _, _, e⟩ := h
  rw [s1_point, s2_point, Vec2.mk.injEq] at e
  have : a * (1 - a) = 0 := by linarith
  rcases mul_eq_zero.1 this with h | h
  · left; rw [h] at e; exact ⟨h, by linarith⟩
  · have ha : a = 1 := by linarith
    right; rw [ha] at e; exact ⟨ha, by linarith⟩

theorem meet_s1_b1 {a b : ℝ} (h : Meet2 s1 b1 a b) : (a = 1 / 4 ∧ b = 271 / 384) ∨ (a = 3 / 4 ∧ b = 149 / 384) := by
  obtain ⟨_, _, _, _, e⟩ := h
  rw [s1_point, b1_point, Vec2.mk.injEq] at e
  have : (a - 1 / 4) * (a - 3 / 4) = 0 := by linarith
  rcases mul_eq_zero.1 this with h | h
  · have ha : a = 1 / 4 := by linarith
    left; rw [ha] at e; exact ⟨ha, by linarith⟩
  · have ha : a = 3 / 4 := by linarith
    right; rw [ha] at e; exact ⟨ha, by linarith⟩

theorem s1_within {a : ℝ} (h0 : 0 ≤ a) (h1 : a ≤ 1) : 0 ≤ (sidePoint s1 a).x ∧ (sidePoint s1 a).x ≤ 3 / 4 ∧ 0 ≤ (sidePoint s1 a).y ∧ (sidePoint s1 a).y ≤ 4 := by
  rw [s1_point]
  have h2 : a ^ 2 ≤ 1 := pow_le_one₀ h0 h1
  have h3 : a ^ 3 ≤ 1 := pow_le_one₀ h0 h1
  have h4 : 0 ≤ a ^ 3 := pow_nonneg h0 3
  refine ⟨?_, ?_, ?_, ?_⟩ <;> simp only
  · nlinarith
  · nlinarith [sq_nonneg (a - 1 / 2)]
  · linarith
  · linarith

theorem s2_within {a : ℝ} (h0 : 0 ≤ a) (h1 : a ≤ 1) : (sidePoint s2 a).x = 0 ∧ 0 ≤ (sidePoint s2 a).y ∧ (sidePoint s2 a).y ≤ 4 := by
  rw [s2_point]
  refine ⟨rfl, ?_, ?_⟩ <;> simp only <;> linarith

/-- Outside of the rectangle that contains the first contour. -/
theorem outside {t : Vec2 ℝ × Seg ℝ} (ht : t = b2 ∨ t = b3 ∨ t = b4) {b : ℝ} (h0 : 0 ≤ b) (h1 : b ≤ 1) :
    (sidePoint t b).y < 0 ∨ 4 < (sidePoint t b).y ∨ 3 / 4 < (sidePoint t b).x := by
  rcases ht with rfl | rfl | rfl
  · left; rw [b2_point]; simp only; linarith
  · right; right; rw [b3_point]; norm_num
  · right; left; rw [b4_point]; simp only; linarith

theorem meet_s_out {s t : Vec2 ℝ × Seg ℝ} (hs : s = s1 ∨ s = s2) (ht : t = b2 ∨ t = b3 ∨ t = b4) {a b : ℝ} : ¬ Meet2 s t a b := by
  rintro ⟨a0, a1, b0, b1, e⟩
  have hb := outside ht b0 b1
  rw [← e] at hb
  rcases hs with rfl | rfl
  · obtain ⟨k1, k2, k3, k4⟩ := s1_within a0 a1
    rcases hb with h | h | h <;> linarith
  · obtain ⟨k1, k2, k3⟩ := s2_within a0 a1
    rw [k1] at hb
    rcases hb with h | h | h
    · linarith
    · linarith
    · norm_num at h

theorem meet_s2_b1 {a b : ℝ} : ¬ Meet2 s2 b1 a b := by
  rintro ⟨a0, a1, b0, b1, e⟩
  rw [s2_point, b1_point, Vec2.mk.injEq] at e
  norm_num at e

theorem meet_b {a b : ℝ} : (Meet2 b1 b2 a b → a = 1 ∧ b = 0) ∧ ¬ Meet2 b1 b3 a b ∧ (Meet2 b1 b4 a b → a = 0 ∧ b = 1) ∧ (Meet2 b2 b3 a b → a = 1 ∧ b = 0) ∧
    ¬ Meet2 b2 b4 a b ∧ (Meet2 b3 b4 a b → a = 1 ∧ b = 0) := by
  refine ⟨?_, ?_, ?_, ?_, ?_, ?_⟩ <;> rintro ⟨a0, a1, b0, b1, e⟩ <;>
    simp only [b1_point, b2_point, b3_point, b4_point, Vec2.mk.injEq] at e <;> obtain ⟨e1, e2⟩ := e
  · constructor <;> linarith
  · norm_num at e1
  · constructor <;> linarith
  · constructor <;> linarith
  · linarith
  · constructor <;> linarith

theorem s1_stops {a : ℝ} (h : Stop [s1, s2, b1, b2, b3, b4] s1 a) : a = 0 ∨ a = 1 ∨ a = 1 / 4 ∨ a = 3 / 4 := by
  rcases h with h | h | ⟨t, ht, hne, b, hm⟩
  · exact Or.inl h
  · exact Or.inr (Or.inl h)
  · simp only [List.mem_cons, List.not_mem_nil, or_false] at ht
    rcases ht with rfl | rfl | rfl | ht
    · exact absurd rfl hne
    · rcases meet_s1_s2 hm with h | h
      · exact Or.inl h.1
      · exact Or.inr (Or.inl h.1)
    · rcases meet_s1_b1 hm with h | h
      · exact Or.inr (Or.inr (Or.inl h.1))
      · exact Or.inr (Or.inr (Or.inr h.1))
    · exact absurd hm (meet_s_out (Or.inl rfl) ht)

theorem pos_clear {a : ℝ} (h : a = 0 ∨ a = 1 ∨ (1 / 4 ≤ a ∧ a ≤ 3 / 4)) : ClearPos a := by
  rcases h with rfl | rfl | ⟨h1, h2⟩
  · exact Or.inl rfl
  · exact Or.inr (Or.inl rfl)
  · exact Or.inr (Or.inr ⟨by linarith, by linarith⟩)

/-! ## the library's functions -/

theorem cut_parts {a b : ℝ} (ha : Stop [s1, s2, b1, b2, b3, b4] s1 a) (hb : Stop [s1, s2, b1, b2, b3, b4] s1 b) {w : Vec2 ℝ × Seg ℝ} (h : IsPart s1 w a b) :
    Fine w := by
  have hab : 1 / 4 ≤ b - a := by
    have := h.lt
    rcases s1_stops ha with rfl | rfl | rfl | rfl <;> rcases s1_stops hb with rfl | rfl | rfl | rfl <;>
      first | (exfalso; norm_num at this; done) | norm_num
  have h3 : (1 / 4) ^ 3 ≤ (b - a) ^ 3 := pow_le_pow_left₀ (by norm_num) hab 3
  refine fine_part_cubic h ?_ ?_
  · norm_num [htA]
    norm_num at h3
    linarith
  · norm_num [htA, htB, htC, depP]

theorem cut_boxed (r : ℝ) (h0 : 0 ≤ r) (h1 : r ≤ 1) : (s1.2.boundary s1.1).Mem (sidePoint s1 r) := by
  refine boxed_exact (cut_doubles s1 (by simp)) ?_ ?_ r h0 h1
  · refine ⟨Or.inl ?_, fun _ => Or.inr ?_⟩ <;> simp only [Cubic.cA, Cubic.cB, dA, dB] <;> norm_num [abs_of_neg]
  · refine ⟨Or.inr ?_, fun h => ?_⟩
    · simp only [Cubic.cA, dA]; norm_num
    · simp only [Cubic.cA, dA] at h; norm_num at h

/-- A vertical line and the curve. -/
theorem truthful_vertical {x y y' : ℝ} (hy : y ≠ y') (hp : InDoubles (⟨x, y⟩ : Vec2 ℝ)) (hq : InDoubles (⟨x, y'⟩ : Vec2 ℝ))
    (hk : 1 / 100000000 ≤ 9 - 12 * x) : Truthful s1 (⟨x, y⟩, .line ⟨x, y'⟩) := by
  refine Truthful.symm (truthful_line hy hp hq (fun A B C hg => Or.inl ?_))
  obtain ⟨rfl, rfl, rfl⟩ := vertical_line hy hg
  refine ⟨?_, Or.inr ?_, ?_, Or.inr ?_⟩
  · norm_num [hitA, htA]
  · norm_num [hitB, htB, abs_of_neg]
  · norm_num [hitB, htB]
  · have : hitC 1 0 ⟨0, 0⟩ ⟨1, 1⟩ * hitC 1 0 ⟨0, 0⟩ ⟨1, 1⟩ - 4 * hitB 1 0 ⟨0, 0⟩ ⟨1, 1⟩ ⟨1, 2⟩ * (1 * (0 : ℝ) + 0 * 0 + -x) = 9 - 12 * x := by
      norm_num [hitC, hitB, htB, htC]
    rw [this, abs_of_pos (by linarith)]
    exact hk

theorem far_out {s t : Vec2 ℝ × Seg ℝ} (hs : s = s1) (ht : t = b2 ∨ t = b3 ∨ t = b4) : Far s t := by
  subst hs
  rcases ht with rfl | rfl | rfl
  · right; right; right
    simp only [s1, b2, sidePoints, List.mem_cons, List.not_mem_nil, or_false]
    rintro p (rfl | rfl | rfl | rfl) q (rfl | rfl) <;> norm_num
  · left
    simp only [s1, b3, sidePoints, List.mem_cons, List.not_mem_nil, or_false]
    rintro p (rfl | rfl | rfl | rfl) q (rfl | rfl) <;> norm_num
  · right; right; left
    simp only [s1, b4, sidePoints, List.mem_cons, List.not_mem_nil, or_false]
    rintro p (rfl | rfl | rfl | rfl) q (rfl | rfl) <;> norm_num

/-- No point lies on three sides. -/
theorem cut_triple {s t u : Vec2 ℝ × Seg ℝ} (hs : s ∈ [s1, s2, b1, b2, b3, b4]) (ht : t ∈ [s1, s2, b1, b2, b3, b4]) (hu : u ∈ [s1, s2, b1, b2, b3, b4])
    {a b c : ℝ} (h1 : Meet2 s t a b) (h2 : Meet2 t u b c) : s = t ∨ s = u ∨ t = u := by
  have h3 : Meet2 s u a c := ⟨h1.1, h1.2.1, h2.2.2.1, h2.2.2.2.1, h1.2.2.2.2.trans h2.2.2.2.2⟩
  -- which sides meet which
  have key : ∀ s ∈ [s1, s2, b1, b2, b3, b4], ∀ t ∈ [s1, s2, b1, b2, b3, b4], ∀ a b, Meet2 s t a b →
      s = t ∨ (s = s1 ∧ t = s2) ∨ (s = s2 ∧ t = s1) ∨ (s = s1 ∧ t = b1) ∨ (s = b1 ∧ t = s1) ∨ (s = b1 ∧ t = b2) ∨ (s = b2 ∧ t = b1) ∨ (s = b1 ∧ t = b4) ∨ (s = b4 ∧ t = b1) ∨
        (s = b2 ∧ t = b3) ∨ (s = b3 ∧ t = b2) ∨ (s = b3 ∧ t = b4) ∨ (s = b4 ∧ t = b3) := by
    intro s hs t ht a b hm
    simp only [List.mem_cons, List.not_mem_nil, or_false] at hs ht
    rcases hs with rfl | rfl | rfl | rfl | rfl | rfl <;> rcases ht with rfl | rfl | rfl | rfl | rfl | rfl <;>
      first
      | (simp; done)
      | exact absurd hm (meet_s_out (Or.inl rfl) (by simp))
      | exact absurd hm (meet_s_out (Or.inr rfl) (by simp))
      | exact absurd hm.symm (meet_s_out (Or.inl rfl) (by simp))
      | exact absurd hm.symm (meet_s_out (Or.inr rfl) (by simp))
      | exact absurd hm meet_s2_b1
      | exact absurd hm.symm meet_s2_b1
      | exact absurd hm meet_b.2.1
      | exact absurd hm.symm meet_b.2.1
      | exact absurd hm meet_b.2.2.2.2.1
      | exact absurd hm.symm meet_b.2.2.2.2.1
  have k1 := key s hs t ht a b h1
  have k2 := key t ht u hu b c h2
  have k3 := key s hs u hu a c h3
  have d : s1 ≠ s2 ∧ s1 ≠ b1 ∧ s1 ≠ b2 ∧ s1 ≠ b3 ∧ s1 ≠ b4 ∧ s2 ≠ b1 ∧ s2 ≠ b2 ∧ s2 ≠ b3 ∧ s2 ≠ b4 ∧ b1 ≠ b2 ∧ b1 ≠ b3 ∧ b1 ≠ b4 ∧ b2 ≠ b3 ∧ b2 ≠ b4 ∧ b3 ≠ b4 := by
    simp only [s1, s2, b1, b2, b3, b4, ne_eq, Prod.mk.injEq, Vec2.mk.injEq, reduceCtorEq, and_false, not_false_eq_true, true_and]
    norm_num
  generalize s1 = s1 at *
  generalize s2 = s2 at *
  generalize b1 = b1 at *
  generalize b2 = b2 at *
  generalize b3 = b3 at *
  generalize b4 = b4 at *
  clear key h1 h2 h3 hs ht hu
  obtain ⟨d1, d2, d3, d4, d5, d6, d7, d8, d9, d10, d11, d12, d13, d14, d15⟩ := d
  rcases k1 with k | ⟨rfl, rfl⟩ | ⟨rfl, rfl⟩ | ⟨rfl, rfl⟩ | ⟨rfl, rfl⟩ | ⟨rfl, rfl⟩ | ⟨rfl, rfl⟩ | ⟨rfl, rfl⟩ | ⟨rfl, rfl⟩ | ⟨rfl, rfl⟩ | ⟨rfl, rfl⟩ | ⟨rfl, rfl⟩ | ⟨rfl, rfl⟩
  · exact Or.inl k
  all_goals grind (splits := 40)

theorem cut_crossing : CrossingLoops ([dee1] ++ [frame]) := by
  refine ⟨?_, ?_, ?_, ?_, ?_, ?_, ?_, ?_, ?_⟩
  · simp only [List.mem_append, List.mem_cons, List.not_mem_nil, or_false]
    rintro l (rfl | rfl)
    · exact ⟨s2.2, rfl, rfl⟩
    · exact ⟨b4.2, rfl, rfl⟩
  · rw [cut_sides]; exact cut_range
  · rw [cut_sides]; exact fun s hs => (cut_fine s hs).runs
  · rw [cut_sides]; exact fun s hs => (cut_fine s hs).traced
  · rw [cut_sides]
    intro s hs a b ha hb _ w hw
    simp only [List.mem_cons, List.not_mem_nil, or_false] at hs
    have lines : ∀ p q, s = (p, Seg.line q) → Traced w := by
      rintro p q rfl
      obtain ⟨p', g⟩ := w
      cases g with
      | line q' => trivial
      | cubic c1 c2 q' => have := hw.kind; simp [Seg.isCubic] at this
    rcases hs with rfl | rfl | rfl | rfl | rfl | rfl
    · exact (cut_parts ha hb hw).traced
    all_goals exact lines _ _ rfl
  · rw [cut_sides]
    simp only [List.mem_cons, List.not_mem_nil, or_false]
    rintro s (rfl | rfl | rfl | rfl | rfl | rfl) hc r h0 h1
    · exact cut_boxed r h0 h1
    all_goals simp [s2, b1, b2, b3, b4, Seg.isCubic] at hc
  · rw [cut_sides]
    have two : ∀ {a b : ℝ}, a = 1 ∧ b = 0 → ClearPos a ∧ ClearPos b := fun h => ⟨pos_clear (by simp [h.1]), pos_clear (by simp [h.2])⟩
    have two' : ∀ {a b : ℝ}, a = 0 ∧ b = 1 → ClearPos a ∧ ClearPos b := fun h => ⟨pos_clear (by simp [h.1]), pos_clear (by simp [h.2])⟩
    refine List.Pairwise.cons ?_ (List.Pairwise.cons ?_ (List.Pairwise.cons ?_ (List.Pairwise.cons ?_ (List.Pairwise.cons ?_ (List.Pairwise.cons ?_ List.Pairwise.nil)))))
    · simp only [List.mem_cons, List.not_mem_nil, or_false]
      rintro t (rfl | rfl | ht) a b hm
      · rcases meet_s1_s2 hm with h | h
        · exact two' h
        · exact two h
      · rcases meet_s1_b1 hm with h | h
        · exact ⟨pos_clear (Or.inr (Or.inr (by rw [h.1]; norm_num))), pos_clear (Or.inr (Or.inr (by rw [h.2]; norm_num)))⟩
        · exact ⟨pos_clear (Or.inr (Or.inr (by rw [h.1]; norm_num))), pos_clear (Or.inr (Or.inr (by rw [h.2]; norm_num)))⟩
      · exact absurd hm (meet_s_out (Or.inl rfl) ht)
    · simp only [List.mem_cons, List.not_mem_nil, or_false]
      rintro t (rfl | ht) a b hm
      · exact absurd hm meet_s2_b1
      · exact absurd hm (meet_s_out (Or.inr rfl) ht)
    · simp only [List.mem_cons, List.not_mem_nil, or_false]
      rintro t (rfl | rfl | rfl) a b hm
      · exact two (meet_b.1 hm)
      · exact absurd hm meet_b.2.1
      · exact two' (meet_b.2.2.1 hm)
    · simp only [List.mem_cons, List.not_mem_nil, or_false]
      rintro t (rfl | rfl) a b hm
      · exact two (meet_b.2.2.2.1 hm)
      · exact absurd hm meet_b.2.2.2.2.1
    · simp only [List.mem_cons, List.not_mem_nil, or_false]
      rintro t rfl a b hm
      exact two (meet_b.2.2.2.2.2 hm)
    · simp
  · rw [cut_sides]
    have hd2 := cut_doubles s2 (by simp)
    have hd3 := cut_doubles b1 (by simp)
    refine List.Pairwise.cons ?_ (List.Pairwise.cons ?_ (List.Pairwise.cons ?_ (List.Pairwise.cons ?_ (List.Pairwise.cons ?_ (List.Pairwise.cons ?_ List.Pairwise.nil)))))
    · simp only [List.mem_cons, List.not_mem_nil, or_false]
      rintro t (rfl | rfl | ht)
      · exact Or.inr (truthful_vertical (by norm_num) (hd2 _ (by simp [s2, sidePoints])) (hd2 _ (by simp [s2, sidePoints])) (by norm_num))
      · exact Or.inr (truthful_vertical (by norm_num) (hd3 _ (by simp [b1, sidePoints])) (hd3 _ (by simp [b1, sidePoints])) (by norm_num))
      · exact Or.inl (far_out rfl ht)
    · simp only [List.mem_cons, List.not_mem_nil, or_false]
      rintro t (rfl | rfl | rfl | rfl) <;> exact Or.inr trivial
    · simp only [List.mem_cons, List.not_mem_nil, or_false]
      rintro t (rfl | rfl | rfl) <;> exact Or.inr trivial
    · simp only [List.mem_cons, List.not_mem_nil, or_false]
      rintro t (rfl | rfl) <;> exact Or.inr trivial
    · simp only [List.mem_cons, List.not_mem_nil, or_false]
      rintro t rfl; exact Or.inr trivial
    · simp
  · rw [cut_sides]
    intro s hs t ht u hu a b c h1 h2 _ _ _
    exact cut_triple hs ht hu h1 h2

/-- At the height `13/8` the point with abscissa `2/3` is in both contours, `1/4` only in the first one, `1` only in the second one. -/
theorem cut_points : InLoops [dee1] [frame] .intersection .positive (2 / 3) (13 / 8) ∧ ¬ InLoops [dee1] [frame] .intersection .positive (1 / 4) (13 / 8) ∧
    ¬ InLoops [dee1] [frame] .intersection .positive 1 (13 / 8) := by
  have hs1 : ∀ r : ℝ, 0 ≤ r → r ^ 3 + 3 * r = 13 / 8 → r = 1 / 2 := by
    intro r r0 h
    have : (r - 1 / 2) * (r ^ 2 + r / 2 + 13 / 4) = 0 := by linear_combination h
    rcases mul_eq_zero.1 this with h | h
    · linarith
    · nlinarith
  have e1 : [dee1].flatMap Loop.sides = [s1, s2] := rfl
  have e2 : [frame].flatMap Loop.sides = [b1, b2, b3, b4] := rfl
  have c1 : ∀ X, LeftAt X (13 / 8) s1 ↔ 3 / 4 < X := by
    intro X
    constructor
    · rintro ⟨r, r0, r1, e, h⟩
      rw [s1_point] at e h
      rw [hs1 r r0 e] at h
      norm_num at h
      exact h
    · exact fun h => ⟨1 / 2, by norm_num, by norm_num, by rw [s1_point]; norm_num, by rw [s1_point]; norm_num; exact h⟩
  have c2 : ∀ X, LeftAt X (13 / 8) s2 ↔ 0 < X := by
    intro X
    constructor
    · rintro ⟨r, r0, r1, e, h⟩
      rw [s2_point] at h; exact h
    · exact fun h => ⟨19 / 32, by norm_num, by norm_num, by rw [s2_point]; norm_num, by rw [s2_point]; exact h⟩
  have c3 : ∀ X, LeftAt X (13 / 8) b1 ↔ 9 / 16 < X := by
    intro X
    constructor
    · rintro ⟨r, r0, r1, e, h⟩
      rw [b1_point] at h; exact h
    · exact fun h => ⟨9 / 16, by norm_num, by norm_num, by rw [b1_point]; norm_num, by rw [b1_point]; exact h⟩
  have c4 : ∀ X, LeftAt X (13 / 8) b3 ↔ 5 < X := by
    intro X
    constructor
    · rintro ⟨r, r0, r1, e, h⟩
      rw [b3_point] at h; exact h
    · exact fun h => ⟨29 / 64, by norm_num, by norm_num, by rw [b3_point]; norm_num, by rw [b3_point]; exact h⟩
  have z2 : ∀ X, curveWinding X (13 / 8) b2 = 0 := by
    intro X
    unfold curveWinding
    rw [if_neg (show ¬ (b2.2.target.y ≤ 13 / 8 ∧ 13 / 8 < b2.1.y) by norm_num [b2, Seg.target]),
      if_neg (show ¬ (b2.1.y ≤ 13 / 8 ∧ 13 / 8 < b2.2.target.y) by norm_num [b2, Seg.target]), ite_self]
  have z4 : ∀ X, curveWinding X (13 / 8) b4 = 0 := by
    intro X
    unfold curveWinding
    rw [if_neg (show ¬ (b4.2.target.y ≤ 13 / 8 ∧ 13 / 8 < b4.1.y) by norm_num [b4, Seg.target]),
      if_neg (show ¬ (b4.1.y ≤ 13 / 8 ∧ 13 / 8 < b4.2.target.y) by norm_num [b4, Seg.target]), ite_self]
  unfold InLoops loopWinding sidesWinding
  rw [e1, e2]
  simp only [List.map_cons, List.map_nil, List.sum_cons, List.sum_nil, z2, z4]
  simp only [curveWinding, c1, c2, c3, c4]
  simp only [s1, s2, b1, b3, Seg.target]
  norm_num [ClipType.op, FillRule.inside]

/-- `process_upright_crossing` applies: the intersection of the two contours with the positive rule. -/
theorem cut_intersection (env : Env ℝ) (hok : env.Ok) (msort : List (LocMin ℝ) → List (LocMin ℝ)) (hm : MinSort msort) :
    ∃ c1 c2 : Clipper ℝ, (Clipper.new (K := ℝ)).addPath [Path.build dee1.cmds] .subject = some c1 ∧
      c1.addPath [Path.build frame.cmds] .clip = some c2 ∧
      ∃ n, ∀ fuel, n ≤ fuel → ∃ (c' : Clipper ℝ) (out : List (Loop ℝ)),
        c2.process env msort fuel .intersection .positive Path.recorder [] = some (some (c', out.flatMap (fun l => eventsFrom zeroPt l.cmds))) ∧
        (∀ l ∈ out, l.Closed) ∧ loopWinding out (2 / 3) (13 / 8) = 1 ∧ loopWinding out (1 / 4) (13 / 8) = 0 ∧ loopWinding out 1 (13 / 8) = 0 := by
  obtain ⟨c1, c2, h1, h2, n, h3⟩ := process_upright_crossing env hok msort hm [dee1] [frame] cut_crossing .intersection .positive 1 (Or.inl rfl)
    (loops_positive _ _ _ (Or.inr rfl))
  refine ⟨c1, c2, h1, h2, n, fun fuel hf => ?_⟩
  obtain ⟨c', out, e1, e2, _, e4⟩ := h3 fuel hf
  refine ⟨c', out, e1, e2, ?_, ?_, ?_⟩
  · rw [e4, if_pos cut_points.1]
  · rw [e4, if_neg cut_points.2.1]
  · rw [e4, if_neg cut_points.2.2]

end River.Upright
