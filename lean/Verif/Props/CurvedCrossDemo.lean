import Verif.Props.CurvedCross
import Verif.Props.CurvedDemo
import Verif.Lemmas.CurvedTruth

/-! # C82: a concrete case

A contour of a parabolic arc and a straight line, and a triangle: two sides of the triangle cross the arc. -/

namespace River.CrossDemo

open CurvedDemo

attribute [local instance 10000] FTrans.toFNum

/-- The arc, the chord, and the sides of the triangle. -/
noncomputable def arc := bow 0 4 0 4
noncomputable def chord : Vec2 ℝ × Seg ℝ := (⟨0, 4⟩, .line ⟨0, 0⟩)
noncomputable def t1 : Vec2 ℝ × Seg ℝ := (⟨6, 6⟩, .line ⟨1, 2⟩)
noncomputable def t2 : Vec2 ℝ × Seg ℝ := (⟨1, 2⟩, .line ⟨6, -2⟩)
noncomputable def t3 : Vec2 ℝ × Seg ℝ := (⟨6, -2⟩, .line ⟨6, 6⟩)

noncomputable def cap : Loop ℝ := ⟨⟨0, 0⟩, [arc.2, chord.2]⟩
noncomputable def triangle : Loop ℝ := ⟨⟨6, 6⟩, [t1.2, t2.2, t3.2]⟩

theorem demo_sides : ([cap] ++ [triangle]).flatMap Loop.sides = [arc, chord, t1, t2, t3] := by
  simp only [cap, triangle, Loop.sides, List.cons_append, List.nil_append, List.flatMap_cons, List.flatMap_nil, chain, arc, chord, t1, t2, t3, bow, Seg.target]
  norm_num

theorem pt_arc (a : ℝ) : sidePoint arc a = ⟨12 * a * (1 - a), 4 * a⟩ := by
  rw [arc, bow_eval]; simp only [Vec2.mk.injEq]; constructor <;> ring
theorem pt_chord (a : ℝ) : sidePoint chord a = ⟨0, 4 - 4 * a⟩ := by
  simp only [chord, sidePoint, lerp, Vec2.mk.injEq]; constructor <;> ring
theorem pt_t1 (a : ℝ) : sidePoint t1 a = ⟨6 - 5 * a, 6 - 4 * a⟩ := by
  simp only [t1, sidePoint, lerp, Vec2.mk.injEq]; constructor <;> ring
theorem pt_t2 (a : ℝ) : sidePoint t2 a = ⟨1 + 5 * a, 2 - 4 * a⟩ := by
  simp only [t2, sidePoint, lerp, Vec2.mk.injEq]; constructor <;> ring
theorem pt_t3 (a : ℝ) : sidePoint t3 a = ⟨6, -2 + 8 * a⟩ := by
  simp only [t3, sidePoint, lerp, Vec2.mk.injEq]; constructor <;> ring

theorem fine_arc : Fine arc := bow_fine _ _ _ (by norm_num)

theorem demo_even : ∀ s ∈ [arc, chord, t1, t2, t3], Even s := by
  simp only [List.mem_cons, List.not_mem_nil, or_false]
  rintro s (rfl | rfl | rfl | rfl | rfl)
  exacts [fine_arc.even, trivial, trivial, trivial, trivial]

theorem demo_steep : ∀ s ∈ [arc, chord, t1, t2, t3], s.1.y ≠ s.2.target.y := by
  simp only [List.mem_cons, List.not_mem_nil, or_false]
  rintro s (rfl | rfl | rfl | rfl | rfl)
  · exact fine_arc.steep
  all_goals norm_num [chord, t1, t2, t3, Seg.target]

theorem demo_box : ∀ s ∈ [arc, chord, t1, t2, t3], ∀ p ∈ sidePoints s, -10 ≤ p.x ∧ p.x ≤ 10 ∧ -10 ≤ p.y ∧ p.y ≤ 10 := by
  simp only [List.mem_cons, List.not_mem_nil, or_false]
  rintro s (rfl | rfl | rfl | rfl | rfl) p hp <;>
    simp only [arc, chord, t1, t2, t3, bow, sidePoints, List.mem_cons, List.not_mem_nil, or_false] at hp
  · rcases hp with rfl | rfl | rfl | rfl <;> norm_num
  all_goals rcases hp with rfl | rfl <;> norm_num

theorem demo_range : ∀ s ∈ [arc, chord, t1, t2, t3], ∀ p ∈ sidePoints s,
    -(dblMax : ℝ) ≤ p.x ∧ p.x ≤ dblMax ∧ -(dblMax : ℝ) < p.y ∧ p.y ≤ dblMax := by
  intro s hs p hp
  obtain ⟨h1, h2, h3, h4⟩ := demo_box s hs p hp
  have := demo_max
  exact ⟨by linarith, by linarith, by linarith, by linarith⟩

theorem demo_doubles : ∀ s ∈ [arc, chord, t1, t2, t3], ∀ p ∈ sidePoints s, InDoubles p := by
  intro s hs p hp
  obtain ⟨h1, h2, h3, h4⟩ := demo_range s hs p hp
  exact ⟨h1, h2, h3.le, h4⟩

/-! ## common points -/

theorem meet_arc_chord {a b : ℝ} (h : Meet2 arc chord a b) : (a = 0 ∨ a = 1) ∧ b = 1 - a := by
  obtain ⟨_, _, _, _, e⟩ := h
  rw [pt_arc, pt_chord, Vec2.mk.injEq] at e
  refine ⟨?_, by linarith⟩
  have : a * (1 - a) = 0 := by linarith
  rcases mul_eq_zero.1 this with h | h
  · exact Or.inl h
  · exact Or.inr (by linarith)

theorem meet_arc_t1 {a b : ℝ} (h : Meet2 arc t1 a b) : a = 3 / 4 ∧ b = 3 / 4 := by
  obtain ⟨a0, a1, b0, b1, e⟩ := h
  rw [pt_arc, pt_t1, Vec2.mk.injEq] at e
  have ea : a = 3 / 2 - b := by linarith
  have : (b - 3 / 4) * (b - 5 / 3) = 0 := by rw [ea] at e; linarith
  rcases mul_eq_zero.1 this with h | h
  · exact ⟨by linarith, by linarith⟩
  · linarith

theorem meet_arc_t2 {a b : ℝ} (h : Meet2 arc t2 a b) : a = 1 / 4 ∧ b = 1 / 4 := by
  obtain ⟨a0, a1, b0, b1, e⟩ := h
  rw [pt_arc, pt_t2, Vec2.mk.injEq] at e
  have ea : a = 1 / 2 - b := by linarith
  have : (b - 1 / 4) * (b + 2 / 3) = 0 := by rw [ea] at e; linarith
  rcases mul_eq_zero.1 this with h | h
  · exact ⟨by linarith, by linarith⟩
  · linarith

theorem meet_arc_t3 {a b : ℝ} : ¬ Meet2 arc t3 a b := by
  rintro ⟨a0, a1, b0, b1, e⟩
  rw [pt_arc, pt_t3, Vec2.mk.injEq] at e
  nlinarith [sq_nonneg (a - 1 / 2)]

theorem meet_chord {t : Vec2 ℝ × Seg ℝ} (ht : t = t1 ∨ t = t2 ∨ t = t3) {a b : ℝ} : ¬ Meet2 chord t a b := by
  rintro ⟨a0, a1, b0, b1, e⟩
  rcases ht with rfl | rfl | rfl
  · rw [pt_chord, pt_t1, Vec2.mk.injEq] at e; linarith
  · rw [pt_chord, pt_t2, Vec2.mk.injEq] at e; linarith
  · rw [pt_chord, pt_t3, Vec2.mk.injEq] at e; linarith

theorem meet_t1_t2 {a b : ℝ} (h : Meet2 t1 t2 a b) : a = 1 ∧ b = 0 := by
  obtain ⟨a0, a1, b0, b1, e⟩ := h
  rw [pt_t1, pt_t2, Vec2.mk.injEq] at e
  constructor <;> linarith

theorem meet_t1_t3 {a b : ℝ} (h : Meet2 t1 t3 a b) : a = 0 ∧ b = 1 := by
  obtain ⟨a0, a1, b0, b1, e⟩ := h
  rw [pt_t1, pt_t3, Vec2.mk.injEq] at e
  constructor <;> linarith

theorem meet_t2_t3 {a b : ℝ} (h : Meet2 t2 t3 a b) : a = 1 ∧ b = 0 := by
  obtain ⟨a0, a1, b0, b1, e⟩ := h
  rw [pt_t2, pt_t3, Vec2.mk.injEq] at e
  constructor <;> linarith

theorem clear_of {a : ℝ} (h : a = 0 ∨ a = 1 ∨ a = 1 / 4 ∨ a = 3 / 4) : ClearPos a := by
  rcases h with rfl | rfl | rfl | rfl
  · exact Or.inl rfl
  · exact Or.inr (Or.inl rfl)
  all_goals exact Or.inr (Or.inr (by norm_num))

/-- The arc is cut at the positions `1/4` and `3/4`. -/
theorem arc_stops {a : ℝ} (h : Stop [arc, chord, t1, t2, t3] arc a) : a = 0 ∨ a = 1 ∨ a = 1 / 4 ∨ a = 3 / 4 := by
  rcases h with h | h | ⟨t, ht, hne, b, hm⟩
  · exact Or.inl h
  · exact Or.inr (Or.inl h)
  · simp only [List.mem_cons, List.not_mem_nil, or_false] at ht
    rcases ht with rfl | rfl | rfl | rfl | rfl
    · exact absurd rfl hne
    · exact (meet_arc_chord hm).1.imp_right Or.inl
    · exact Or.inr (Or.inr (Or.inr (meet_arc_t1 hm).1))
    · exact Or.inr (Or.inr (Or.inl (meet_arc_t2 hm).1))
    · exact absurd hm meet_arc_t3

/-- Where the points of a side are. -/
def On (s : Vec2 ℝ × Seg ℝ) (z : Vec2 ℝ) : Prop := ∃ a, 0 ≤ a ∧ a ≤ 1 ∧ sidePoint s a = z

theorem on_arc {z : Vec2 ℝ} (h : On arc z) : z.x = 3 * z.y * (4 - z.y) / 4 ∧ z.x ≤ 3 := by
  obtain ⟨a, _, _, rfl⟩ := h
  rw [pt_arc]
  exact ⟨by ring, by nlinarith [sq_nonneg (a - 1 / 2)]⟩
theorem on_chord {z : Vec2 ℝ} (h : On chord z) : z.x = 0 := by
  obtain ⟨a, _, _, rfl⟩ := h
  rw [pt_chord]
theorem on_t1 {z : Vec2 ℝ} (h : On t1 z) : z.y = 2 + 4 / 5 * (z.x - 1) ∧ 1 ≤ z.x := by
  obtain ⟨a, _, _, rfl⟩ := h
  rw [pt_t1]
  constructor <;> simp only <;> linarith
theorem on_t2 {z : Vec2 ℝ} (h : On t2 z) : z.y = 2 - 4 / 5 * (z.x - 1) ∧ 1 ≤ z.x := by
  obtain ⟨a, _, _, rfl⟩ := h
  rw [pt_t2]
  constructor <;> simp only <;> linarith
theorem on_t3 {z : Vec2 ℝ} (h : On t3 z) : z.x = 6 := by
  obtain ⟨a, _, _, rfl⟩ := h
  rw [pt_t3]

theorem no_triple {s t u : Vec2 ℝ × Seg ℝ} {z : Vec2 ℝ} (hs : s ∈ [arc, chord, t1, t2, t3]) (ht : t ∈ [arc, chord, t1, t2, t3])
    (hu : u ∈ [arc, chord, t1, t2, t3]) (h1 : On s z) (h2 : On t z) (h3 : On u z) : s = t ∨ s = u ∨ t = u := by
  have key : ∀ s ∈ [arc, chord, t1, t2, t3], On s z → (s = arc ∧ z.x = 3 * z.y * (4 - z.y) / 4 ∧ z.x ≤ 3) ∨ (s = chord ∧ z.x = 0) ∨
      (s = t1 ∧ z.y = 2 + 4 / 5 * (z.x - 1) ∧ 1 ≤ z.x) ∨ (s = t2 ∧ z.y = 2 - 4 / 5 * (z.x - 1) ∧ 1 ≤ z.x) ∨ (s = t3 ∧ z.x = 6) := by
    intro s hs h
    simp only [List.mem_cons, List.not_mem_nil, or_false] at hs
    rcases hs with rfl | rfl | rfl | rfl | rfl
    · exact Or.inl ⟨rfl, on_arc h⟩
    · exact Or.inr (Or.inl ⟨rfl, on_chord h⟩)
    · exact Or.inr (Or.inr (Or.inl ⟨rfl, on_t1 h⟩))
    · exact Or.inr (Or.inr (Or.inr (Or.inl ⟨rfl, on_t2 h⟩)))
    · exact Or.inr (Or.inr (Or.inr (Or.inr ⟨rfl, on_t3 h⟩)))
  have top : z.x = 3 * z.y * (4 - z.y) / 4 → z.y = 2 + 4 / 5 * (z.x - 1) → z.y = 2 - 4 / 5 * (z.x - 1) → False := by
    intro e1 e2 e3
    have ey : z.y = 2 := by linarith
    have ex : z.x = 1 := by linarith
    rw [ey, ex] at e1
    norm_num at e1
  have k1 := key s hs h1
  have k2 := key t ht h2
  have k3 := key u hu h3
  clear key h1 h2 h3 hs ht hu
  rcases k1 with ⟨rfl, a⟩ | ⟨rfl, a⟩ | ⟨rfl, a⟩ | ⟨rfl, a⟩ | ⟨rfl, a⟩ <;> rcases k2 with ⟨rfl, b⟩ | ⟨rfl, b⟩ | ⟨rfl, b⟩ | ⟨rfl, b⟩ | ⟨rfl, b⟩ <;>
    first
    | exact Or.inl rfl
    | (exfalso; linarith [a.2, b.2])
    | (exfalso; linarith [a.2, b])
    | (exfalso; linarith [a, b.2])
    | (exfalso; linarith [a, b])
    | (rcases k3 with ⟨rfl, c⟩ | ⟨rfl, c⟩ | ⟨rfl, c⟩ | ⟨rfl, c⟩ | ⟨rfl, c⟩ <;>
        first
        | exact Or.inr (Or.inl rfl)
        | exact Or.inr (Or.inr rfl)
        | (exfalso; linarith [a.2, c])
        | (exfalso; linarith [a.2, c.2])
        | (exfalso; linarith [b.2, c])
        | (exfalso; linarith [a, c.2])
        | (exfalso; linarith [b, c.2])
        | (exfalso; linarith [a.1, b.1, c])
        | (exfalso; linarith [a, b.1, c.1])
        | (exfalso; exact top a.1 b.1 c.1)
        | (exfalso; exact top a.1 c.1 b.1)
        | (exfalso; exact top b.1 a.1 c.1)
        | (exfalso; exact top b.1 c.1 a.1)
        | (exfalso; exact top c.1 a.1 b.1)
        | (exfalso; exact top c.1 b.1 a.1))

/-! ## the library's intersections are right -/

theorem line_coeffs {p q : Vec2 ℝ} (hx : p.x ≠ q.x) (hy : p.y ≠ q.y) {A B C : ℝ} (h : generalFrom p q = (A, B, C)) :
    A = q.y - p.y ∧ B = p.x - q.x ∧ C = q.x * p.y - p.x * q.y := by
  unfold generalFrom at h
  have hne : p.beq q = false := by
    rw [Bool.eq_false_iff]; intro hb
    exact hy (congrArg Vec2.y ((Vec2.beq_iff p q).1 hb))
  rw [hne] at h
  simp only [Bool.false_eq_true, if_false, eq_eq_decide, decide_eq_true_eq, if_neg hx, if_neg hy, Exact.sub_eq, Exact.mul_eq, Prod.mk.injEq] at h
  exact ⟨h.1.symm, h.2.1.symm, h.2.2.symm⟩

theorem upright_coeffs {p q : Vec2 ℝ} (hx : p.x = q.x) (hy : p.y ≠ q.y) {A B C : ℝ} (h : generalFrom p q = (A, B, C)) : A = 1 ∧ B = 0 ∧ C = -p.x := by
  unfold generalFrom at h
  have hne : p.beq q = false := by
    rw [Bool.eq_false_iff]; intro hb
    exact hy (congrArg Vec2.y ((Vec2.beq_iff p q).1 hb))
  rw [hne] at h
  simp only [Bool.false_eq_true, if_false, eq_eq_decide, decide_eq_true_eq, if_pos hx, exact_one, exact_zero, Exact.neg_eq, Prod.mk.injEq] at h
  exact ⟨h.1.symm, h.2.1.symm, h.2.2.symm⟩

theorem truthful_chord : Truthful arc chord := by
  have hd := demo_doubles chord (by simp)
  refine Truthful.symm (truthful_parabola (p := ⟨0, 4⟩) (q := ⟨0, 0⟩) (by norm_num) fine_arc.even (hd _ (by simp [chord, sidePoints])) (hd _ (by simp [chord, sidePoints]))
    (by norm_num) (fun A B C hg => ?_))
  obtain ⟨rfl, rfl, rfl⟩ := upright_coeffs (p := ⟨0, 4⟩) (q := ⟨0, 0⟩) rfl (by norm_num) hg
  refine ⟨Or.inr ?_, ?_, Or.inr ?_⟩ <;> norm_num [abs_of_neg, abs_of_pos]

theorem truthful_t1 : Truthful arc t1 := by
  have hd := demo_doubles t1 (by simp)
  refine Truthful.symm (truthful_parabola (p := ⟨6, 6⟩) (q := ⟨1, 2⟩) (by norm_num) fine_arc.even (hd _ (by simp [t1, sidePoints])) (hd _ (by simp [t1, sidePoints]))
    (by norm_num) (fun A B C hg => ?_))
  obtain ⟨rfl, rfl, rfl⟩ := line_coeffs (by norm_num) (by norm_num) hg
  refine ⟨Or.inr ?_, ?_, Or.inr ?_⟩ <;> norm_num [abs_of_neg, abs_of_pos]

theorem truthful_t2 : Truthful arc t2 := by
  have hd := demo_doubles t2 (by simp)
  refine Truthful.symm (truthful_parabola (p := ⟨1, 2⟩) (q := ⟨6, -2⟩) (by norm_num) fine_arc.even (hd _ (by simp [t2, sidePoints])) (hd _ (by simp [t2, sidePoints]))
    (by norm_num) (fun A B C hg => ?_))
  obtain ⟨rfl, rfl, rfl⟩ := line_coeffs (by norm_num) (by norm_num) hg
  refine ⟨Or.inr ?_, ?_, Or.inr ?_⟩ <;> norm_num [abs_of_neg, abs_of_pos]

theorem far_t3 : Far arc t3 := by
  refine Or.inl ?_
  simp only [arc, t3, bow, sidePoints, List.mem_cons, List.not_mem_nil, or_false]
  rintro p (rfl | rfl | rfl | rfl) q (rfl | rfl) <;> norm_num

theorem demo_boxed (r : ℝ) (h0 : 0 ≤ r) (h1 : r ≤ 1) : (arc.2.boundary arc.1).Mem (sidePoint arc r) := by
  refine boxed_exact (demo_doubles arc (by simp)) ?_ ?_ r h0 h1
  · refine ⟨Or.inl ?_, fun _ => Or.inr ?_⟩ <;> simp only [Cubic.cA, Cubic.cB, dA, dB] <;> norm_num [abs_of_neg]
  · refine ⟨Or.inl ?_, fun _ => Or.inl ?_⟩ <;> simp only [Cubic.cA, Cubic.cB, dA, dB] <;> norm_num

theorem demo_crossing : CrossingLoops ([cap] ++ [triangle]) := by
  refine ⟨?_, ?_, ?_, ?_, ?_, ?_, ?_, ?_, ?_⟩
  · simp only [List.mem_append, List.mem_cons, List.not_mem_nil, or_false]
    rintro l (rfl | rfl)
    · exact ⟨chord.2, rfl, by simp [chord, cap, Seg.target]⟩
    · exact ⟨t3.2, rfl, by simp [t3, triangle, Seg.target]⟩
  · rw [demo_sides]; exact demo_range
  · rw [demo_sides]; exact demo_steep
  · rw [demo_sides]
    simp only [List.mem_cons, List.not_mem_nil, or_false]
    rintro s (rfl | rfl | rfl | rfl | rfl) hc a b ha hb hab
    · rw [pt_arc, pt_arc, abs_of_pos (by simp only; linarith)]
      simp only
      rcases arc_stops ha with rfl | rfl | rfl | rfl <;> rcases arc_stops hb with rfl | rfl | rfl | rfl <;> first | (norm_num at hab; done) | norm_num
    all_goals simp [chord, t1, t2, t3, Seg.isCubic] at hc
  · rw [demo_sides]; exact demo_even
  · rw [demo_sides]
    simp only [List.mem_cons, List.not_mem_nil, or_false]
    rintro s (rfl | rfl | rfl | rfl | rfl) hc r h0 h1
    · exact demo_boxed r h0 h1
    all_goals simp [chord, t1, t2, t3, Seg.isCubic] at hc
  · rw [demo_sides]
    refine List.Pairwise.cons ?_ (List.Pairwise.cons ?_ (List.Pairwise.cons ?_ (List.Pairwise.cons ?_ (List.Pairwise.cons ?_ List.Pairwise.nil))))
    · simp only [List.mem_cons, List.not_mem_nil, or_false]
      rintro t (rfl | rfl | rfl | rfl) a b hm
      · obtain ⟨h1 | h1, h2⟩ := meet_arc_chord hm
        · exact ⟨Or.inl h1, Or.inr (Or.inl (by rw [h2, h1]; norm_num))⟩
        · exact ⟨Or.inr (Or.inl h1), Or.inl (by rw [h2, h1]; norm_num)⟩
      · obtain ⟨h1, h2⟩ := meet_arc_t1 hm
        exact ⟨clear_of (by simp [h1]), clear_of (by simp [h2])⟩
      · obtain ⟨h1, h2⟩ := meet_arc_t2 hm
        exact ⟨clear_of (by simp [h1]), clear_of (by simp [h2])⟩
      · exact absurd hm meet_arc_t3
    · simp only [List.mem_cons, List.not_mem_nil, or_false]
      exact fun t ht a b hm => absurd hm (meet_chord ht)
    · simp only [List.mem_cons, List.not_mem_nil, or_false]
      rintro t (rfl | rfl) a b hm
      · obtain ⟨h1, h2⟩ := meet_t1_t2 hm
        exact ⟨clear_of (by simp [h1]), clear_of (by simp [h2])⟩
      · obtain ⟨h1, h2⟩ := meet_t1_t3 hm
        exact ⟨clear_of (by simp [h1]), clear_of (by simp [h2])⟩
    · simp only [List.mem_cons, List.not_mem_nil, or_false]
      rintro t rfl a b hm
      obtain ⟨h1, h2⟩ := meet_t2_t3 hm
      exact ⟨clear_of (by simp [h1]), clear_of (by simp [h2])⟩
    · simp
  · rw [demo_sides]
    refine List.Pairwise.cons ?_ (List.Pairwise.cons ?_ (List.Pairwise.cons ?_ (List.Pairwise.cons ?_ (List.Pairwise.cons ?_ List.Pairwise.nil))))
    · simp only [List.mem_cons, List.not_mem_nil, or_false]
      rintro t (rfl | rfl | rfl | rfl)
      exacts [Or.inr truthful_chord, Or.inr truthful_t1, Or.inr truthful_t2, Or.inl far_t3]
    · simp only [List.mem_cons, List.not_mem_nil, or_false]
      rintro t (rfl | rfl | rfl) <;> exact Or.inr trivial
    · simp only [List.mem_cons, List.not_mem_nil, or_false]
      rintro t (rfl | rfl) <;> exact Or.inr trivial
    · simp only [List.mem_cons, List.not_mem_nil, or_false]
      rintro t rfl; exact Or.inr trivial
    · simp
  · rw [demo_sides]
    intro s hs t ht u hu a b c h1 h2 _ _ _
    exact no_triple hs ht hu ⟨a, h1.1, h1.2.1, rfl⟩ ⟨b, h1.2.2.1, h1.2.2.2.1, h1.2.2.2.2.symm⟩
      ⟨c, h2.2.2.1, h2.2.2.2.1, (h1.2.2.2.2.trans h2.2.2.2.2).symm⟩

theorem line_abscissa (p q : Vec2 ℝ) (y : ℝ) : abscissa (p, .line q) y = p.x + (y - p.y) / (q.y - p.y) * (q.x - p.x) := rfl

/-- The point `(2, 2)` is in both contours, `(1/2, 2)` only in the first one, `(5, 2)` only in the second one. -/
theorem demo_points_in : InLoops [cap] [triangle] .intersection .positive 2 2 ∧ ¬ InLoops [cap] [triangle] .intersection .positive (1 / 2) 2 ∧
    ¬ InLoops [cap] [triangle] .intersection .positive 5 2 := by
  have hb : [cap].flatMap Loop.sides = [arc, chord] := by
    simp only [cap, Loop.sides, List.flatMap_cons, List.flatMap_nil, chain, arc, chord, bow, Seg.target]
    norm_num
  have hc : [triangle].flatMap Loop.sides = [t1, t2, t3] := by
    simp only [triangle, Loop.sides, List.flatMap_cons, List.flatMap_nil, chain, t1, t2, t3, Seg.target]
    norm_num
  have ha : ∀ Y, abscissa arc Y = 12 * (Y / 4) * (1 - Y / 4) := by
    intro Y
    rw [arc, bow_abscissa]; ring
  unfold InLoops loopWinding sidesWinding
  rw [hb, hc]
  simp only [List.map_cons, List.map_nil, List.sum_cons, List.sum_nil, curveWinding, ha]
  simp only [chord, t1, t2, t3, line_abscissa]
  simp only [arc, bow, Seg.target]
  norm_num [ClipType.op, FillRule.inside]

/-- `process_curved_crossing` applies: the intersection of the two, with the positive rule. -/
theorem demo_intersection (env : Env ℝ) (hok : env.Ok) (msort : List (LocMin ℝ) → List (LocMin ℝ)) (hm : MinSort msort) :
    ∃ c1 c2 : Clipper ℝ, (Clipper.new (K := ℝ)).addPath [Path.build cap.cmds] .subject = some c1 ∧
      c1.addPath [Path.build triangle.cmds] .clip = some c2 ∧
      ∃ n, ∀ fuel, n ≤ fuel → ∃ (c' : Clipper ℝ) (out : List (Loop ℝ)),
        c2.process env msort fuel .intersection .positive Path.recorder [] = some (some (c', out.flatMap (fun l => eventsFrom zeroPt l.cmds))) ∧
        (∀ l ∈ out, l.Closed) ∧ loopWinding out 2 2 = 1 ∧ loopWinding out (1 / 2) 2 = 0 ∧ loopWinding out 5 2 = 0 := by
  obtain ⟨c1, c2, h1, h2, n, h3⟩ := process_curved_crossing env hok msort hm [cap] [triangle] demo_crossing .intersection .positive 1 (Or.inl rfl)
    (loops_positive _ _ _ (Or.inr rfl))
  refine ⟨c1, c2, h1, h2, n, fun fuel hf => ?_⟩
  obtain ⟨c', out, e1, e2, _, e4⟩ := h3 fuel hf
  refine ⟨c', out, e1, e2, ?_, ?_, ?_⟩
  · rw [e4, if_pos demo_points_in.1]
  · rw [e4, if_neg demo_points_in.2.1]
  · rw [e4, if_neg demo_points_in.2.2]

end River.CrossDemo
