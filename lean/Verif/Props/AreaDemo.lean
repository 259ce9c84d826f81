import Verif.Props.Area
import Verif.Props.PolygonsDemo

/-! # C76 applied -/

namespace River

/-- The winding number of a rectangle drawn counter-clockwise. -/
theorem rect_winding {a b c d : ℚ} (h1 : a < c) (h2 : b < d) (X y : ℚ) :
    polyWinding [[⟨a, b⟩, ⟨c, b⟩, ⟨c, d⟩, ⟨a, d⟩]] X y = if (a < X ∧ X ≤ c) ∧ b ≤ y ∧ y < d then 1 else 0 := by
  have hf : ∀ z : ℚ, ¬ (z ≤ y ∧ y < z) := fun z h => absurd (h.1.trans_lt h.2) (lt_irrefl z)
  have hbd : ¬ (d ≤ y ∧ y < b) := fun h => absurd (h.1.trans_lt h.2) (not_lt.2 h2.le)
  have ex : ∀ z : ℚ, atHeight ⟨z, b⟩ ⟨z, d⟩ y = z ∧ atHeight ⟨z, d⟩ ⟨z, b⟩ y = z := fun z => by simp [atHeight]
  simp only [polyWinding, polySides, List.rotate_cons_succ, List.rotate_zero, List.flatMap_cons, List.flatMap_nil, List.cons_append,
    List.nil_append, List.zip_cons_cons, List.zip_nil_left, List.append_nil, List.map_cons, List.map_nil, List.sum_cons, List.sum_nil,
    sideWinding, (ex _).1, (ex _).2, hf, hbd, if_false, ite_self]
  by_cases hy : b ≤ y ∧ y < d
  · by_cases hc : c < X
    · simp [hy, hc, h1.trans hc, not_le.2 hc]
    · by_cases ha : a < X <;> simp [hy, hc, ha, not_lt.1 hc]
  · have hn : ¬ ((a < X ∧ X ≤ c) ∧ b ≤ y ∧ y < d) := fun h => hy h.2
    simp [hy]

/-- Two overlapping rectangles of areas 12 and 16: their intersection has area 4 and their union 24. -/
theorem rects_areas : ∃ c1 c2 : Clipper ℚ, (Clipper.new (K := ℚ)).addPath ([rectA].map (fun P => Path.build (polyCmds P))) .subject = some c1 ∧
    c1.addPath ([rectB].map (fun P => Path.build (polyCmds P))) .clip = some c2 ∧
    ∃ n, ∀ fuel, n ≤ fuel → ∃ (cu ci : Clipper ℚ) (union inter : List (List (Vec2 ℚ))),
      c2.process demoEnv minsort fuel .union .positive Path.recorder [] = some (some (cu, union.flatMap (fun Q => eventsFrom zeroPt (closedCmds Q)))) ∧
      c2.process demoEnv minsort fuel .intersection .positive Path.recorder [] = some (some (ci, inter.flatMap (fun Q => eventsFrom zeroPt (closedCmds Q)))) ∧
      area2 inter = 2 * 4 ∧ area2 union = 2 * 24 := by
  classical
  have hA : ∀ X y, polyWinding [rectA] X y = if (0 < X ∧ X ≤ 4) ∧ 0 ≤ y ∧ y < 3 then 1 else 0 := rect_winding (by norm_num) (by norm_num)
  have hB : ∀ X y, polyWinding [rectB] X y = if (2 < X ∧ X ≤ 6) ∧ 1 ≤ y ∧ y < 5 then 1 else 0 := rect_winding (by norm_num) (by norm_num)
  obtain ⟨c1, c2, h1, h2, n, hn⟩ := process_areas demoEnv demoEnv_ok minsort minsort_ok [rectA] [rectB] rects_general
    (fun X y => by rw [hA]; split <;> simp) (fun X y => by rw [hB]; split <;> simp)
  refine ⟨c1, c2, h1, h2, n, fun fuel hf => ?_⟩
  obtain ⟨cu, ci, union, inter, h3, h4, _, h7, h5, _⟩ := hn fuel hf
  have aA : area2 [rectA] = 2 * 12 := by decide +kernel
  have aB : area2 [rectB] = 2 * 16 := by decide +kernel
  have aI : area2 [[⟨2, 1⟩, ⟨4, 1⟩, ⟨4, 3⟩, ⟨2, 3⟩]] = (2 * 4 : ℚ) := by decide +kernel
  have hI : area2 inter = 2 * 4 := by
    rw [← aI]
    refine area_eq (fun X y => ?_)
    rw [h7, rect_winding (by norm_num) (by norm_num)]
    refine if_congr ?_ rfl rfl
    have hp : ∀ (p : Prop) [Decidable p], (0 : Int) < (if p then 1 else 0) ↔ p := fun p _ => by by_cases h : p <;> simp [h]
    rw [hA, hB, hp, hp]
    constructor
    · rintro ⟨⟨⟨a, b⟩, c, d⟩, ⟨e, f⟩, g, h⟩
      exact ⟨⟨e, b⟩, g, d⟩
    · rintro ⟨⟨a, b⟩, c, d⟩
      exact ⟨⟨⟨by linarith, b⟩, by linarith, d⟩, ⟨a, by linarith⟩, c, by linarith⟩
  exact ⟨cu, ci, union, inter, h3, h4, hI, by linarith⟩

end River
