import Verif.Spec.Ieee
import Verif.Spec.Polygons
import Verif.Spec.Line
import Mathlib.Tactic.FieldSimp
import Mathlib.Tactic.Positivity

/-! # Polygons with all coordinates multiplied by the same number -/

namespace River

variable {c : ℚ}

theorem polySides_times (P : List (Vec2 ℚ)) : polySides (P.map (Vec2.times c)) = (polySides P).map (Prod.map (Vec2.times c) (Vec2.times c)) := by
  unfold polySides
  rw [← List.map_rotate, List.zip_map]

theorem sides_times (Ps : List (List (Vec2 ℚ))) :
    (timesAll c Ps).flatMap polySides = (Ps.flatMap polySides).map (Prod.map (Vec2.times c) (Vec2.times c)) := by
  unfold timesAll
  rw [List.flatMap_map, List.map_flatMap]
  exact List.flatMap_congr (fun P _ => polySides_times P)

theorem atHeight_times (hc : 0 < c) (a b : Vec2 ℚ) (y : ℚ) : atHeight (a.times c) (b.times c) (c * y) = c * atHeight a b y := by
  unfold atHeight Vec2.times
  simp only
  rw [← mul_sub, ← mul_sub, ← mul_sub]
  by_cases h : b.y - a.y = 0
  · simp [h]
  · field_simp

theorem sideWinding_times (hc : 0 < c) (X y : ℚ) (s : Vec2 ℚ × Vec2 ℚ) :
    sideWinding (c * X) (c * y) (Prod.map (Vec2.times c) (Vec2.times c) s) = sideWinding X y s := by
  unfold sideWinding
  simp only [Prod.map_fst, Prod.map_snd, atHeight_times hc]
  simp only [Vec2.times, mul_lt_mul_iff_right₀ hc, mul_le_mul_iff_right₀ hc]

theorem polyWinding_times (hc : 0 < c) (Ps : List (List (Vec2 ℚ))) (X y : ℚ) : polyWinding (timesAll c Ps) (c * X) (c * y) = polyWinding Ps X y := by
  unfold polyWinding
  rw [sides_times, List.map_map]
  congr 1
  exact List.map_congr_left (fun s _ => sideWinding_times hc X y s)

theorem polyWinding_times' (hc : 0 < c) (Ps : List (List (Vec2 ℚ))) (X y : ℚ) : polyWinding (timesAll c Ps) X y = polyWinding Ps (X / c) (y / c) := by
  rw [← polyWinding_times hc Ps, mul_div_cancel₀ _ hc.ne', mul_div_cancel₀ _ hc.ne']

theorem inResult_times (hc : 0 < c) (S C : List (List (Vec2 ℚ))) (ct : ClipType) (fr : FillRule) (X y : ℚ) :
    InResult (timesAll c S) (timesAll c C) ct fr X y ↔ InResult S C ct fr (X / c) (y / c) := by
  unfold InResult
  rw [polyWinding_times' hc, polyWinding_times' hc]

theorem onSeg_times {p a b : Vec2 ℚ} (h : OnSeg p a b) : OnSeg (p.times c) (a.times c) (b.times c) := by
  obtain ⟨t, h0, h1, rfl⟩ := h
  refine ⟨t, h0, h1, ?_⟩
  unfold lerp Vec2.times
  simp only [Vec2.mk.injEq]
  constructor <;> ring

theorem times_one (Ps : List (List (Vec2 ℚ))) : timesAll 1 Ps = Ps := by
  unfold timesAll
  have : Vec2.times 1 = id := by funext p; simp [Vec2.times]
  simp [this]

theorem timesAll_append (A B : List (List (Vec2 ℚ))) : timesAll c (A ++ B) = timesAll c A ++ timesAll c B := List.map_append

end River
