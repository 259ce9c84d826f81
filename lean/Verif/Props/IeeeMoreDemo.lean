import Verif.Props.IeeeMore
import Verif.Props.IeeeChainDemo
import Verif.Props.AreaDemo

/-! # C70, C71 and C76 with IEEE doubles, cases -/

namespace River

/-- The first rectangle, begun at its third corner. -/
def boxA' : List (List (ℤ × ℤ)) := [[(4, 4), (0, 4), (0, 0), (4, 0)]]

theorem boxA'_same : SamePolygons (boxA.map gridPoly) (boxA'.map gridPoly) :=
  ⟨boxA.map gridPoly, .refl _, .cons ⟨2, by decide +kernel⟩ .nil⟩

theorem boxes_once : (∀ X y, polyWinding (boxA.map gridPoly) X y = 0 ∨ polyWinding (boxA.map gridPoly) X y = 1) ∧
    ∀ X y, polyWinding (boxB.map gridPoly) X y = 0 ∨ polyWinding (boxB.map gridPoly) X y = 1 := by
  have eA : boxA.map gridPoly = [[⟨0, 0⟩, ⟨4, 0⟩, ⟨4, 4⟩, ⟨0, 4⟩]] := by decide +kernel
  have eB : boxB.map gridPoly = [[⟨2, 2⟩, ⟨6, 2⟩, ⟨6, 6⟩, ⟨2, 6⟩]] := by decide +kernel
  rw [eA, eB]
  constructor
  · intro X y
    rw [rect_winding (by norm_num) (by norm_num)]
    split <;> simp
  · intro X y
    rw [rect_winding (by norm_num) (by norm_num)]
    split <;> simp

/-- **C70 with IEEE doubles**, applied: rectangles of multiples of 1/1024, the first one begun at another corner and given as the clip, the zeros negative. -/
theorem boxes_presentation : ∃ n, ∀ fuel, n ≤ fuel → ∃ c1 c2 c3 c4 c' c'' : Clipper Dbl, ∃ (es es' : List (Event Dbl)) (out out' : List (List (Vec2 ℚ))),
      (Clipper.new (K := Dbl)).addPath ((boxA.map (ieeePolyAt (-10) false)).map (fun P => Path.build (polyCmds P))) .subject = some c1 ∧
      c1.addPath ((boxB.map (ieeePolyAt (-10) false)).map (fun P => Path.build (polyCmds P))) .clip = some c2 ∧
      (Clipper.new (K := Dbl)).addPath ((boxB.map (ieeePolyAt (-10) true)).map (fun P => Path.build (polyCmds P))) .subject = some c3 ∧
      c3.addPath ((boxA'.map (ieeePolyAt (-10) true)).map (fun P => Path.build (polyCmds P))) .clip = some c4 ∧
      c2.process ieeeEnv ieeeSort fuel .union .positive Path.recorder [] = some (some (c', es)) ∧
      c4.process ieeeEnv ieeeSort fuel .union .positive Path.recorder [] = some (some (c'', es')) ∧
      List.Forall₂ Event.Is es (out.flatMap (fun Q => eventsFrom ⟨0, 0⟩ (closedCmds Q))) ∧
      List.Forall₂ Event.Is es' (out'.flatMap (fun Q => eventsFrom ⟨0, 0⟩ (closedCmds Q))) ∧
      ∀ X y, polyWinding out X y = polyWinding out' X y :=
  presentation_ieee (by norm_num) ieeeEnv ieeeEnv ieeeEnv_ok ieeeEnv_ok ieeeSort ieeeSort ieeeSort_ok ieeeSort_ok _ _ _ _ _ _ _ _
    (ieeePolyAt_is _ false boxA) (ieeePolyAt_is _ false boxB) (ieeePolyAt_is _ true boxB) (ieeePolyAt_is _ true boxA') boxes_cross.1 _ _ 1 (Or.inl rfl)
    (consistent_positive _ _ _ (Or.inl rfl)) (Or.inr ⟨boxA'_same, .refl _, Or.inl rfl⟩)

theorem moved_grid (m k : ℤ) (Ps : List (List (ℤ × ℤ))) : movedAll m k (Ps.map gridPoly) = (Ps.map (fun P => P.map (fun p => (p.1 + m, p.2 + k)))).map gridPoly := by
  unfold movedAll
  rw [List.map_map, List.map_map]
  refine List.map_congr_left (fun P _ => ?_)
  simp only [Function.comp, gridPoly, List.map_map]
  refine List.map_congr_left (fun p _ => ?_)
  simp [Vec2.moved]

/-- **C71 with IEEE doubles**, applied: the same rectangles, moved by `(5 / 1024, -7 / 1024)`. -/
theorem boxes_moved : ∃ n, ∀ fuel, n ≤ fuel → ∃ c1 c2 c3 c4 c' c'' : Clipper Dbl, ∃ (es es' : List (Event Dbl)) (out out' : List (List (Vec2 ℚ))),
      (Clipper.new (K := Dbl)).addPath ((boxA.map (ieeePolyAt (-10) false)).map (fun P => Path.build (polyCmds P))) .subject = some c1 ∧
      c1.addPath ((boxB.map (ieeePolyAt (-10) false)).map (fun P => Path.build (polyCmds P))) .clip = some c2 ∧
      (Clipper.new (K := Dbl)).addPath ((([[(5, -7), (9, -7), (9, -3), (5, -3)]] : List (List (ℤ × ℤ))).map (ieeePolyAt (-10) true)).map (fun P => Path.build (polyCmds P))) .subject = some c3 ∧
      c3.addPath ((([[(7, -5), (11, -5), (11, -1), (7, -1)]] : List (List (ℤ × ℤ))).map (ieeePolyAt (-10) true)).map (fun P => Path.build (polyCmds P))) .clip = some c4 ∧
      c2.process ieeeEnv ieeeSort fuel .intersection .positive Path.recorder [] = some (some (c', es)) ∧
      c4.process ieeeEnv ieeeSort fuel .intersection .positive Path.recorder [] = some (some (c'', es')) ∧
      List.Forall₂ Event.Is es (out.flatMap (fun Q => eventsFrom ⟨0, 0⟩ (closedCmds Q))) ∧
      List.Forall₂ Event.Is es' (out'.flatMap (fun Q => eventsFrom ⟨0, 0⟩ (closedCmds Q))) ∧
      ∀ X y, polyWinding out' (X + 2 ^ (-10 : ℤ) * (5 : ℤ)) (y + 2 ^ (-10 : ℤ) * (-7 : ℤ)) = polyWinding out X y :=
  process_ieee_moved (by norm_num) ieeeEnv ieeeEnv ieeeEnv_ok ieeeEnv_ok ieeeSort ieeeSort ieeeSort_ok ieeeSort_ok _ _ _ _ _ _ 5 (-7)
    (ieeePolyAt_is _ false boxA) (ieeePolyAt_is _ false boxB) (by rw [moved_grid]; exact ieeePolyAt_is _ true _) (by rw [moved_grid]; exact ieeePolyAt_is _ true _)
    boxes_cross.1 (by rw [← List.map_append, moved_grid]; exact gridB_sound (by decide +kernel)) _ _ 1 (Or.inl rfl)
    (consistent_positive _ _ _ (Or.inr rfl))

/-- **C76 with IEEE doubles**, applied: union and intersection of the rectangles together have the area `32 / 1024 ^ 2`. -/
theorem boxes_areas : ∃ c1 c2 : Clipper Dbl, (Clipper.new (K := Dbl)).addPath ((boxA.map (ieeePolyAt (-10) true)).map (fun P => Path.build (polyCmds P))) .subject = some c1 ∧
      c1.addPath ((boxB.map (ieeePolyAt (-10) false)).map (fun P => Path.build (polyCmds P))) .clip = some c2 ∧
      ∃ n, ∀ fuel, n ≤ fuel → ∃ (cu ci : Clipper Dbl) (eu ei : List (Event Dbl)) (union inter : List (List (Vec2 ℚ))),
        c2.process ieeeEnv ieeeSort fuel .union .positive Path.recorder [] = some (some (cu, eu)) ∧
        c2.process ieeeEnv ieeeSort fuel .intersection .positive Path.recorder [] = some (some (ci, ei)) ∧
        List.Forall₂ Event.Is eu (union.flatMap (fun Q => eventsFrom ⟨0, 0⟩ (closedCmds Q))) ∧
        List.Forall₂ Event.Is ei (inter.flatMap (fun Q => eventsFrom ⟨0, 0⟩ (closedCmds Q))) ∧
        area2 union + area2 inter = 2 * (32 / 1024 ^ 2) := by
  obtain ⟨c1, c2, h1, h2, n, hn⟩ := process_ieee_areas (e := -10) (by norm_num) ieeeEnv ieeeEnv_ok ieeeSort ieeeSort_ok _ _ _ _
    (ieeePolyAt_is _ true boxA) (ieeePolyAt_is _ false boxB) boxes_cross.1 boxes_once.1 boxes_once.2
  refine ⟨c1, c2, h1, h2, n, fun fuel hf => ?_⟩
  obtain ⟨cu, ci, eu, ei, union, inter, k1, k2, k3, k4, k5, _⟩ := hn fuel hf
  refine ⟨cu, ci, eu, ei, union, inter, k1, k2, k3, k4, ?_⟩
  rw [k5]
  decide +kernel

/-- Two diamonds that cross. -/
def diaA : List (List (ℤ × ℤ)) := [[(0, -4), (4, 0), (0, 4), (-4, 0)]]
def diaB : List (List (ℤ × ℤ)) := [[(3, -3), (7, 1), (3, 5), (-1, 1)]]

theorem diaA_nonneg (X y : ℚ) : 0 ≤ polyWinding (diaA.map gridPoly) X y := by
  rw [show diaA.map gridPoly = [[⟨0, -4⟩, ⟨4, 0⟩, ⟨0, 4⟩, ⟨-4, 0⟩]] by decide +kernel]
  simp only [polyWinding, polySides, List.rotate_cons_succ, List.rotate_zero, List.flatMap_cons, List.flatMap_nil, List.cons_append,
    List.nil_append, List.zip_cons_cons, List.zip_nil_left, List.append_nil, List.map_cons, List.map_nil, List.sum_cons, List.sum_nil,
    sideWinding, atHeight]
  split_ifs <;> first | omega | (exfalso; first | linarith | (simp only [not_and, not_lt, not_le] at *; grind))

theorem diaB_nonneg (X y : ℚ) : 0 ≤ polyWinding (diaB.map gridPoly) X y := by
  rw [show diaB.map gridPoly = [[⟨3, -3⟩, ⟨7, 1⟩, ⟨3, 5⟩, ⟨-1, 1⟩]] by decide +kernel]
  simp only [polyWinding, polySides, List.rotate_cons_succ, List.rotate_zero, List.flatMap_cons, List.flatMap_nil, List.cons_append,
    List.nil_append, List.zip_cons_cons, List.zip_nil_left, List.append_nil, List.map_cons, List.map_nil, List.sum_cons, List.sum_nil,
    sideWinding, atHeight]
  split_ifs <;> first | omega | (exfalso; first | linarith | (simp only [not_and, not_lt, not_le] at *; grind))

/-- **C61 with IEEE doubles**, a case: two diamonds, drawn in both directions. -/
theorem diamonds_direction : CrossPolygons (diaA.map gridPoly ++ diaB.map gridPoly) ∧
    CrossPolygons (reverseAll (diaA.map gridPoly) ++ reverseAll (diaB.map gridPoly)) ∧ OneWay (diaA.map gridPoly) (diaB.map gridPoly) := by
  have e1 : reverseAll (diaA.map gridPoly) ++ reverseAll (diaB.map gridPoly) = (diaA.map List.reverse ++ diaB.map List.reverse).map gridPoly := by decide +kernel
  rw [e1, ← List.map_append]
  exact ⟨crossPolygons_of (by decide +kernel) (by decide +kernel) (by decide +kernel), crossPolygons_of (by decide +kernel) (by decide +kernel) (by decide +kernel),
    Or.inr ⟨by rw [← List.map_append]; exact noOverlapB_sound (by decide +kernel), diaA_nonneg, diaB_nonneg⟩⟩

end River
