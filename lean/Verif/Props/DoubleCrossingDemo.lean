import Verif.Props.DoubleCrossing

/-! # The hypotheses of `process_doubles_crossing`: a check, and a case that meets them -/

namespace River

/-- The rational number is whole and at most 32768 in magnitude. -/
def wholeB (q : ℚ) : Bool := decide ((q.num : ℚ) = q) && decide (|q.num| ≤ 2 ^ 15)

/-- A sufficient check for `ExactMeet`, for sides between grid points. -/
def exactB (s t : Vec2 ℚ × Vec2 ℚ) : Bool :=
  let d := crossProd (segDir s) (segDir t)
  let a := meetNum s t / d
  (List.range 40).any (fun k => decide (|d| = 2 ^ k)) &&
    (decide (a < 0) || decide (1 < a) || (wholeB (s.1.x + a * (s.2.x - s.1.x)) && wholeB (s.1.y + a * (s.2.y - s.1.y))))

theorem exactB_sound {s t : Vec2 ℚ × Vec2 ℚ} (h : exactB s t = true) (s1 : OnGrid s.1) (s2 : OnGrid s.2) (t1 : OnGrid t.1) (t2 : OnGrid t.2) : ExactMeet s t := by
  simp only [exactB, wholeB, Bool.and_eq_true, Bool.or_eq_true, List.any_eq_true, decide_eq_true_eq] at h
  obtain ⟨⟨k, _, hk⟩, h⟩ := h
  refine exactMeet_dyadic s1 s2 t1 t2 hk ?_
  have hd : crossProd (segDir s) (segDir t) ≠ 0 := by
    intro h0
    rw [h0, abs_zero] at hk
    exact absurd hk (by positivity)
  rintro p ⟨a, a0, a1, rfl⟩ ⟨b, _, _, e⟩
  have ex : s.1.x + a * (s.2.x - s.1.x) = t.1.x + b * (t.2.x - t.1.x) := congrArg Vec2.x e
  have ey : s.1.y + a * (s.2.y - s.1.y) = t.1.y + b * (t.2.y - t.1.y) := congrArg Vec2.y e
  have ha : meetNum s t / crossProd (segDir s) (segDir t) = a := by
    rw [div_eq_iff hd]
    unfold meetNum crossProd segDir
    linear_combination (t.2.x - t.1.x) * ey - (t.2.y - t.1.y) * ex
  rw [ha] at h
  rcases h with (h | h) | ⟨⟨h1, h2⟩, h3, h4⟩
  · exact absurd a0 (not_le.2 h)
  · exact absurd a1 (not_le.2 h)
  · exact ⟨_, _, h2, h4, Vec2.ext h1.symm h3.symm⟩

/-- A check for the hypotheses of `process_doubles_crossing`. -/
theorem crossPolygons_of {Ps : List (List (ℤ × ℤ))} (h1 : ∀ P ∈ Ps, ∀ p ∈ P, |p.1| ≤ 2 ^ 15 ∧ |p.2| ≤ 2 ^ 15) (h2 : generalB (Ps.map gridPoly) = true)
    (h3 : ((Ps.map gridPoly).flatMap polySides).Pairwise (fun s t => (endsB s t || exactB s t) = true)) : CrossPolygons (Ps.map gridPoly) := by
  have hg : ∀ P ∈ Ps.map gridPoly, ∀ p ∈ P, OnGrid p := by
    intro P hP p hp
    obtain ⟨P, hP', rfl⟩ := List.mem_map.1 hP
    obtain ⟨q, hq, rfl⟩ := List.mem_map.1 hp
    exact ⟨q.1, q.2, (h1 P hP' q hq).1, (h1 P hP' q hq).2, rfl⟩
  have hs : ∀ s ∈ (Ps.map gridPoly).flatMap polySides, OnGrid s.1 ∧ OnGrid s.2 := by
    intro s hs
    obtain ⟨P, hP, hq⟩ := List.mem_flatMap.1 hs
    unfold polySides at hq
    have := List.of_mem_zip hq
    exact ⟨hg P hP _ this.1, hg P hP _ (List.mem_rotate.1 this.2)⟩
  refine ⟨generalB_sound h2, hg, h3.imp_of_mem (fun {s t} m1 m2 h => ?_)⟩
  rw [Bool.or_eq_true] at h
  rcases h with h | h
  · exact Or.inl (endsB_sound h)
  · exact Or.inr (exactB_sound h (hs s m1).1 (hs s m1).2 (hs t m2).1 (hs t m2).2)

/-- A square that stands on a corner. -/
def crossDiamond : List (List (ℤ × ℤ)) := [[(0, -8), (8, 0), (0, 8), (-8, 0)]]

/-- A square that it crosses in two points, and a triangle that crosses both. -/
def crossSquare : List (List (ℤ × ℤ)) := [[(-2, -2), (14, -2), (14, 14), (-2, 14)], [(2, 4), (-6, 4), (-6, -4)]]

theorem cross_polygons : CrossPolygons (crossDiamond.map gridPoly ++ crossSquare.map gridPoly) := by
  rw [← List.map_append]
  exact crossPolygons_of (by decide +kernel) (by decide +kernel) (by decide +kernel)

/-- **C79** applied: their union computed with doubles. -/
theorem cross_union (env : Env R64) (hok : env.Ok) (msort : List (LocMin R64) → List (LocMin R64)) (hm : MinSort msort) :
    ∃ c1 c2 : Clipper R64, (Clipper.new (K := R64)).addPath ((crossDiamond.map gridPoly).map (fun P => Path.build (polyCmds (P.map toR64)))) .subject = some c1 ∧
      c1.addPath ((crossSquare.map gridPoly).map (fun P => Path.build (polyCmds (P.map toR64)))) .clip = some c2 ∧
      ∃ n, ∀ fuel, n ≤ fuel → ∃ (c' : Clipper R64) (out : List (List (Vec2 ℚ))),
        c2.process env msort fuel .union .positive Path.recorder [] = some (some (c', out.flatMap (fun Q => eventsFrom zeroPt (closedCmds (Q.map toR64))))) ∧
        polyWinding out 0 (-4) = 1 ∧ polyWinding out 10 10 = 1 ∧ polyWinding out (-5) (7 / 2) = 1 ∧ polyWinding out (-7) (-7) = 0 ∧
        polyWinding out (-3) 6 = 0 := by
  obtain ⟨c1, c2, h1, h2, n, hn⟩ := process_doubles_crossing env hok msort hm _ _ cross_polygons .union .positive 1 (Or.inl rfl)
    (consistent_positive _ _ _ (Or.inl rfl))
  refine ⟨c1, c2, h1, h2, n, fun fuel hf => ?_⟩
  obtain ⟨c', out, h3, h4, _⟩ := hn fuel hf
  refine ⟨c', out, h3, ?_, ?_, ?_, ?_, ?_⟩
  · rw [h4, if_pos]
    exact Or.inl (show 0 < polyWinding (crossDiamond.map gridPoly) 0 (-4) by decide +kernel)
  · rw [h4, if_pos]
    exact Or.inr (show 0 < polyWinding (crossSquare.map gridPoly) 10 10 by decide +kernel)
  · rw [h4, if_pos]
    exact Or.inr (show 0 < polyWinding (crossSquare.map gridPoly) (-5) (7 / 2) by decide +kernel)
  · rw [h4, if_neg]
    rintro (h | h)
    · exact absurd (show 0 < polyWinding (crossDiamond.map gridPoly) (-7) (-7) from h) (by decide +kernel)
    · exact absurd (show 0 < polyWinding (crossSquare.map gridPoly) (-7) (-7) from h) (by decide +kernel)
  · rw [h4, if_neg]
    rintro (h | h)
    · exact absurd (show 0 < polyWinding (crossDiamond.map gridPoly) (-3) 6 from h) (by decide +kernel)
    · exact absurd (show 0 < polyWinding (crossSquare.map gridPoly) (-3) 6 from h) (by decide +kernel)

end River
