import Verif.Props.PolygonsDemo

/-! # A case that meets the hypotheses of C56 and C57 -/

namespace River

/-- The corners given as pairs. -/
def corners (l : List (ℚ × ℚ)) : List (Vec2 ℚ) := l.map (fun p => ⟨p.1, p.2⟩)

theorem polygon_build (l : List (ℚ × ℚ)) : polygon l = Path.build (polyCmds (corners l)) := by
  cases l with
  | nil => rfl
  | cons p l =>
    rw [polygon, corners, List.map_cons, polyCmds, Path.build, List.foldl_cons, List.map_map, List.foldl_map]
    rfl

/-- What `holding` holds is in general position if its polygons are, and is broken into arranged contours. -/
theorem holding_arranged (S C : List (List (ℚ × ℚ))) (h : generalB (S.map corners ++ C.map corners) = true) :
    ∃ (c : Clipper ℚ) (rings : List (Ring ℚ)), holding S C = some c ∧ c.Reach demoEnv ∧ c.out.polys = [] ∧
      processIntersect demoEnv c.rings = some rings ∧ Arranged rings := by
  obtain ⟨c1, c2, e1, e2, hr, hn, hg, _, _⟩ := polygons_stored demoEnv (S.map corners) (C.map corners) (generalB_sound h)
  obtain ⟨rings, hp, A, _⟩ := general_broken hg demoEnv demoEnv_ok
  refine ⟨c2, rings, ?_, hr, hn, hp, A⟩
  have e : ∀ l : List (List (ℚ × ℚ)), l.map polygon = (l.map corners).map (fun P => Path.build (polyCmds P)) := by
    intro l
    rw [List.map_map]
    exact List.map_congr_left (fun x _ => polygon_build x)
  rw [holding, e, e, e1]
  exact e2

/-- The two crossing quadrilaterals of `run_star`. -/
def starHolding : Option (Clipper ℚ) := holding [[(0, 0), (4, 1), (5, 5), (1, 4)]] [[(2, -1), (6, 3), (3, 6), (-1, 3)]]

/-- **C56, C57 are not vacuous**: the union of the two crossing quadrilaterals of `run_star` meets all their hypotheses. -/
theorem star_region : ∃ (c : Clipper ℚ) (rings : List (Ring ℚ)), starHolding = some c ∧ c.Reach demoEnv ∧ c.out.polys = [] ∧
    processIntersect demoEnv c.rings = some rings ∧ (sides rings).length = 17 ∧ Arranged rings ∧ Directed rings .union .positive 1 := by
  obtain ⟨c, rings, h1, h2, h3, h4, h5⟩ := holding_arranged [[(0, 0), (4, 1), (5, 5), (1, 4)]] [[(2, -1), (6, 3), (3, 6), (-1, 3)]] (by decide +kernel)
  have h0 : (starHolding.bind (fun c => processIntersect demoEnv c.rings)).map (fun r => (sides r).length) = some 17 := by decide +kernel
  rw [starHolding, h1, Option.bind_some, h4] at h0
  exact ⟨c, rings, h1, h2, h3, h4, by simpa using h0, h5, directed_positive rings _ (Or.inl rfl)⟩

/-- The two crossing bars of a plus sign: every other side is horizontal. -/
def plusHolding : Option (Clipper ℚ) := holding [[(0, 2), (6, 2), (6, 4), (0, 4)]] [[(2, 0), (4, 0), (4, 6), (2, 6)]]

/-- The same for contours with horizontal sides. -/
theorem plus_region : ∃ (c : Clipper ℚ) (rings : List (Ring ℚ)), plusHolding = some c ∧ c.Reach demoEnv ∧ c.out.polys = [] ∧
    processIntersect demoEnv c.rings = some rings ∧ (sides rings).length = 16 ∧ Arranged rings ∧ Directed rings .union .positive 1 := by
  obtain ⟨c, rings, h1, h2, h3, h4, h5⟩ := holding_arranged [[(0, 2), (6, 2), (6, 4), (0, 4)]] [[(2, 0), (4, 0), (4, 6), (2, 6)]] (by decide +kernel)
  have h0 : (plusHolding.bind (fun c => processIntersect demoEnv c.rings)).map (fun r => (sides r).length) = some 16 := by decide +kernel
  rw [plusHolding, h1, Option.bind_some, h4] at h0
  exact ⟨c, rings, h1, h2, h3, h4, by simpa using h0, h5, directed_positive rings _ (Or.inl rfl)⟩

end River
