import Verif.Props.DoubleTiles
import Verif.Props.PolygonsDemo
import Verif.Props.Double

/-! # Cases that meet the hypotheses of C80, and what goes wrong outside of them -/

namespace River

/-- Rectangles that share sides, parts of sides and corners, and a pair that coincides. -/
def wholeTiles : List (Tile ℤ) := [⟨0, 0, 4, 3⟩, ⟨4, 0, 7, 3⟩, ⟨2, 3, 5, 9⟩, ⟨0, 0, 4, 3⟩, ⟨7, 3, 9, 4⟩]

/-- Others that overlap them. -/
def moreTiles : List (Tile ℤ) := [⟨1, 1, 999999, 2⟩, ⟨4, -5, 5, 12⟩]

instance (r : Tile ℤ) : Decidable r.Proper := inferInstanceAs (Decidable (_ ∧ _))

theorem tile_whole {r : Tile ℤ} (h : (r.Proper ∧ r.x2 - r.x1 < 1000000 ∧ r.y2 - r.y1 < 1000000) ∧ (-2 ^ 200 ≤ r.x1 ∧ -2 ^ 200 ≤ r.y1) ∧ r.x2 ≤ 2 ^ 200 ∧ r.y2 ≤ 2 ^ 200) :
    r.Whole := ⟨h.1.1, h.1.2.1, h.1.2.2, h.2.1, h.2.2⟩

theorem wholeTiles_ok : ∀ r ∈ wholeTiles ++ moreTiles, r.Whole := by
  have : ∀ r ∈ wholeTiles ++ moreTiles, (r.Proper ∧ r.x2 - r.x1 < 1000000 ∧ r.y2 - r.y1 < 1000000) ∧ (-2 ^ 200 ≤ r.x1 ∧ -2 ^ 200 ≤ r.y1) ∧ r.x2 ≤ 2 ^ 200 ∧ r.y2 ≤ 2 ^ 200 := by
    decide +kernel
  exact fun r hr => tile_whole (this r hr)

/-- **C80** applied: points of the intersection and others. -/
theorem wholeTiles_intersection : ∃ c1 c2 : Clipper ℚ,
    (Clipper.new (K := ℚ)).addPath ((wholeTiles.map Tile.cast).map (fun r => Path.build (polyCmds r.corners))) .subject = some c1 ∧
    c1.addPath ((moreTiles.map Tile.cast).map (fun r => Path.build (polyCmds r.corners))) .clip = some c2 ∧
    ∃ n, ∀ fuel, n ≤ fuel → ∃ (c' : Clipper ℚ) (out : List (List (Vec2 ℚ))),
      c2.process demoEnv minsort fuel .intersection .nonZero Path.recorder [] = some (some (c', out.flatMap (fun Q => eventsFrom zeroPt (closedCmds Q)))) ∧
      polyWinding out (3 / 2) (3 / 2) = 1 ∧ polyWinding out (9 / 2) 8 = 1 ∧ polyWinding out (9 / 2) 10 = 0 ∧ polyWinding out 100 (3 / 2) = 0 := by
  obtain ⟨c1, c2, h1, h2, n, hn⟩ := process_whole_tiles demoEnv demoEnv_ok minsort minsort_ok wholeTiles moreTiles wholeTiles_ok .intersection .nonZero (Or.inr rfl) (Or.inr rfl)
  refine ⟨c1, c2, h1, h2, n, fun fuel hf => ?_⟩
  obtain ⟨c', out, h3, h4⟩ := hn fuel hf
  refine ⟨c', out, h3, ?_, ?_, ?_, ?_⟩
  · rw [h4, if_pos]
    exact ⟨⟨_, List.mem_cons_self, by norm_num [Tile.Has, Tile.cast]⟩, ⟨_, List.mem_cons_self, by norm_num [Tile.Has, Tile.cast]⟩⟩
  · rw [h4, if_pos]
    refine ⟨⟨Tile.cast ⟨2, 3, 5, 9⟩, List.mem_map.2 ⟨_, by simp [wholeTiles], rfl⟩, by norm_num [Tile.Has, Tile.cast]⟩,
      ⟨Tile.cast ⟨4, -5, 5, 12⟩, List.mem_map.2 ⟨_, by simp [moreTiles], rfl⟩, by norm_num [Tile.Has, Tile.cast]⟩⟩
  · rw [h4, if_neg]
    rintro ⟨⟨r, hr, h⟩, _⟩
    obtain ⟨r, hm', rfl⟩ := List.mem_map.1 hr
    simp only [wholeTiles, List.mem_cons, List.not_mem_nil, or_false] at hm'
    rcases hm' with rfl | rfl | rfl | rfl | rfl <;> norm_num [Tile.Has, Tile.cast] at h
  · rw [h4, if_neg]
    rintro ⟨⟨r, hr, h⟩, _⟩
    obtain ⟨r, hm', rfl⟩ := List.mem_map.1 hr
    simp only [wholeTiles, List.mem_cons, List.not_mem_nil, or_false] at hm'
    rcases hm' with rfl | rfl | rfl | rfl | rfl <;> norm_num [Tile.Has, Tile.cast] at h

/-- Rectangles for doubles. -/
def dyadicTiles : List (Tile ℤ) := [⟨0, 0, 8, 8⟩, ⟨-32768, 3, 32768, 5⟩]

def dyadicMore : List (Tile ℤ) := [⟨2, -6, 6, 26⟩, ⟨7, 7, 15, 15⟩, ⟨8, -1, 9, 0⟩]

theorem tile_dyadic {r : Tile ℤ} (h : ((|r.x1| ≤ 2 ^ 15 ∧ |r.y1| ≤ 2 ^ 15) ∧ |r.x2| ≤ 2 ^ 15 ∧ |r.y2| ≤ 2 ^ 15) ∧
    (∃ k ∈ List.range 20, r.x2 - r.x1 = 2 ^ k) ∧ ∃ k ∈ List.range 20, r.y2 - r.y1 = 2 ^ k) : r.Dyadic :=
  ⟨h.1, h.2.1.imp (fun _ h => h.2), h.2.2.imp (fun _ h => h.2)⟩

instance (r s : Tile ℤ) : Decidable (r.Apart s) := inferInstanceAs (Decidable (_ ∧ _))

theorem dyadicTiles_ok : (∀ r ∈ dyadicTiles ++ dyadicMore, r.Dyadic) ∧ (dyadicTiles ++ dyadicMore).Pairwise Tile.Apart := by
  have : ∀ r ∈ dyadicTiles ++ dyadicMore, ((|r.x1| ≤ 2 ^ 15 ∧ |r.y1| ≤ 2 ^ 15) ∧ |r.x2| ≤ 2 ^ 15 ∧ |r.y2| ≤ 2 ^ 15) ∧
    (∃ k ∈ List.range 20, r.x2 - r.x1 = 2 ^ k) ∧ ∃ k ∈ List.range 20, r.y2 - r.y1 = 2 ^ k := by decide +kernel
  exact ⟨fun r hr => tile_dyadic (this r hr), by decide +kernel⟩

/-- **C80** applied, with doubles. -/
theorem dyadicTiles_union (env : Env R64) (hok : env.Ok) (msort : List (LocMin R64) → List (LocMin R64)) (hm : MinSort msort) : ∃ c1 c2 : Clipper R64,
    (Clipper.new (K := R64)).addPath (dyadicTiles.map (fun r => Path.build (polyCmds ((r.cast : Tile ℚ).corners.map toR64)))) .subject = some c1 ∧
    c1.addPath (dyadicMore.map (fun r => Path.build (polyCmds ((r.cast : Tile ℚ).corners.map toR64)))) .clip = some c2 ∧
    ∃ n, ∀ fuel, n ≤ fuel → ∃ (c' : Clipper R64) (out : List (List (Vec2 ℚ))),
      c2.process env msort fuel .union .positive Path.recorder [] = some (some (c', out.flatMap (fun Q => eventsFrom zeroPt (closedCmds (Q.map toR64))))) ∧
      polyWinding out 4 4 = 1 ∧ polyWinding out 4 20 = 1 ∧ polyWinding out 30000 4 = 1 ∧ polyWinding out 20 7 = 0 := by
  obtain ⟨c1, c2, h1, h2, n, hn⟩ := process_doubles_tiles env hok msort hm dyadicTiles dyadicMore dyadicTiles_ok.1 dyadicTiles_ok.2 .union .positive (Or.inl rfl) (Or.inl rfl)
  refine ⟨c1, c2, h1, h2, n, fun fuel hf => ?_⟩
  obtain ⟨c', out, h3, h4, _⟩ := hn fuel hf
  refine ⟨c', out, h3, ?_, ?_, ?_, ?_⟩
  · rw [h4, if_pos]
    exact Or.inl ⟨_, List.mem_cons_self, by norm_num [Tile.Has, Tile.cast]⟩
  · rw [h4, if_pos]
    exact Or.inr ⟨_, List.mem_cons_self, by norm_num [Tile.Has, Tile.cast]⟩
  · rw [h4, if_pos]
    exact Or.inl ⟨Tile.cast ⟨-32768, 3, 32768, 5⟩, List.mem_map.2 ⟨_, by simp [dyadicTiles], rfl⟩, by norm_num [Tile.Has, Tile.cast]⟩
  · rw [h4, if_neg]
    rintro (⟨r, hr, h⟩ | ⟨r, hr, h⟩)
    · obtain ⟨r, hm', rfl⟩ := List.mem_map.1 hr
      simp only [dyadicTiles, List.mem_cons, List.not_mem_nil, or_false] at hm'
      rcases hm' with rfl | rfl <;> norm_num [Tile.Has, Tile.cast] at h
    · obtain ⟨r, hm', rfl⟩ := List.mem_map.1 hr
      simp only [dyadicMore, List.mem_cons, List.not_mem_nil, or_false] at hm'
      rcases hm' with rfl | rfl | rfl <;> norm_num [Tile.Has, Tile.cast] at h

/-! ## outside of the hypotheses -/

/-- Clockwise rectangles with whole coordinates: undefined behaviour, also in exact arithmetic. -/
theorem clockwise_tiles_ub : runOnce .union .negative [[(0, 2), (2, 2), (2, 0), (0, 0)], [(1, 4), (3, 4), (3, 1), (1, 1)]]
    [[(0, 4), (3, 4), (3, 2), (0, 2)], [(0, 3), (4, 3), (4, 1), (0, 1)]] = none := by decide +kernel

end River
