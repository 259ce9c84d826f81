import Verif.Lemmas.Tiles
import Verif.Props.Polygons

/-! # C80: unions and intersections of rectangles -/

namespace River

attribute [local instance 10000] FTrans.toFNum

section Spec
variable {K : Type} [Field K] [LinearOrder K]

/-- `(X, y)` belongs to the union or the intersection of two sets of rectangles. -/
def InTiles (ct : ClipType) (R S : List (Tile K)) (X y : K) : Prop := ct.op (∃ r ∈ R, r.Has X y) (∃ s ∈ S, s.Has X y)

end Spec

section
variable {K : Type} [Field K] [LinearOrder K] [IsStrictOrderedRing K]

open Classical in
theorem tile_winding {r : Tile K} (hr : r.Proper) (X y : K) : polyWinding [r.corners] X y = if r.Has X y then 1 else 0 := by
  obtain ⟨a, b, c, d⟩ := r
  obtain ⟨h1, h2⟩ := hr
  simp only at h1 h2
  have hf : ∀ z : K, ¬ (z ≤ y ∧ y < z) := fun z h => absurd (h.1.trans_lt h.2) (lt_irrefl z)
  have hbd : ¬ (d ≤ y ∧ y < b) := fun h => absurd (h.1.trans_lt h.2) (not_lt.2 h2.le)
  have ex : ∀ z : K, atHeight ⟨z, b⟩ ⟨z, d⟩ y = z ∧ atHeight ⟨z, d⟩ ⟨z, b⟩ y = z := fun z => by simp [atHeight]
  simp only [polyWinding, Tile.sides_eq, List.flatMap_cons, List.flatMap_nil, List.append_nil, List.map_cons, List.map_nil, List.sum_cons, List.sum_nil,
    sideWinding, (ex _).1, (ex _).2, hf, hbd, if_false, ite_self, Tile.Has]
  by_cases hy : b ≤ y ∧ y < d
  · by_cases hc : c < X
    · simp [hy, hc, h1.trans hc, not_le.2 hc]
    · by_cases ha : a < X <;> simp [hy, hc, ha, not_lt.1 hc]
  · have hn : ¬ ((a < X ∧ X ≤ c) ∧ b ≤ y ∧ y < d) := fun h => hy h.2
    simp [hy]

theorem polyWinding_cons' (P : List (Vec2 K)) (Ps : List (List (Vec2 K))) (X y : K) : polyWinding (P :: Ps) X y = polyWinding [P] X y + polyWinding Ps X y := by
  simp [polyWinding]

/-- The winding number of rectangles is positive where one of them lies. -/
theorem tiles_winding {R : List (Tile K)} (h : ∀ r ∈ R, r.Proper) (X y : K) :
    0 ≤ polyWinding (R.map Tile.corners) X y ∧ (0 < polyWinding (R.map Tile.corners) X y ↔ ∃ r ∈ R, r.Has X y) := by
  classical
  induction R with
  | nil => simp [polyWinding]
  | cons r R ih =>
    obtain ⟨i1, i2⟩ := ih (fun r hr => h r (by simp [hr]))
    rw [List.map_cons, polyWinding_cons', tile_winding (h r (by simp))]
    by_cases hr : r.Has X y
    · rw [if_pos hr]
      exact ⟨by omega, fun _ => ⟨r, by simp, hr⟩, fun _ => by omega⟩
    · rw [if_neg hr, zero_add]
      refine ⟨i1, i2.trans ⟨fun ⟨s, hs, h⟩ => ⟨s, by simp [hs], h⟩, ?_⟩⟩
      rintro ⟨s, hs, hX⟩
      rcases List.mem_cons.1 hs with rfl | hs
      · exact absurd hX hr
      · exact ⟨s, hs, hX⟩

/-- A rectangle does not overlap itself. -/
theorem tile_signed {r : Tile K} (hr : r.Proper) : Signed 1 r.corners := by
  classical
  have hx := hr.1.ne
  have hy := hr.2.ne
  refine Or.inr ⟨?_, fun X y => ?_⟩
  · unfold SidesApart
    simp only [List.flatMap_cons, List.flatMap_nil, List.append_nil, Tile.sides_eq, List.pairwise_cons, List.mem_cons, List.not_mem_nil, or_false,
      List.Pairwise.nil, and_true, forall_eq_or_imp, forall_eq, IsEmpty.forall_iff, implies_true, ne_eq, not_true_eq_false]
    have vx : ∀ {p : Vec2 K} {x y1 y2 : K}, OnSeg p ⟨x, y1⟩ ⟨x, y2⟩ → p.x = x := by
      rintro p x y1 y2 ⟨t, _, _, rfl⟩; simp [lerp]
    have vy : ∀ {p : Vec2 K} {y x1 x2 : K}, OnSeg p ⟨x1, y⟩ ⟨x2, y⟩ → p.y = y := by
      rintro p x y1 y2 ⟨t, _, _, rfl⟩; simp [lerp]
    refine ⟨trivial, fun _ => ?_, fun _ => ?_⟩
    all_goals
      rintro ⟨p, q, hne, a, b, c, d⟩
      first
        | exact hne (Vec2.ext ((vx a).trans (vx b).symm) ((vy c).trans (vy d).symm))
        | exact hx ((vx c).symm.trans (vx a))
        | exact hx ((vx a).symm.trans (vx c))
  · rw [tile_winding hr]
    split <;> norm_num

theorem inResult_tiles {R S : List (Tile K)} (h : ∀ r ∈ R ++ S, r.Proper) {ct : ClipType} {fr : FillRule} (hct : ct = .union ∨ ct = .intersection)
    (hfr : fr = .positive ∨ fr = .nonZero) (X y : K) : InResult (R.map Tile.corners) (S.map Tile.corners) ct fr X y ↔ InTiles ct R S X y := by
  obtain ⟨a1, a2⟩ := tiles_winding (fun r hr => h r (List.mem_append_left _ hr)) X y
  obtain ⟨b1, b2⟩ := tiles_winding (fun r hr => h r (List.mem_append_right _ hr)) X y
  unfold InTiles
  rw [← a2, ← b2]
  have ne : ∀ {n : Int}, 0 ≤ n → (n ≠ 0 ↔ 0 < n) := fun h => by omega
  rcases hfr with rfl | rfl <;> rcases hct with rfl | rfl <;> simp only [InResult, ClipType.op, FillRule.inside, ne a1, ne b1]

theorem tiles_consistent {R S : List (Tile K)} (h : ∀ r ∈ R ++ S, r.Proper) {ct : ClipType} {fr : FillRule} (hct : ct = .union ∨ ct = .intersection)
    (hfr : fr = .positive ∨ fr = .nonZero) : Consistent (R.map Tile.corners) (S.map Tile.corners) ct fr 1 := by
  rcases hfr with rfl | rfl
  · exact consistent_positive _ _ _ hct
  · refine consistent_nonzero _ _ _ hct (fun P hP => ?_)
    rw [← List.map_append] at hP
    obtain ⟨r, hr, rfl⟩ := List.mem_map.1 hP
    exact tile_signed (h r hr)

variable [FTrans K] [LawfulOrd K] [Exact K]

open Classical in
/-- **C80.** For all finite families of rectangles, however they overlap, touch or coincide, provided that no side of one runs closer than a
millionth of the width or height of another to a parallel side of that other inside it: the union and the intersection, with the positive or the
nonzero rule, are computed without undefined behaviour and without an endless loop, and the polygons delivered wind once around the points of the
result and not around the others. -/
theorem process_tiles (env : Env K) (hok : env.Ok) (msort : List (LocMin K) → List (LocMin K)) (hm : MinSort msort) (R S : List (Tile K))
    (h : ClearTiles (R ++ S)) (ct : ClipType) (fr : FillRule) (hct : ct = .union ∨ ct = .intersection) (hfr : fr = .positive ∨ fr = .nonZero) :
    ∃ c1 c2 : Clipper K, (Clipper.new (K := K)).addPath (R.map (fun r => Path.build (polyCmds r.corners))) .subject = some c1 ∧
      c1.addPath (S.map (fun r => Path.build (polyCmds r.corners))) .clip = some c2 ∧
      ∃ n, ∀ fuel, n ≤ fuel → ∃ (c' : Clipper K) (out : List (List (Vec2 K))),
        c2.process env msort fuel ct fr Path.recorder [] = some (some (c', out.flatMap (fun Q => eventsFrom zeroPt (closedCmds Q)))) ∧
        ∀ X y, polyWinding out X y = if InTiles ct R S X y then 1 else 0 := by
  have G : GeneralPolygons (R.map Tile.corners ++ S.map Tile.corners) := by rw [← List.map_append]; exact h.general
  obtain ⟨c1, c2, h1, h2, n, hn⟩ := process_polygons env hok msort hm _ _ G ct fr 1 (Or.inl rfl) (tiles_consistent h.proper hct hfr)
  rw [List.map_map] at h1 h2
  refine ⟨c1, c2, h1, h2, n, fun fuel hf => ?_⟩
  obtain ⟨c', out, h3, h4⟩ := hn fuel hf
  refine ⟨c', out, h3, fun X y => ?_⟩
  rw [h4]
  exact if_congr (inResult_tiles h.proper hct hfr X y) rfl rfl

end

/-! ## whole coordinates -/

/-- The rectangle is not empty, less than a million wide and high, and its coordinates are in the range of doubles. -/
structure Tile.Whole (r : Tile ℤ) : Prop where
  proper : r.Proper
  wide : r.x2 - r.x1 < 1000000
  high : r.y2 - r.y1 < 1000000
  low : -2 ^ 200 ≤ r.x1 ∧ -2 ^ 200 ≤ r.y1
  up : r.x2 ≤ 2 ^ 200 ∧ r.y2 ≤ 2 ^ 200

theorem big_max : (2 ^ 200 : ℚ) < dblMax := by decide +kernel

section
variable {K : Type} [Field K] [LinearOrder K] [IsStrictOrderedRing K]

theorem clearOf_int {z u v : ℤ} (h : v - u < 1000000) : ClearOf (z : K) u v := by
  unfold ClearOf
  by_cases h1 : z ≤ u
  · exact Or.inl (by exact_mod_cast h1)
  · by_cases h2 : v ≤ z
    · exact Or.inr (Or.inl (by exact_mod_cast h2))
    · have e1 : (u : K) + 1 ≤ z := by exact_mod_cast (by omega : u + 1 ≤ z)
      have e2 : (z : K) + 1 ≤ v := by exact_mod_cast (by omega : z + 1 ≤ v)
      have e3 : (v : K) - u < 1000000 := by exact_mod_cast h
      have e4 : ((v : K) - u) / 1000000 < 1 := by rw [div_lt_one (by norm_num)]; exact e3
      exact Or.inr (Or.inr ⟨by linarith, by linarith⟩)

theorem int_le_max {z : ℤ} (h : z ≤ 2 ^ 200) : (z : K) < (dblMax : K) := by
  have : (z : ℚ) < dblMax := lt_of_le_of_lt (by exact_mod_cast h) big_max
  exact_mod_cast (Rat.cast_lt (K := K)).2 this

theorem Tile.Whole.clear {R : List (Tile ℤ)} (h : ∀ r ∈ R, r.Whole) : ClearTiles (R.map (Tile.cast (K := K))) := by
  refine ⟨?_, ?_, ?_⟩
  · intro r hr
    obtain ⟨r, hr', rfl⟩ := List.mem_map.1 hr
    obtain ⟨h1, h2⟩ := (h r hr').proper
    exact ⟨Int.cast_lt.2 h1, Int.cast_lt.2 h2⟩
  · intro r hr
    obtain ⟨r, hr', rfl⟩ := List.mem_map.1 hr
    have := h r hr'
    have neg : ∀ {z : ℤ}, -2 ^ 200 ≤ z → -(dblMax : K) < z := by
      intro z hz
      have := int_le_max (K := K) (z := -z) (by linarith)
      push_cast at this
      linarith
    exact ⟨(neg this.low.1).le, (int_le_max this.up.1).le, neg this.low.2, (int_le_max this.up.2).le⟩
  · intro r hr s hs
    obtain ⟨r, hr', rfl⟩ := List.mem_map.1 hr
    obtain ⟨s, _, rfl⟩ := List.mem_map.1 hs
    have := h r hr'
    exact ⟨⟨clearOf_int this.wide, clearOf_int this.wide⟩, clearOf_int this.high, clearOf_int this.high⟩

variable [FTrans K] [LawfulOrd K] [Exact K]

open Classical in
/-- **C80**, whole coordinates: all rectangles less than a million wide and high. -/
theorem process_whole_tiles (env : Env K) (hok : env.Ok) (msort : List (LocMin K) → List (LocMin K)) (hm : MinSort msort) (R S : List (Tile ℤ))
    (h : ∀ r ∈ R ++ S, r.Whole) (ct : ClipType) (fr : FillRule) (hct : ct = .union ∨ ct = .intersection) (hfr : fr = .positive ∨ fr = .nonZero) :
    ∃ c1 c2 : Clipper K, (Clipper.new (K := K)).addPath ((R.map Tile.cast).map (fun r => Path.build (polyCmds r.corners))) .subject = some c1 ∧
      c1.addPath ((S.map Tile.cast).map (fun r => Path.build (polyCmds r.corners))) .clip = some c2 ∧
      ∃ n, ∀ fuel, n ≤ fuel → ∃ (c' : Clipper K) (out : List (List (Vec2 K))),
        c2.process env msort fuel ct fr Path.recorder [] = some (some (c', out.flatMap (fun Q => eventsFrom zeroPt (closedCmds Q)))) ∧
        ∀ X y, polyWinding out X y = if InTiles ct (R.map Tile.cast) (S.map Tile.cast) X y then 1 else 0 :=
  process_tiles env hok msort hm _ _ (by rw [← List.map_append]; exact Tile.Whole.clear h) ct fr hct hfr

end

end River
