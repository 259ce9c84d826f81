import Mathlib.Data.Prod.Lex
import Verif.Props.Ieee
import Verif.Props.DoublePolygonsDemo
import Verif.Props.DoubleCrossingDemo
import Verif.Props.TilesDemo

/-! # The hypotheses of C92 can be met: sorts of doubles, and a case -/

namespace River
attribute [local instance 10000] FTrans.toFNum

/-- Doubles in a row, NaN last. -/
def Dbl.key : Dbl → ℤ ×ₗ ℚ
  | .inf true => toLex (-1, 0)
  | .num s m => toLex (0, Dbl.val s m)
  | .inf false => toLex (1, 0)
  | .nan => toLex (2, 0)

theorem Dbl.key_lt {a b : Dbl} (h : (a <. b) = true) : a.key < b.key := by
  change Dbl.lt a b = true at h
  cases a with
  | num s m =>
    cases b with
    | num t n => exact Prod.Lex.toLex_lt_toLex.2 (Or.inr ⟨rfl, by simpa [Dbl.lt] using h⟩)
    | inf t => cases t <;> simp [Dbl.lt, Dbl.key, Prod.Lex.toLex_lt_toLex] at h ⊢
    | nan => simp [Dbl.lt] at h
  | inf s =>
    cases b with
    | num t n => cases s <;> simp [Dbl.lt, Dbl.key, Prod.Lex.toLex_lt_toLex] at h ⊢
    | inf t => cases s <;> cases t <;> simp [Dbl.lt, Dbl.key, Prod.Lex.toLex_lt_toLex] at h ⊢
    | nan => simp [Dbl.lt] at h
  | nan => simp [Dbl.lt] at h

theorem Dbl.key_eq {a b : Dbl} (h : (a ==. b) = true) : a.key = b.key := by
  change Dbl.eq a b = true at h
  cases a with
  | num s m =>
    cases b with
    | num t n => simp only [Dbl.eq, decide_eq_true_eq] at h; simp only [Dbl.key, h]
    | inf t => simp [Dbl.eq] at h
    | nan => simp [Dbl.eq] at h
  | inf s =>
    cases b with
    | num t n => simp [Dbl.eq] at h
    | inf t => simp only [Dbl.eq, beq_iff_eq] at h; rw [h]
    | nan => simp [Dbl.eq] at h
  | nan => simp [Dbl.eq] at h

/-- Sorting by a key. -/
def keySort {α β : Type} [LinearOrder β] (key : α → β) : List α → List α := insSort (fun a b => decide (key a < key b))

theorem keySort_spec {α β : Type} [LinearOrder β] (key : α → β) {less : α → α → Bool} (hl : ∀ a b, less a b = true → key a < key b) (l : List α) :
    (keySort key l).Perm l ∧ (keySort key l).Pairwise (fun a b => less b a = false) := by
  obtain ⟨h1, h2⟩ := insSort_spec (less := fun a b => decide (key a < key b)) (by
    intro a b h; rw [decide_eq_true_eq] at h; rw [decide_eq_false_iff_not]; exact lt_asymm h) (by
    intro a b c h1 h2; rw [decide_eq_false_iff_not, not_lt] at *; exact le_trans h1 h2) l
  refine ⟨h1, h2.imp (fun {a b} h => ?_)⟩
  rw [decide_eq_false_iff_not] at h
  rw [Bool.eq_false_iff]
  exact fun h' => h (hl _ _ h')

/-- Sorts of records with doubles. -/
def ieeeEnv : Env Dbl where
  segAddr := id
  vtxAddr := id
  csort := keySort (fun c => c.1.t0.key)
  bsort := keySort (fun b => (toLex (b.vert, b.t.key) : ℕ ×ₗ (ℤ ×ₗ ℚ)))
  tsort := keySort (fun b => b.t.key)

theorem ieeeEnv_ok : ieeeEnv.Ok where
  segAddr := fun _ _ h => h
  vtxAddr := fun _ _ h => h
  csort := keySort_spec (fun c : Cell Dbl × Cell Dbl => c.1.t0.key) (fun _ _ h => Dbl.key_lt h)
  bsort := keySort_spec (fun b : Brk Dbl => (toLex (b.vert, b.t.key) : ℕ ×ₗ (ℤ ×ₗ ℚ))) (fun a b h => by
    unfold Env.brkLess at h
    rw [Prod.Lex.toLex_lt_toLex]
    by_cases e : a.vert = b.vert
    · rw [if_neg (not_not.2 e)] at h
      exact Or.inr ⟨e, Dbl.key_lt h⟩
    · rw [if_pos e] at h
      exact Or.inl (of_decide_eq_true h))
  tsort := keySort_spec (fun b : Brk Dbl => b.t.key) (fun _ _ h => Dbl.key_lt h)

/-- Sort of the local minima. -/
def ieeeSort : List (LocMin Dbl) → List (LocMin Dbl) := keySort (fun m => (toLex (m.pt.y.key, m.pt.x.key) : (ℤ ×ₗ ℚ) ×ₗ (ℤ ×ₗ ℚ)))

theorem ieeeSort_ok : MinSort ieeeSort :=
  keySort_spec (fun m : LocMin Dbl => (toLex (m.pt.y.key, m.pt.x.key) : (ℤ ×ₗ ℚ) ×ₗ (ℤ ×ₗ ℚ))) (fun a b h => by
    unfold LocMin.less at h
    rw [Prod.Lex.toLex_lt_toLex]
    split at h
    · next e => exact Or.inr ⟨Dbl.key_eq e, Dbl.key_lt h⟩
    · exact Or.inl (Dbl.key_lt h))

/-- A whole number as a double, zeros with either sign. -/
def dblOf (z : Bool) (n : ℤ) : Dbl := .num (decide (n < 0) || (z && decide (n = 0))) |(n : ℚ)|

theorem dblOf_is (z : Bool) (n : ℤ) : (dblOf z n).Is n := by
  refine ⟨_, _, abs_nonneg _, rfl, ?_⟩
  rcases lt_trichotomy n 0 with h | h | h
  · have h' : (n : ℚ) < 0 := by exact_mod_cast h
    simp [Dbl.val, h, abs_of_neg h']
  · subst h; simp [Dbl.val]
  · have h' : (0 : ℚ) < n := by exact_mod_cast h
    have : ¬ n < 0 := by omega
    have h2 : n ≠ 0 := by omega
    simp [Dbl.val, this, h2, abs_of_pos h']

/-- Corners with whole coordinates as points of doubles. -/
def ieeePoly (z : Bool) (l : List (ℤ × ℤ)) : List (Vec2 Dbl) := l.map (fun p => ⟨dblOf z p.1, dblOf z p.2⟩)

theorem ieeePoly_is (z : Bool) (Ps : List (List (ℤ × ℤ))) : List.Forall₂ (List.Forall₂ Vec2.Is) (Ps.map (ieeePoly z)) (Ps.map gridPoly) := by
  rw [List.forall₂_map_left_iff, List.forall₂_map_right_iff, List.forall₂_same]
  intro P _
  unfold ieeePoly gridPoly
  rw [List.forall₂_map_left_iff, List.forall₂_map_right_iff, List.forall₂_same]
  exact fun p _ => ⟨dblOf_is z p.1, dblOf_is z p.2⟩

/-- **C92** applied: the union of a slanted frame and two triangles that touch, computed with IEEE 754 doubles. -/
theorem dblFrame_union_ieee : ∃ c1 c2 : Clipper Dbl,
    (Clipper.new (K := Dbl)).addPath ((dblFrame.map (ieeePoly false)).map (fun P => Path.build (polyCmds P))) .subject = some c1 ∧
      c1.addPath ((dblInner.map (ieeePoly true)).map (fun P => Path.build (polyCmds P))) .clip = some c2 ∧
      ∃ n, ∀ fuel, n ≤ fuel → ∃ (c' : Clipper Dbl) (es : List (Event Dbl)) (out : List (List (Vec2 ℚ))),
        c2.process ieeeEnv ieeeSort fuel .union .positive Path.recorder [] = some (some (c', es)) ∧
        List.Forall₂ Event.Is es (out.flatMap (fun Q => eventsFrom ⟨0, 0⟩ (closedCmds Q))) ∧
        polyWinding out 0 20000 = 1 ∧ polyWinding out 0 5000 = 0 ∧ polyWinding out 0 (-1000) = 1 ∧ polyWinding out 30000 30000 = 0 := by
  obtain ⟨c1, c2, h1, h2, n, hn⟩ := process_ieee ieeeEnv ieeeEnv_ok ieeeSort ieeeSort_ok _ _ _ _ (ieeePoly_is false dblFrame) (ieeePoly_is true dblInner)
    dblFrame_grid .union .positive 1 (Or.inl rfl) (consistent_positive _ _ _ (Or.inl rfl))
  refine ⟨c1, c2, h1, h2, n, fun fuel hf => ?_⟩
  obtain ⟨c', es, out, h3, h3', h4, _⟩ := hn fuel hf
  refine ⟨c', es, out, h3, h3', ?_, ?_, ?_, ?_⟩
  · rw [h4, if_pos]
    exact Or.inl (show 0 < polyWinding (dblFrame.map gridPoly) 0 20000 by decide +kernel)
  · rw [h4, if_neg]
    rintro (h | h)
    · exact absurd (show 0 < polyWinding (dblFrame.map gridPoly) 0 5000 from h) (by decide +kernel)
    · exact absurd (show 0 < polyWinding (dblInner.map gridPoly) 0 5000 from h) (by decide +kernel)
  · rw [h4, if_pos]
    exact Or.inr (show 0 < polyWinding (dblInner.map gridPoly) 0 (-1000) by decide +kernel)
  · rw [h4, if_neg]
    rintro (h | h)
    · exact absurd (show 0 < polyWinding (dblFrame.map gridPoly) 30000 30000 from h) (by decide +kernel)
    · exact absurd (show 0 < polyWinding (dblInner.map gridPoly) 30000 30000 from h) (by decide +kernel)

/-- **C92** applied to crossing polygons, some coordinates being negative zeros. -/
theorem cross_union_ieee : ∃ c1 c2 : Clipper Dbl,
    (Clipper.new (K := Dbl)).addPath ((crossDiamond.map (ieeePoly true)).map (fun P => Path.build (polyCmds P))) .subject = some c1 ∧
      c1.addPath ((crossSquare.map (ieeePoly false)).map (fun P => Path.build (polyCmds P))) .clip = some c2 ∧
      ∃ n, ∀ fuel, n ≤ fuel → ∃ (c' : Clipper Dbl) (es : List (Event Dbl)) (out : List (List (Vec2 ℚ))),
        c2.process ieeeEnv ieeeSort fuel .union .positive Path.recorder [] = some (some (c', es)) ∧
        List.Forall₂ Event.Is es (out.flatMap (fun Q => eventsFrom ⟨0, 0⟩ (closedCmds Q))) ∧
        polyWinding out 0 (-4) = 1 ∧ polyWinding out (-3) 6 = 0 := by
  obtain ⟨c1, c2, h1, h2, n, hn⟩ := process_ieee_crossing ieeeEnv ieeeEnv_ok ieeeSort ieeeSort_ok _ _ _ _ (ieeePoly_is true crossDiamond)
    (ieeePoly_is false crossSquare) cross_polygons .union .positive 1 (Or.inl rfl) (consistent_positive _ _ _ (Or.inl rfl))
  refine ⟨c1, c2, h1, h2, n, fun fuel hf => ?_⟩
  obtain ⟨c', es, out, h3, h3', h4, _⟩ := hn fuel hf
  refine ⟨c', es, out, h3, h3', ?_, ?_⟩
  · rw [h4, if_pos]
    exact Or.inl (show 0 < polyWinding (crossDiamond.map gridPoly) 0 (-4) by decide +kernel)
  · rw [h4, if_neg]
    rintro (h | h)
    · exact absurd (show 0 < polyWinding (crossDiamond.map gridPoly) (-3) 6 from h) (by decide +kernel)
    · exact absurd (show 0 < polyWinding (crossSquare.map gridPoly) (-3) 6 from h) (by decide +kernel)

/-- A rectangle with whole coordinates as points of doubles. -/
def ieeeTile (z : Bool) (r : Tile ℤ) : List (Vec2 Dbl) :=
  [⟨dblOf z r.x1, dblOf z r.y1⟩, ⟨dblOf z r.x2, dblOf z r.y1⟩, ⟨dblOf z r.x2, dblOf z r.y2⟩, ⟨dblOf z r.x1, dblOf z r.y2⟩]

theorem ieeeTile_is (z : Bool) (R : List (Tile ℤ)) :
    List.Forall₂ (List.Forall₂ Vec2.Is) (R.map (ieeeTile z)) (R.map (fun r => (r.cast : Tile ℚ).corners)) := by
  rw [List.forall₂_map_left_iff, List.forall₂_map_right_iff, List.forall₂_same]
  intro r _
  exact .cons ⟨dblOf_is _ _, dblOf_is _ _⟩ (.cons ⟨dblOf_is _ _, dblOf_is _ _⟩ (.cons ⟨dblOf_is _ _, dblOf_is _ _⟩ (.cons ⟨dblOf_is _ _, dblOf_is _ _⟩ .nil)))

/-- **C92** applied to rectangles. -/
theorem dyadicTiles_union_ieee : ∃ c1 c2 : Clipper Dbl,
    (Clipper.new (K := Dbl)).addPath ((dyadicTiles.map (ieeeTile true)).map (fun P => Path.build (polyCmds P))) .subject = some c1 ∧
      c1.addPath ((dyadicMore.map (ieeeTile false)).map (fun P => Path.build (polyCmds P))) .clip = some c2 ∧
      ∃ n, ∀ fuel, n ≤ fuel → ∃ (c' : Clipper Dbl) (es : List (Event Dbl)) (out : List (List (Vec2 ℚ))),
        c2.process ieeeEnv ieeeSort fuel .union .positive Path.recorder [] = some (some (c', es)) ∧
        List.Forall₂ Event.Is es (out.flatMap (fun Q => eventsFrom ⟨0, 0⟩ (closedCmds Q))) ∧
        polyWinding out 4 4 = 1 ∧ polyWinding out 4 20 = 1 := by
  obtain ⟨c1, c2, h1, h2, n, hn⟩ := process_ieee_tiles ieeeEnv ieeeEnv_ok ieeeSort ieeeSort_ok dyadicTiles dyadicMore dyadicTiles_ok.1 dyadicTiles_ok.2
    _ _ (ieeeTile_is true _) (ieeeTile_is false _) .union .positive (Or.inl rfl) (Or.inl rfl)
  refine ⟨c1, c2, h1, h2, n, fun fuel hf => ?_⟩
  obtain ⟨c', es, out, h3, h3', h4, _⟩ := hn fuel hf
  refine ⟨c', es, out, h3, h3', ?_, ?_⟩
  · rw [h4, if_pos]
    exact Or.inl ⟨_, List.mem_cons_self, by norm_num [Tile.Has, Tile.cast]⟩
  · rw [h4, if_pos]
    exact Or.inr ⟨_, List.mem_cons_self, by norm_num [Tile.Has, Tile.cast]⟩

/-- A whole number times `2 ^ e` as a double, zeros with either sign. -/
def dblAt (e : ℤ) (z : Bool) (n : ℤ) : Dbl := .num (decide (n < 0) || (z && decide (n = 0))) (2 ^ e * |(n : ℚ)|)

theorem dblAt_is (e : ℤ) (z : Bool) (n : ℤ) : (dblAt e z n).Is (2 ^ e * n) := by
  obtain ⟨s, m, _, h1, h2⟩ := dblOf_is z n
  simp only [dblOf, Dbl.num.injEq] at h1
  refine ⟨_, _, by positivity, rfl, ?_⟩
  rw [h1.1, h1.2, ← h2]
  cases s <;> simp [Dbl.val]

/-- Corners with whole coordinates times `2 ^ e` as points of doubles. -/
def ieeePolyAt (e : ℤ) (z : Bool) (l : List (ℤ × ℤ)) : List (Vec2 Dbl) := l.map (fun p => ⟨dblAt e z p.1, dblAt e z p.2⟩)

theorem ieeePolyAt_is (e : ℤ) (z : Bool) (Ps : List (List (ℤ × ℤ))) :
    List.Forall₂ (List.Forall₂ Vec2.Is) (Ps.map (ieeePolyAt e z)) (timesAll (2 ^ e) (Ps.map gridPoly)) := by
  unfold timesAll
  rw [List.map_map, List.forall₂_map_left_iff, List.forall₂_map_right_iff, List.forall₂_same]
  intro P _
  unfold ieeePolyAt gridPoly
  rw [Function.comp_apply, List.map_map, List.forall₂_map_left_iff, List.forall₂_map_right_iff, List.forall₂_same]
  exact fun p _ => ⟨dblAt_is e z p.1, dblAt_is e z p.2⟩

/-- **C92** applied to crossing polygons whose coordinates are multiples of 1/1024: the diamond with the corners `(0, ±1/128)` and `(±1/128, 0)`, and so on. -/
theorem cross_union_scaled : ∃ c1 c2 : Clipper Dbl,
    (Clipper.new (K := Dbl)).addPath ((crossDiamond.map (ieeePolyAt (-10) true)).map (fun P => Path.build (polyCmds P))) .subject = some c1 ∧
      c1.addPath ((crossSquare.map (ieeePolyAt (-10) false)).map (fun P => Path.build (polyCmds P))) .clip = some c2 ∧
      ∃ n, ∀ fuel, n ≤ fuel → ∃ (c' : Clipper Dbl) (es : List (Event Dbl)) (out : List (List (Vec2 ℚ))),
        c2.process ieeeEnv ieeeSort fuel .union .positive Path.recorder [] = some (some (c', es)) ∧
        List.Forall₂ Event.Is es (out.flatMap (fun Q => eventsFrom ⟨0, 0⟩ (closedCmds Q))) ∧
        polyWinding out 0 (-1 / 256) = 1 ∧ polyWinding out (-3 / 1024) (3 / 512) = 0 ∧ polyWinding out 1 1 = 0 := by
  obtain ⟨c1, c2, h1, h2, n, hn⟩ := process_ieee_crossing_scaled (e := -10) (by norm_num) ieeeEnv ieeeEnv_ok ieeeSort ieeeSort_ok _ _ _ _
    (ieeePolyAt_is _ true crossDiamond) (ieeePolyAt_is _ false crossSquare) cross_polygons .union .positive 1 (Or.inl rfl)
    (consistent_positive _ _ _ (Or.inl rfl))
  refine ⟨c1, c2, h1, h2, n, fun fuel hf => ?_⟩
  obtain ⟨c', es, out, h3, h3', h4, _⟩ := hn fuel hf
  refine ⟨c', es, out, h3, h3', ?_, ?_, ?_⟩
  · rw [h4, if_pos]
    exact Or.inl (show 0 < polyWinding (timesAll (2 ^ (-10 : ℤ)) (crossDiamond.map gridPoly)) 0 (-1 / 256) by decide +kernel)
  · rw [h4, if_neg]
    rintro (h | h)
    · exact absurd (show 0 < polyWinding (timesAll (2 ^ (-10 : ℤ)) (crossDiamond.map gridPoly)) (-3 / 1024) (3 / 512) from h) (by decide +kernel)
    · exact absurd (show 0 < polyWinding (timesAll (2 ^ (-10 : ℤ)) (crossSquare.map gridPoly)) (-3 / 1024) (3 / 512) from h) (by decide +kernel)
  · rw [h4, if_neg]
    rintro (h | h)
    · exact absurd (show 0 < polyWinding (timesAll (2 ^ (-10 : ℤ)) (crossDiamond.map gridPoly)) 1 1 from h) (by decide +kernel)
    · exact absurd (show 0 < polyWinding (timesAll (2 ^ (-10 : ℤ)) (crossSquare.map gridPoly)) 1 1 from h) (by decide +kernel)

end River
