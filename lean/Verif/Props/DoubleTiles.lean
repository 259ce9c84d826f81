import Verif.Props.DoubleCrossing
import Verif.Props.Tiles

/-! # C80 with doubles: rectangles whose widths and heights are powers of two -/

namespace River

/-- Coordinates of at most 32768 in magnitude, and a width and a height that are powers of two. -/
structure Tile.Dyadic (r : Tile ℤ) : Prop where
  grid : (|r.x1| ≤ 2 ^ 15 ∧ |r.y1| ≤ 2 ^ 15) ∧ |r.x2| ≤ 2 ^ 15 ∧ |r.y2| ≤ 2 ^ 15
  wide : ∃ k : ℕ, r.x2 - r.x1 = 2 ^ k
  high : ∃ k : ℕ, r.y2 - r.y1 = 2 ^ k

/-- Two rectangles without overlapping sides: where two of their sides lie on the same line, they have at most an end in common. -/
def Tile.Apart (r s : Tile ℤ) : Prop :=
  ((r.x1 ≠ s.x1 ∧ r.x1 ≠ s.x2 ∧ r.x2 ≠ s.x1 ∧ r.x2 ≠ s.x2) ∨ r.y2 ≤ s.y1 ∨ s.y2 ≤ r.y1) ∧
  ((r.y1 ≠ s.y1 ∧ r.y1 ≠ s.y2 ∧ r.y2 ≠ s.y1 ∧ r.y2 ≠ s.y2) ∨ r.x2 ≤ s.x1 ∨ s.x2 ≤ r.x1)

theorem Tile.Dyadic.proper {r : Tile ℤ} (h : r.Dyadic) : r.Proper := by
  obtain ⟨k, hk⟩ := h.wide
  obtain ⟨l, hl⟩ := h.high
  have : (0 : ℤ) < 2 ^ k := by positivity
  have : (0 : ℤ) < 2 ^ l := by positivity
  exact ⟨by omega, by omega⟩

theorem Tile.Dyadic.whole {r : Tile ℤ} (h : r.Dyadic) : r.Whole := by
  obtain ⟨⟨h1, h2⟩, h3, h4⟩ := h.grid
  rw [abs_le] at h1 h2 h3 h4
  have b : (2 : ℤ) ^ 15 ≤ 2 ^ 200 := by norm_num
  have b' : (2 : ℤ) ^ 15 = 32768 := by norm_num
  refine ⟨h.proper, by omega, by omega, ⟨by omega, by omega⟩, by omega, by omega⟩

theorem Tile.Dyadic.corner {r : Tile ℤ} (h : r.Dyadic) {p : Vec2 ℚ} (hp : p ∈ (r.cast : Tile ℚ).corners) : OnGrid p := by
  obtain ⟨⟨h1, h2⟩, h3, h4⟩ := h.grid
  simp only [Tile.corners, List.mem_cons, List.not_mem_nil, or_false] at hp
  rcases hp with rfl | rfl | rfl | rfl
  · exact ⟨_, _, h1, h2, rfl⟩
  · exact ⟨_, _, h3, h2, rfl⟩
  · exact ⟨_, _, h3, h4, rfl⟩
  · exact ⟨_, _, h1, h4, rfl⟩

theorem Tile.Dyadic.side {r : Tile ℤ} (h : r.Dyadic) {s : Vec2 ℚ × Vec2 ℚ} (hs : s ∈ polySides (r.cast : Tile ℚ).corners) : OnGrid s.1 ∧ OnGrid s.2 := by
  unfold polySides at hs
  have := List.of_mem_zip hs
  exact ⟨h.corner this.1, h.corner (List.mem_rotate.1 this.2)⟩

/-- A horizontal and a vertical side cross where doubles can tell. -/
theorem perp_exact {r t : Tile ℤ} (hr : r.Dyadic) (ht : t.Dyadic) {p q : Vec2 ℚ × Vec2 ℚ} (mp : p ∈ polySides (r.cast : Tile ℚ).corners)
    (mq : q ∈ polySides (t.cast : Tile ℚ).corners) (hp : (r.cast : Tile ℚ).HSide p) (hq : (t.cast : Tile ℚ).VSide q) : ExactMeet p q := by
  obtain ⟨k, hk⟩ := hr.wide
  obtain ⟨l, hl⟩ := ht.high
  have hk' : (r.x2 : ℚ) - r.x1 = 2 ^ k := by exact_mod_cast hk
  have hl' : (t.y2 : ℚ) - t.y1 = 2 ^ l := by exact_mod_cast hl
  obtain ⟨p1, p2⟩ := hr.side mp
  obtain ⟨q1, q2⟩ := ht.side mq
  refine exactMeet_dyadic p1 p2 q1 q2 (k := k + l) ?_ ?_
  · have e1 : |p.2.x - p.1.x| = 2 ^ k := by
      rw [← hk', ← abs_of_pos (by rw [hk']; positivity : (0 : ℚ) < r.x2 - r.x1)]
      rcases hp.2.2 with ⟨a, b⟩ | ⟨a, b⟩ <;> rw [a, b]
      · rfl
      · exact abs_sub_comm _ _
    have e2 : |q.2.y - q.1.y| = 2 ^ l := by
      rw [← hl', ← abs_of_pos (by rw [hl']; positivity : (0 : ℚ) < t.y2 - t.y1)]
      rcases hq.2.2 with ⟨a, b⟩ | ⟨a, b⟩ <;> rw [a, b]
      · rfl
      · exact abs_sub_comm _ _
    unfold crossProd segDir
    simp only [hp.1, hq.1, sub_self, zero_mul, mul_zero, sub_zero]
    rw [abs_mul, e1, e2, pow_add]
  · rintro w ⟨a, _, _, e1⟩ ⟨b, _, _, e2⟩
    have ey : w.y = p.1.y := by
      have : w.y = p.1.y + a * (p.2.y - p.1.y) := congrArg Vec2.y e1
      rw [this, ← hp.1]; ring
    have ex : w.x = q.1.x := by
      have : w.x = q.1.x + b * (q.2.x - q.1.x) := congrArg Vec2.x e2
      rw [this, ← hq.1]; ring
    obtain ⟨_, y, _, hy, f1⟩ := p1
    obtain ⟨x, _, hx, _, f2⟩ := q1
    exact ⟨x, y, hx, hy, Vec2.ext (by rw [ex, f2]) (by rw [ey, f1])⟩

/-- What two parallel sides may have in common. -/
def TipsOnly (s t : Vec2 ℚ × Vec2 ℚ) : Prop := ∀ p, OnSeg p s.1 s.2 → OnSeg p t.1 t.2 → (p = s.1 ∨ p = s.2) ∧ (p = t.1 ∨ p = t.2)

theorem TipsOnly.symm {s t : Vec2 ℚ × Vec2 ℚ} (h : TipsOnly s t) : TipsOnly t s := fun p h1 h2 => (h p h2 h1).symm

/-- Intervals with at most an end in common. -/
theorem interval_ends {u v u' v' a b a' b' z τ τ' : ℚ} (h : v ≤ u' ∨ v' ≤ u) (h1 : (a = u ∧ b = v) ∨ (a = v ∧ b = u)) (h2 : (a' = u' ∧ b' = v') ∨ (a' = v' ∧ b' = u'))
    (huv : u ≤ v) (huv' : u' ≤ v') (t0 : 0 ≤ τ) (t1 : τ ≤ 1) (s0 : 0 ≤ τ') (s1 : τ' ≤ 1) (e1 : z = a + τ * (b - a)) (e2 : z = a' + τ' * (b' - a')) :
    (z = a ∨ z = b) ∧ (z = a' ∨ z = b') := by
  have r1 : u ≤ z ∧ z ≤ v := by
    rcases h1 with ⟨rfl, rfl⟩ | ⟨rfl, rfl⟩
    · constructor <;> nlinarith [mul_nonneg t0 (sub_nonneg.2 huv), mul_nonneg (sub_nonneg.2 t1) (sub_nonneg.2 huv)]
    · constructor <;> nlinarith [mul_nonneg t0 (sub_nonneg.2 huv), mul_nonneg (sub_nonneg.2 t1) (sub_nonneg.2 huv)]
  have r2 : u' ≤ z ∧ z ≤ v' := by
    rcases h2 with ⟨rfl, rfl⟩ | ⟨rfl, rfl⟩
    · constructor <;> nlinarith [mul_nonneg s0 (sub_nonneg.2 huv'), mul_nonneg (sub_nonneg.2 s1) (sub_nonneg.2 huv')]
    · constructor <;> nlinarith [mul_nonneg s0 (sub_nonneg.2 huv'), mul_nonneg (sub_nonneg.2 s1) (sub_nonneg.2 huv')]
  rcases h with h | h
  · have e : z = v := le_antisymm r1.2 (h.trans r2.1)
    have e' : z = u' := le_antisymm (r1.2.trans h) r2.1
    constructor
    · rcases h1 with ⟨rfl, rfl⟩ | ⟨rfl, rfl⟩ <;> simp [e]
    · rcases h2 with ⟨rfl, rfl⟩ | ⟨rfl, rfl⟩ <;> simp [e']
  · have e : z = u := le_antisymm (r2.2.trans h) r1.1
    have e' : z = v' := le_antisymm r2.2 (h.trans r1.1)
    constructor
    · rcases h1 with ⟨rfl, rfl⟩ | ⟨rfl, rfl⟩ <;> simp [e]
    · rcases h2 with ⟨rfl, rfl⟩ | ⟨rfl, rfl⟩ <;> simp [e']

theorem flip_ends {z a b : Vec2 ℚ} {c : ℚ} (hz : z.y = c) (ha : a.y = c) (hb : b.y = c) (h : z.x = a.x ∨ z.x = b.x) : z = a ∨ z = b :=
  h.imp (fun h => Vec2.ext h (hz.trans ha.symm)) (fun h => Vec2.ext h (hz.trans hb.symm))

theorem flip_ends' {z a b : Vec2 ℚ} {c : ℚ} (hz : z.x = c) (ha : a.x = c) (hb : b.x = c) (h : z.y = a.y ∨ z.y = b.y) : z = a ∨ z = b :=
  h.imp (fun h => Vec2.ext (hz.trans ha.symm) h) (fun h => Vec2.ext (hz.trans hb.symm) h)

theorem par_h {r t : Tile ℤ} (hr : r.Proper) (ht : t.Proper) {p q : Vec2 ℚ × Vec2 ℚ} (hp : (r.cast : Tile ℚ).HSide p) (hq : (t.cast : Tile ℚ).HSide q)
    (h : p.1.y ≠ q.1.y ∨ r.x2 ≤ t.x1 ∨ t.x2 ≤ r.x1) : TipsOnly p q := by
  rintro w ⟨a, a0, a1, e1⟩ ⟨b, b0, b1, e2⟩
  have ey : w.y = p.1.y := by
    have : w.y = p.1.y + a * (p.2.y - p.1.y) := congrArg Vec2.y e1
    rw [this, ← hp.1]; ring
  have ey' : w.y = q.1.y := by
    have : w.y = q.1.y + b * (q.2.y - q.1.y) := congrArg Vec2.y e2
    rw [this, ← hq.1]; ring
  have h' := h.resolve_left (fun h => h (ey.symm.trans ey'))
  have h'' : (r.x2 : ℚ) ≤ t.x1 ∨ (t.x2 : ℚ) ≤ r.x1 := h'.imp (fun h => by exact_mod_cast h) (fun h => by exact_mod_cast h)
  obtain ⟨f1, f2⟩ := interval_ends h'' hp.2.2 hq.2.2 (show (r.x1 : ℚ) ≤ r.x2 by exact_mod_cast hr.1.le) (show (t.x1 : ℚ) ≤ t.x2 by exact_mod_cast ht.1.le)
    a0 a1 b0 b1 (congrArg Vec2.x e1) (congrArg Vec2.x e2)
  exact ⟨flip_ends ey rfl hp.1.symm f1, flip_ends ey' rfl hq.1.symm f2⟩

theorem par_v {r t : Tile ℤ} (hr : r.Proper) (ht : t.Proper) {p q : Vec2 ℚ × Vec2 ℚ} (hp : (r.cast : Tile ℚ).VSide p) (hq : (t.cast : Tile ℚ).VSide q)
    (h : p.1.x ≠ q.1.x ∨ r.y2 ≤ t.y1 ∨ t.y2 ≤ r.y1) : TipsOnly p q := by
  rintro w ⟨a, a0, a1, e1⟩ ⟨b, b0, b1, e2⟩
  have ey : w.x = p.1.x := by
    have : w.x = p.1.x + a * (p.2.x - p.1.x) := congrArg Vec2.x e1
    rw [this, ← hp.1]; ring
  have ey' : w.x = q.1.x := by
    have : w.x = q.1.x + b * (q.2.x - q.1.x) := congrArg Vec2.x e2
    rw [this, ← hq.1]; ring
  have h' := h.resolve_left (fun h => h (ey.symm.trans ey'))
  have h'' : (r.y2 : ℚ) ≤ t.y1 ∨ (t.y2 : ℚ) ≤ r.y1 := h'.imp (fun h => by exact_mod_cast h) (fun h => by exact_mod_cast h)
  obtain ⟨f1, f2⟩ := interval_ends h'' hp.2.2 hq.2.2 (show (r.y1 : ℚ) ≤ r.y2 by exact_mod_cast hr.2.le) (show (t.y1 : ℚ) ≤ t.y2 by exact_mod_cast ht.2.le)
    a0 a1 b0 b1 (congrArg Vec2.y e1) (congrArg Vec2.y e2)
  exact ⟨flip_ends' ey rfl hp.1.symm f1, flip_ends' ey' rfl hq.1.symm f2⟩

/-- Sides of two rectangles. -/
theorem sides_meet {r t : Tile ℤ} (hr : r.Dyadic) (ht : t.Dyadic) (ha : r.Apart t) {p q : Vec2 ℚ × Vec2 ℚ} (mp : p ∈ polySides (r.cast : Tile ℚ).corners)
    (mq : q ∈ polySides (t.cast : Tile ℚ).corners) : TipsOnly p q ∨ ExactMeet p q := by
  rcases Tile.side_cases mp with hp | hp <;> rcases Tile.side_cases mq with hq | hq
  · left
    refine par_h hr.proper ht.proper hp hq (ha.2.imp (fun h => ?_) id)
    obtain ⟨a, b, c, d⟩ := h
    rcases hp.2.1 with e | e <;> rcases hq.2.1 with f | f <;> rw [e, f] <;> simp only [Tile.cast] <;> exact_mod_cast ‹_›
  · exact Or.inr (perp_exact hr ht mp mq hp hq)
  · exact Or.inr (perp_exact ht hr mq mp hq hp).symm
  · left
    refine par_v hr.proper ht.proper hp hq (ha.1.imp (fun h => ?_) id)
    obtain ⟨a, b, c, d⟩ := h
    rcases hp.2.1 with e | e <;> rcases hq.2.1 with f | f <;> rw [e, f] <;> simp only [Tile.cast] <;> exact_mod_cast ‹_›

/-- The sides of one rectangle. -/
theorem tile_meets {r : Tile ℤ} (hr : r.Dyadic) : (polySides (r.cast : Tile ℚ).corners).Pairwise (fun p q => TipsOnly p q ∨ ExactMeet p q) := by
  have hx : (r.x1 : ℚ) ≠ r.x2 := by exact_mod_cast hr.proper.1.ne
  have hy : (r.y1 : ℚ) ≠ r.y2 := by exact_mod_cast hr.proper.2.ne
  have m := Tile.sides_eq (r.cast : Tile ℚ)
  obtain ⟨b, hb⟩ : ∃ s : Vec2 ℚ × Vec2 ℚ, s = (⟨(r.cast : Tile ℚ).x1, (r.cast : Tile ℚ).y1⟩, ⟨(r.cast : Tile ℚ).x2, (r.cast : Tile ℚ).y1⟩) := ⟨_, rfl⟩
  obtain ⟨ri, hri⟩ : ∃ s : Vec2 ℚ × Vec2 ℚ, s = (⟨(r.cast : Tile ℚ).x2, (r.cast : Tile ℚ).y1⟩, ⟨(r.cast : Tile ℚ).x2, (r.cast : Tile ℚ).y2⟩) := ⟨_, rfl⟩
  obtain ⟨t, ht⟩ : ∃ s : Vec2 ℚ × Vec2 ℚ, s = (⟨(r.cast : Tile ℚ).x2, (r.cast : Tile ℚ).y2⟩, ⟨(r.cast : Tile ℚ).x1, (r.cast : Tile ℚ).y2⟩) := ⟨_, rfl⟩
  obtain ⟨le, hle⟩ : ∃ s : Vec2 ℚ × Vec2 ℚ, s = (⟨(r.cast : Tile ℚ).x1, (r.cast : Tile ℚ).y2⟩, ⟨(r.cast : Tile ℚ).x1, (r.cast : Tile ℚ).y1⟩) := ⟨_, rfl⟩
  rw [← hb, ← hri, ← ht, ← hle] at m
  have kb : (r.cast : Tile ℚ).HSide b := by rw [hb]; exact ⟨rfl, Or.inl rfl, Or.inl ⟨rfl, rfl⟩⟩
  have kr : (r.cast : Tile ℚ).VSide ri := by rw [hri]; exact ⟨rfl, Or.inr rfl, Or.inl ⟨rfl, rfl⟩⟩
  have kt : (r.cast : Tile ℚ).HSide t := by rw [ht]; exact ⟨rfl, Or.inr rfl, Or.inr ⟨rfl, rfl⟩⟩
  have kl : (r.cast : Tile ℚ).VSide le := by rw [hle]; exact ⟨rfl, Or.inl rfl, Or.inr ⟨rfl, rfl⟩⟩
  have mb : b ∈ polySides (r.cast : Tile ℚ).corners := by rw [m]; simp
  have mr : ri ∈ polySides (r.cast : Tile ℚ).corners := by rw [m]; simp
  have mt : t ∈ polySides (r.cast : Tile ℚ).corners := by rw [m]; simp
  have ml : le ∈ polySides (r.cast : Tile ℚ).corners := by rw [m]; simp
  have bt : TipsOnly b t := par_h hr.proper hr.proper kb kt (Or.inl (by rw [hb, ht]; exact hy))
  have rl : TipsOnly ri le := par_v hr.proper hr.proper kr kl (Or.inl (by rw [hri, hle]; exact hx.symm))
  rw [m]
  simp only [List.pairwise_cons, List.mem_cons, List.not_mem_nil, or_false, List.Pairwise.nil, and_true, forall_eq_or_imp, forall_eq, IsEmpty.forall_iff,
    implies_true]
  exact ⟨⟨Or.inr (perp_exact hr hr mb mr kb kr), Or.inl bt, Or.inr (perp_exact hr hr mb ml kb kl)⟩,
    ⟨Or.inr (perp_exact hr hr mt mr kt kr).symm, Or.inl rl⟩, Or.inr (perp_exact hr hr mt ml kt kl)⟩

/-- Rectangles that meet the hypotheses of `process_doubles_crossing`. -/
theorem dyadic_cross {R : List (Tile ℤ)} (h : ∀ r ∈ R, r.Dyadic) (ha : R.Pairwise Tile.Apart) :
    CrossPolygons ((R.map (Tile.cast (K := ℚ))).map Tile.corners) := by
  refine ⟨(Tile.Whole.clear (fun r hr => (h r hr).whole)).general, ?_, ?_⟩
  · intro P hP p hp
    obtain ⟨r', hr', rfl⟩ := List.mem_map.1 hP
    obtain ⟨r, hr, rfl⟩ := List.mem_map.1 hr'
    exact (h r hr).corner hp
  · rw [List.pairwise_flatMap]
    refine ⟨?_, ?_⟩
    · intro P hP
      obtain ⟨r', hr', rfl⟩ := List.mem_map.1 hP
      obtain ⟨r, hr, rfl⟩ := List.mem_map.1 hr'
      exact tile_meets (h r hr)
    · rw [List.pairwise_map, List.pairwise_map]
      refine ha.imp_of_mem (fun {r t} hr ht hrt p hp q hq => ?_)
      exact sides_meet (h r hr) (h t ht) hrt hp hq

open Classical in
/-- **C80** with doubles. Rectangles with whole coordinates of at most 32768 in magnitude, with widths and heights that are powers of two, and without
overlapping sides: the union and the intersection computed with doubles are the exact ones, and all corners lie on the grid. -/
theorem process_doubles_tiles (env : Env R64) (hok : env.Ok) (msort : List (LocMin R64) → List (LocMin R64)) (hm : MinSort msort) (R S : List (Tile ℤ))
    (h : ∀ r ∈ R ++ S, r.Dyadic) (ha : (R ++ S).Pairwise Tile.Apart) (ct : ClipType) (fr : FillRule) (hct : ct = .union ∨ ct = .intersection)
    (hfr : fr = .positive ∨ fr = .nonZero) :
    ∃ c1 c2 : Clipper R64, (Clipper.new (K := R64)).addPath (R.map (fun r => Path.build (polyCmds ((r.cast : Tile ℚ).corners.map toR64)))) .subject = some c1 ∧
      c1.addPath (S.map (fun r => Path.build (polyCmds ((r.cast : Tile ℚ).corners.map toR64)))) .clip = some c2 ∧
      ∃ n, ∀ fuel, n ≤ fuel → ∃ (c' : Clipper R64) (out : List (List (Vec2 ℚ))),
        c2.process env msort fuel ct fr Path.recorder [] = some (some (c', out.flatMap (fun Q => eventsFrom zeroPt (closedCmds (Q.map toR64))))) ∧
        (∀ X y, polyWinding out X y = if InTiles ct (R.map (Tile.cast (K := ℚ))) (S.map Tile.cast) X y then 1 else 0) ∧
        ∀ s ∈ out.flatMap polySides, s.1.y ≠ s.2.y → OnGrid s.1 ∧ OnGrid s.2 := by
  have hp : ∀ r ∈ R.map (Tile.cast (K := ℚ)) ++ S.map Tile.cast, r.Proper := by
    rw [← List.map_append]
    exact (Tile.Whole.clear (fun r hr => (h r hr).whole)).proper
  have G : CrossPolygons ((R.map (Tile.cast (K := ℚ))).map Tile.corners ++ (S.map (Tile.cast (K := ℚ))).map Tile.corners) := by
    rw [← List.map_append, ← List.map_append]; exact dyadic_cross h ha
  obtain ⟨c1, c2, h1, h2, n, hn⟩ := process_doubles_crossing env hok msort hm _ _ G ct fr 1 (Or.inl rfl) (tiles_consistent hp hct hfr)
  rw [List.map_map, List.map_map] at h1 h2
  refine ⟨c1, c2, h1, h2, n, fun fuel hf => ?_⟩
  obtain ⟨c', out, h3, h4, h5⟩ := hn fuel hf
  refine ⟨c', out, h3, fun X y => ?_, fun s hs hf => ⟨(h5 s hs hf).1, (h5 s hs hf).2.1⟩⟩
  rw [h4]
  exact if_congr (inResult_tiles hp hct hfr X y) rfl rfl

end River
