import Verif.Props.DoublePolygons
import Verif.Props.PolygonsDemo

/-! # The hypotheses of `process_doubles`: a check, and a case that meets them -/

namespace River

/-- Twice the signed area of a triangle. -/
def orient3 (a b c : Vec2 ℚ) : ℚ := (b.x - a.x) * (c.y - a.y) - (b.y - a.y) * (c.x - a.x)

/-- A sufficient check that two sides meet at most in common ends: one lies to one side of the other, or they share an end and are not in line. -/
def endsB (s t : Vec2 ℚ × Vec2 ℚ) : Bool :=
  decide (0 < orient3 s.1 s.2 t.1 * orient3 s.1 s.2 t.2) || decide (0 < orient3 t.1 t.2 s.1 * orient3 t.1 t.2 s.2) ||
  (decide (orient3 s.1 s.2 t.1 ≠ 0 ∨ orient3 s.1 s.2 t.2 ≠ 0) &&
    (decide (s.1 = t.1) || decide (s.1 = t.2) || decide (s.2 = t.1) || decide (s.2 = t.2))) ||
  decide (max s.1.x s.2.x < min t.1.x t.2.x ∨ max t.1.x t.2.x < min s.1.x s.2.x ∨ max s.1.y s.2.y < min t.1.y t.2.y ∨ max t.1.y t.2.y < min s.1.y s.2.y)

theorem orient_off {p a b c d : Vec2 ℚ} (h : 0 < orient3 a b c * orient3 a b d) (h1 : OnSeg p a b) (h2 : OnSeg p c d) : False := by
  obtain ⟨t, _, _, e1⟩ := h1
  obtain ⟨u, u0, u1, e2⟩ := h2
  have ex : a.x + t * (b.x - a.x) = c.x + u * (d.x - c.x) := congrArg Vec2.x (e1.symm.trans e2)
  have ey : a.y + t * (b.y - a.y) = c.y + u * (d.y - c.y) := congrArg Vec2.y (e1.symm.trans e2)
  have e : (1 - u) * orient3 a b c + u * orient3 a b d = 0 := by
    unfold orient3
    linear_combination (b.y - a.y) * ex - (b.x - a.x) * ey
  have e' : (1 - u) * (orient3 a b c * orient3 a b c) + u * (orient3 a b c * orient3 a b d) = 0 := by linear_combination orient3 a b c * e
  have h1 := mul_nonneg (sub_nonneg.2 u1) (mul_self_nonneg (orient3 a b c))
  have h2 := mul_nonneg u0 h.le
  have z1 : u * (orient3 a b c * orient3 a b d) = 0 := by linarith
  have z2 : (1 - u) * (orient3 a b c * orient3 a b c) = 0 := by linarith
  rcases mul_eq_zero.1 z1 with z | z
  · rw [z, sub_zero, one_mul] at z2
    rw [mul_self_eq_zero.1 z2, zero_mul] at h
    exact lt_irrefl _ h
  · rw [z] at h; exact lt_irrefl _ h

/-- Segments from a common end that are not in line. -/
theorem orient_fork {p a b c : Vec2 ℚ} (h : orient3 a b c ≠ 0) (h1 : OnSeg p a b) (h2 : OnSeg p a c) : p = a := by
  obtain ⟨t, _, _, e1⟩ := h1
  obtain ⟨u, _, _, e2⟩ := h2
  have ex : a.x + t * (b.x - a.x) = a.x + u * (c.x - a.x) := congrArg Vec2.x (e1.symm.trans e2)
  have ey : a.y + t * (b.y - a.y) = a.y + u * (c.y - a.y) := congrArg Vec2.y (e1.symm.trans e2)
  have : t * orient3 a b c = 0 := by unfold orient3; linear_combination (c.y - a.y) * ex - (c.x - a.x) * ey
  have t0 : t = 0 := (mul_eq_zero.1 this).resolve_right h
  rw [e1, t0]
  exact Vec2.ext (by change a.x + 0 * (b.x - a.x) = a.x; ring) (by change a.y + 0 * (b.y - a.y) = a.y; ring)

theorem OnSeg.flip {p a b : Vec2 ℚ} (h : OnSeg p a b) : OnSeg p b a := by
  obtain ⟨t, t0, t1, e⟩ := h
  refine ⟨1 - t, by linarith, by linarith, ?_⟩
  rw [e]
  exact Vec2.ext (by change a.x + t * (b.x - a.x) = b.x + (1 - t) * (a.x - b.x); ring) (by change a.y + t * (b.y - a.y) = b.y + (1 - t) * (a.y - b.y); ring)

theorem endsB_sound {s t : Vec2 ℚ × Vec2 ℚ} (h : endsB s t = true) (p : Vec2 ℚ) (h1 : OnSeg p s.1 s.2) (h2 : OnSeg p t.1 t.2) :
    (p = s.1 ∨ p = s.2) ∧ (p = t.1 ∨ p = t.2) := by
  obtain ⟨a, b⟩ := s
  obtain ⟨c, d⟩ := t
  simp only [endsB, Bool.or_eq_true, Bool.and_eq_true, decide_eq_true_eq] at h h1 h2 ⊢
  rcases h with ((h | h) | ⟨h, h'⟩) | h
  · exact (orient_off h h1 h2).elim
  · exact (orient_off h h2 h1).elim
  · have z1 : ∀ a b : Vec2 ℚ, orient3 a b a = 0 ∧ orient3 a b b = 0 := fun a b => by unfold orient3; constructor <;> ring
    rcases h' with ((rfl | rfl) | rfl) | rfl
    · have := orient_fork (h.resolve_left (fun h => h (z1 _ _).1)) h1 h2
      exact ⟨Or.inl this, Or.inl this⟩
    · have := orient_fork (h.resolve_right (fun h => h (z1 _ _).1)) h1 h2.flip
      exact ⟨Or.inl this, Or.inr this⟩
    · have e : orient3 b a d ≠ 0 := fun e => h.resolve_left (fun h => h (z1 _ _).2) (by unfold orient3 at *; linear_combination -e)
      have := orient_fork e h1.flip h2
      exact ⟨Or.inr this, Or.inl this⟩
    · have e : orient3 b a c ≠ 0 := fun e => h.resolve_right (fun h => h (z1 _ _).2) (by unfold orient3 at *; linear_combination -e)
      have := orient_fork e h1.flip h2.flip
      exact ⟨Or.inr this, Or.inr this⟩
  · have r1 := onSeg_range h1
    have r2 := onSeg_range h2
    rcases h with h | h | h | h
    · exact absurd (r2.2.1.trans r1.2.2) (not_le.2 h)
    · exact absurd (r1.2.1.trans r2.2.2) (not_le.2 h)
    · exact absurd (r2.1.1.trans r1.1.2) (not_le.2 h)
    · exact absurd (r1.1.1.trans r2.1.2) (not_le.2 h)

/-- Polygons given by whole numbers. -/
def gridPoly (l : List (ℤ × ℤ)) : List (Vec2 ℚ) := l.map (fun p => ⟨p.1, p.2⟩)

/-- A check for the hypotheses of `process_doubles`. -/
theorem gridPolygons_of {Ps : List (List (ℤ × ℤ))} (h1 : ∀ P ∈ Ps, ∀ p ∈ P, |p.1| ≤ 2 ^ 15 ∧ |p.2| ≤ 2 ^ 15) (h2 : generalB (Ps.map gridPoly) = true)
    (h3 : ((Ps.map gridPoly).flatMap polySides).Pairwise (fun s t => endsB s t = true)) : GridPolygons (Ps.map gridPoly) := by
  refine ⟨generalB_sound h2, ?_, h3.imp (fun h => endsB_sound h)⟩
  intro P hP p hp
  obtain ⟨P, hP', rfl⟩ := List.mem_map.1 hP
  obtain ⟨q, hq, rfl⟩ := List.mem_map.1 hp
  exact ⟨q.1, q.2, (h1 P hP' q hq).1, (h1 P hP' q hq).2, rfl⟩

/-- A slanted frame: a hexagon and, the other way round, a quadrilateral inside it. -/
def dblFrame : List (List (ℤ × ℤ)) :=
  [[(-30000, -7001), (1, -32768), (32768, -20000), (29999, 25001), (7, 32767), (-32767, 12345)], [(-9000, -5003), (-1001, 8009), (9973, 3001), (4001, -7919)]]

/-- A triangle inside the quadrilateral, and another one that touches it in one corner. -/
def dblInner : List (List (ℤ × ℤ)) := [[(-3001, -1999), (1999, -3001), (101, 3)], [(101, 3), (4001, -997), (2003, 2999)]]

theorem dblFrame_grid : GridPolygons (dblFrame.map gridPoly ++ dblInner.map gridPoly) := by
  rw [← List.map_append]
  exact gridPolygons_of (by decide +kernel) (by decide +kernel) (by decide +kernel)

/-- **C75** applied: their union computed with doubles. -/
theorem dblFrame_union (env : Env R64) (hok : env.Ok) (msort : List (LocMin R64) → List (LocMin R64)) (hm : MinSort msort) :
    ∃ c1 c2 : Clipper R64, (Clipper.new (K := R64)).addPath ((dblFrame.map gridPoly).map (fun P => Path.build (polyCmds (P.map toR64)))) .subject = some c1 ∧
      c1.addPath ((dblInner.map gridPoly).map (fun P => Path.build (polyCmds (P.map toR64)))) .clip = some c2 ∧
      ∃ n, ∀ fuel, n ≤ fuel → ∃ (c' : Clipper R64) (out : List (List (Vec2 ℚ))),
        c2.process env msort fuel .union .positive Path.recorder [] = some (some (c', out.flatMap (fun Q => eventsFrom zeroPt (closedCmds (Q.map toR64))))) ∧
        polyWinding out 0 20000 = 1 ∧ polyWinding out 0 5000 = 0 ∧ polyWinding out 0 (-1000) = 1 ∧ polyWinding out 30000 30000 = 0 := by
  obtain ⟨c1, c2, h1, h2, n, hn⟩ := process_doubles env hok msort hm _ _ dblFrame_grid .union .positive 1 (Or.inl rfl) (consistent_positive _ _ _ (Or.inl rfl))
  refine ⟨c1, c2, h1, h2, n, fun fuel hf => ?_⟩
  obtain ⟨c', out, h3, h4, _⟩ := hn fuel hf
  refine ⟨c', out, h3, ?_, ?_, ?_, ?_⟩
  · rw [h4, if_pos]
    exact Or.inl (show 0 < polyWinding (dblFrame.map gridPoly) 0 20000 by decide +kernel)
  · rw [h4, if_neg]
    rintro (h | h)
    · exact absurd (show 0 < polyWinding (dblFrame.map gridPoly) 0 5000 from h) (by decide +kernel)
    · exact absurd (show 0 < polyWinding (dblInner.map gridPoly) 0 5000 from h) (by decide +kernel)
  · rw [h4, if_pos]
    exact Or.inr (show 0 < polyWinding (dblInner.map gridPoly) 0 (-1000) by decide +kernel)
  · rw [h4, if_neg]
    rintro (h | h)
    · exact absurd (show 0 < polyWinding (dblFrame.map gridPoly) 30000 30000 from h) (by decide +kernel)
    · exact absurd (show 0 < polyWinding (dblInner.map gridPoly) 30000 30000 from h) (by decide +kernel)

end River
