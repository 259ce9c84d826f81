import Verif.Props.Line
import Verif.Model.Dcel

/-!
# Breaking of half edges that lie on one line (C48)

Level: exact arithmetic with IEEE special values (`Ext R`, `R` any ordered field), finite coordinates.
-/

set_option linter.unusedSectionVars false

namespace River
variable {R : Type} [Field R] [LinearOrder R] [IsStrictOrderedRing R]

theorem inside_iff_param {a b : Vec2 R} (hab : a ≠ b) (t : R) : InsideSeg (lerp a b t) a b ↔ 0 < t ∧ t < 1 := by
  have := insideSeg_lerp a b hab 0 1 t (by norm_num)
  rw [lerp_zero, lerp_one] at this
  rw [this]
  constructor
  · intro h
    rcases mul_neg_between h with ⟨h1, h2⟩ | ⟨h1, h2⟩ <;> constructor <;> linarith
  · rintro ⟨h1, h2⟩
    nlinarith

/-- **C48**: when two common points are found (edges of positive length on one line), each edge is broken exactly at those that are inside it; when
one is found, both edges are broken there. -/
theorem dcelIntersect_breaks (p0 p1 p2 p3 : Vec2 R) (h01 : p0 ≠ p1) (h23 : p2 ≠ p3) (hr2 : p2.InRange) (hr0 : p0.InRange) :
    ∃ l bl br, lineIntersect p0.fin p1.fin p2.fin p3.fin = some l ∧ dcelIntersect p0.fin p1.fin p2.fin p3.fin = some (bl, br) ∧
      (l.length = 1 → ∀ q : Vec2 R, (q.fin ∈ bl ↔ ∃ i ∈ l, i.p = q.fin) ∧ (q.fin ∈ br ↔ ∃ i ∈ l, i.p = q.fin)) ∧
      (l.length = 2 → ∀ q : Vec2 R, (q.fin ∈ bl ↔ (∃ i ∈ l, i.p = q.fin) ∧ InsideSeg q p0 p1) ∧
        (q.fin ∈ br ↔ (∃ i ∈ l, i.p = q.fin) ∧ InsideSeg q p2 p3)) ∧
      (l.length = 0 → bl = [] ∧ br = []) := by
  obtain ⟨l, hl, hc⟩ := lineIntersect_sound p0 p1 p2 p3 h01 hr2 hr0
  by_cases h1 : l.length = 1
  · refine ⟨l, l.map (·.p), l.map (·.p), hl, ?_, fun _ q => ?_, fun h2 => by omega, fun h0 => by omega⟩
    · unfold dcelIntersect
      rw [hl]
      simp [h1]
    · simp
  · by_cases h2 : l.length = 2
    · refine ⟨l, (l.filter (fun i => (FNum.lit 0 <. i.t0) && (i.t0 <. FNum.lit 1))).map (·.p),
        (l.filter (fun i => (FNum.lit 0 <. i.t1) && (i.t1 <. FNum.lit 1))).map (·.p), hl, ?_, fun h => absurd h h1, fun _ q => ?_, fun h0 => by omega⟩
      · unfold dcelIntersect
        rw [hl]
        simp only [Option.bind_eq_bind, Option.bind_some, h2]
        rfl
      · constructor
        · simp only [List.mem_map, List.mem_filter, Bool.and_eq_true]
          constructor
          · rintro ⟨i, ⟨hi, ha, hb⟩, hq⟩
            obtain ⟨p, s, t, c⟩ := hc i hi
            refine ⟨⟨i, hi, hq⟩, ?_⟩
            rw [c.t0_eq] at ha hb
            simp only [Ext.lit_eq, Ext.fin_lt, decide_eq_true_eq, Rat.cast_zero, Rat.cast_one] at ha hb
            have : p = q := by have := c.p_eq.symm.trans hq; rwa [Vec2.fin_inj] at this
            rw [← this, c.on0]
            exact (inside_iff_param h01 s).2 ⟨ha, hb⟩
          · rintro ⟨⟨i, hi, hq⟩, hin⟩
            obtain ⟨p, s, t, c⟩ := hc i hi
            have : p = q := by have := c.p_eq.symm.trans hq; rwa [Vec2.fin_inj] at this
            rw [← this, c.on0] at hin
            have hs := (inside_iff_param h01 s).1 hin
            refine ⟨i, ⟨hi, ?_, ?_⟩, hq⟩ <;> rw [c.t0_eq] <;>
              simp only [Ext.lit_eq, Ext.fin_lt, decide_eq_true_eq, Rat.cast_zero, Rat.cast_one]
            · exact hs.1
            · exact hs.2
        · simp only [List.mem_map, List.mem_filter, Bool.and_eq_true]
          constructor
          · rintro ⟨i, ⟨hi, ha, hb⟩, hq⟩
            obtain ⟨p, s, t, c⟩ := hc i hi
            refine ⟨⟨i, hi, hq⟩, ?_⟩
            rw [c.t1_eq] at ha hb
            simp only [Ext.lit_eq, Ext.fin_lt, decide_eq_true_eq, Rat.cast_zero, Rat.cast_one] at ha hb
            have : p = q := by have := c.p_eq.symm.trans hq; rwa [Vec2.fin_inj] at this
            rw [← this, c.on1]
            exact (inside_iff_param h23 t).2 ⟨ha, hb⟩
          · rintro ⟨⟨i, hi, hq⟩, hin⟩
            obtain ⟨p, s, t, c⟩ := hc i hi
            have : p = q := by have := c.p_eq.symm.trans hq; rwa [Vec2.fin_inj] at this
            rw [← this, c.on1] at hin
            have hs := (inside_iff_param h23 t).1 hin
            refine ⟨i, ⟨hi, ?_, ?_⟩, hq⟩ <;> rw [c.t1_eq] <;>
              simp only [Ext.lit_eq, Ext.fin_lt, decide_eq_true_eq, Rat.cast_zero, Rat.cast_one]
            · exact hs.1
            · exact hs.2
    · refine ⟨l, [], [], hl, ?_, fun h => absurd h h1, fun h => absurd h h2, fun _ => ⟨rfl, rfl⟩⟩
      unfold dcelIntersect
      rw [hl]
      simp [h1, h2]

/-- A concrete case: edges from (1,0) to (4,0) and from (0,0) to (3,0). The first is broken at (3,0), the second at (1,0). -/
theorem dcelIntersect_overlap : dcelIntersect (⟨1, 0⟩ : Vec2 ℚ).fin (⟨4, 0⟩ : Vec2 ℚ).fin (⟨0, 0⟩ : Vec2 ℚ).fin (⟨3, 0⟩ : Vec2 ℚ).fin =
    some ([(⟨3, 0⟩ : Vec2 ℚ).fin], [(⟨1, 0⟩ : Vec2 ℚ).fin]) := by decide +kernel

end River
