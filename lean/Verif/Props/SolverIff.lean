import Verif.Props.Solver
import Verif.Props.Segment

/-! # C21: when the solvers fail

The quadratic solver always answers with numbers. The cubic solver answers with numbers except for one family of equations, which is named
exactly here. -/

namespace River

/-- A number, neither infinite nor NaN. -/
def Ext.IsNum (v : Ext ℝ) : Prop := ∃ x : ℝ, v = Ext.fin x

/-- C20: whatever the coefficients, the quadratic solver answers with numbers. -/
theorem resolvQuad_numbers (a b c : ℝ) : ∀ v ∈ resolvQuad (Ext.fin a) (Ext.fin b) (Ext.fin c), Ext.IsNum v := by
  unfold resolvQuad
  simp only [ext_isZero, decide_eq_true_eq]
  by_cases ha : |a| < 1 / 100000000
  · rw [if_pos ha]
    by_cases hb : |b| < 1 / 100000000
    · rw [if_pos hb]; intro v hv; cases hv
    · rw [if_neg hb]
      have hb0 : b ≠ 0 := fun e => hb (by rw [e]; norm_num)
      intro v hv
      rw [List.mem_singleton.1 hv, Ext.fin_neg, Ext.fin_div _ _ hb0]
      exact ⟨_, rfl⟩
  · rw [if_neg ha]
    have ha0 : a ≠ 0 := fun e => ha (by rw [e]; norm_num)
    have h2a : 2 * a ≠ 0 := mul_ne_zero two_ne_zero ha0
    simp only [Ext.lit_eq, Ext.fin_mul, Ext.fin_sub, Ext.fin_neg, Rat.cast_ofNat, Ext.fin_div _ _ h2a, ext_isZero, decide_eq_true_eq, Ext.fin_lt, Rat.cast_zero]
    split
    · intro v hv
      rw [List.mem_singleton.1 hv]
      exact ⟨_, rfl⟩
    · split
      · rename_i hk
        have sq : (FTrans.sqrt (Ext.fin (b * b - 4 * a * c)) : Ext ℝ) = Ext.fin (Real.sqrt (b * b - 4 * a * c)) := by
          show (if b * b - 4 * a * c < 0 then Ext.nan else _) = _
          rw [if_neg (not_lt.mpr hk.le)]
        rw [sq]
        simp only [Ext.fin_add, Ext.fin_sub, Ext.fin_div _ _ h2a]
        intro v hv
        simp only [List.mem_cons, List.not_mem_nil, or_false] at hv
        rcases hv with rfl | rfl <;> exact ⟨_, rfl⟩
      · intro v hv; cases hv

/-- The equations on which the cubic solver fails: with `x = y - a2 / (3 a3)` they read `y³ + q = 0` with `q` positive (outside the tolerances). -/
def Fails (a3 a2 a1 a0 : ℝ) : Prop :=
  1 / 100000000 ≤ |a3| ∧ depP a3 a2 a1 = 0 ∧ 0 < depQ a3 a2 a1 a0 ∧ 1 / 100000000 ≤ depK a3 a2 a1 a0

/-- **C21.** The cubic solver answers with numbers, unless the equation is `y³ + q = 0` with positive `q` up to a shift of the unknown: for these, and only these, its
answer is NaN, although they have a real solution. -/
theorem resolvCubic_numbers_iff (a3 a2 a1 a0 : ℝ) :
    (∀ v ∈ resolvCubic (Ext.fin a3) (Ext.fin a2) (Ext.fin a1) (Ext.fin a0), Ext.IsNum v) ↔ ¬ Fails a3 a2 a1 a0 := by
  by_cases h3 : |a3| < 1 / 100000000
  · have hz : isZero (Ext.fin a3) = true := by rw [ext_isZero]; simpa using h3
    unfold resolvCubic
    rw [hz, if_pos rfl]
    exact ⟨fun _ hf => absurd hf.1 (not_le.2 h3), fun _ => resolvQuad_numbers a2 a1 a0⟩
  have h3' := not_lt.1 h3
  constructor
  · rintro h ⟨_, hp, hq, hk⟩
    have e := resolvCubic_nan_general a3 a2 a1 a0 h3' hp hq hk
    obtain ⟨x, hx⟩ := h Ext.nan (by rw [e]; exact List.mem_singleton_self _)
    cases hx
  · intro hf
    rw [resolvCubic_fin a3 a2 a1 a0 h3']
    dsimp only
    split
    · split
      · intro v hv
        rw [List.mem_singleton.1 hv]
        exact ⟨_, rfl⟩
      · intro v hv
        simp only [List.mem_cons, List.not_mem_nil, or_false] at hv
        rcases hv with rfl | rfl <;> exact ⟨_, rfl⟩
    · rename_i hk1
      split
      · rename_i hk
        rw [abs_of_pos hk] at hk1
        set v := rcbrt (-depQ a3 a2 a1 a0 / 2 + Real.sqrt (depK a3 a2 a1 a0)) with hv
        have hv0 : v ≠ 0 := by
          intro e
          have hv3 : v ^ 3 = -depQ a3 a2 a1 a0 / 2 + Real.sqrt (depK a3 a2 a1 a0) := rcbrt_pow _
          rw [e] at hv3
          have hs : Real.sqrt (depK a3 a2 a1 a0) = depQ a3 a2 a1 a0 / 2 := by linarith
          have hs0 : 0 < Real.sqrt (depK a3 a2 a1 a0) := Real.sqrt_pos.2 hk
          have hs2 : Real.sqrt (depK a3 a2 a1 a0) ^ 2 = depK a3 a2 a1 a0 := Real.sq_sqrt hk.le
          have hp : (depP a3 a2 a1 / 3) ^ 3 = 0 := by
            rw [hs] at hs2
            unfold depK at hs2
            linarith
          have := pow_eq_zero_iff three_ne_zero |>.mp hp
          exact hf ⟨h3', by linarith, by linarith, not_lt.1 hk1⟩
        rw [Ext.fin_div _ _ (mul_ne_zero three_ne_zero hv0), Ext.fin_add, Ext.fin_sub]
        intro w hw
        rw [List.mem_singleton.1 hw]
        exact ⟨_, rfl⟩
      · rename_i hk
        have hkn : depK a3 a2 a1 a0 < 0 := by
          rcases lt_or_eq_of_le (not_lt.1 hk) with h | h
          · exact h
          · rw [h, abs_zero] at hk1; norm_num at hk1
        set q := depQ a3 a2 a1 a0 with hq
        have hs0 : 0 < Real.sqrt (-depK a3 a2 a1 a0) := Real.sqrt_pos.2 (by linarith)
        obtain ⟨φ, hφ⟩ : ∃ φ : ℝ, FTrans.atan (Ext.fin (-2 * Real.sqrt (-depK a3 a2 a1 a0)) /. Ext.fin q) = Ext.fin φ := by
          by_cases h0 : q = 0
          · rw [h0]
            refine ⟨-(Real.pi / 2), ?_⟩
            have : (Ext.fin (-2 * Real.sqrt (-depK a3 a2 a1 a0)) /. Ext.fin (0 : ℝ)) = Ext.ninf := by
              have hn : -2 * Real.sqrt (-depK a3 a2 a1 a0) < 0 := by linarith
              show Ext.div _ _ = _
              unfold Ext.div
              simp only [if_true]
              unfold Ext.infSign
              rw [if_neg hn.not_gt, if_pos hn]
            rw [this]; rfl
          · rw [Ext.fin_div _ _ h0]; exact ⟨_, rfl⟩
        rw [hφ]
        obtain ⟨m, hm⟩ : ∃ m : ℝ, (if (Ext.fin (-2 * Real.sqrt (-depK a3 a2 a1 a0)) /. Ext.fin q) <. Ext.fin 0 then Ext.fin (-1) else Ext.fin 1) = Ext.fin m := by
          split <;> exact ⟨_, rfl⟩
        rw [hm]
        have three : (3 : ℝ) ≠ 0 := three_ne_zero
        have cs : ∀ x : ℝ, (FTrans.cos (Ext.fin x) : Ext ℝ) = Ext.fin (Real.cos x) := fun _ => rfl
        simp only [Ext.fin_add, Ext.fin_div _ _ three, cs, Ext.fin_mul, Ext.fin_sub]
        intro v hv
        simp only [List.mem_cons, List.not_mem_nil, or_false] at hv
        rcases hv with rfl | rfl | rfl <;> exact ⟨_, rfl⟩

/-- Equations of both kinds: `x³ + 3x² + 3x + 2 = 0`, that is `(x + 1)³ + 1 = 0`, fails, `x³ + 3x² + 3x = 0` does not. -/
theorem fails_demo : Fails 1 3 3 2 ∧ Root3 1 3 3 2 (-2) ∧ ¬ Fails 1 3 3 0 := by
  unfold Fails Root3 depK depP depQ
  norm_num

/-- C22: `point_at_y` answers with numbers only, also where the solver answers NaN. -/
theorem Cubic.pointAtY_numbers (c : Cubic ℝ) (y : ℝ) : ∀ t ∈ c.fin.pointAtY (Ext.fin y), ∃ s : ℝ, t = Ext.fin s ∧ 0 ≤ s ∧ s ≤ 1 := by
  intro t ht
  obtain ⟨h0, h1⟩ := Cubic.pointAtY_range _ _ t ht
  rw [Ext.lit_eq] at h0 h1
  cases t with
  | fin s => exact ⟨s, rfl, by simpa using h0, by simpa using h1⟩
  | pinf => exact absurd h1 (by decide)
  | ninf => exact absurd h0 (by decide)
  | nan => exact absurd h0 (by decide)

/-- C22: at the heights for which the solver fails `point_at_y` finds nothing, whatever the curve does there. -/
theorem Cubic.pointAtY_fails (c : Cubic ℝ) (y : ℝ) (h : Fails c.py3 c.py2 c.py1 (c.p0.y - y)) : c.fin.pointAtY (Ext.fin y) = [] := by
  obtain ⟨h3, hp, hq, hk⟩ := h
  rw [Cubic.pointAtY_unfold, resolvCubic_nan_general _ _ _ _ h3 hp hq hk]
  simp

/-- C23: `curr_x` of a segment that is not horizontal is a number at every height. -/
theorem Seg.currX_number (c1 c2 t frm : Vec2 ℝ) (y : ℝ) (h : t.y ≠ frm.y) :
    Ext.IsNum (Seg.currX (.cubic c1.fin c2.fin t.fin) frm.fin (Ext.fin y)) ∧ Ext.IsNum (Seg.currX (.line t.fin) frm.fin (Ext.fin y)) := by
  have lin : Ext.IsNum (Seg.linX t.fin frm.fin (Ext.fin y)) := by
    unfold Seg.linX Vec2.fin
    simp only [Ext.fin_sub, Ext.fin_mul]
    first
      | rw [Ext.fin_div _ _ (sub_ne_zero.2 h)]
      | rw [Ext.fin_div _ _ (sub_ne_zero.2 h.symm)]
    exact ⟨_, rfl⟩
  refine ⟨?_, lin⟩
  unfold Seg.currX
  have e : (Seg.getCubic c1.fin c2.fin t.fin frm.fin) = (⟨frm, c1, c2, t⟩ : Cubic ℝ).fin := rfl
  simp only [e]
  split
  · rename_i r hr
    obtain ⟨s, rfl, _⟩ := Cubic.pointAtY_numbers ⟨frm, c1, c2, t⟩ y r (by rw [hr]; exact List.mem_singleton_self _)
    rw [Cubic.pointAt_fin]
    exact ⟨_, rfl⟩
  · exact lin

/-- C23: where the solver fails, `curr_x` of a cubic is the abscissa of its chord. -/
theorem Seg.currX_chord (c1 c2 t frm : Vec2 ℝ) (y : ℝ)
    (h : Fails (Cubic.py3 ⟨frm, c1, c2, t⟩) (Cubic.py2 ⟨frm, c1, c2, t⟩) (Cubic.py1 ⟨frm, c1, c2, t⟩) (frm.y - y)) :
    Seg.currX (.cubic c1.fin c2.fin t.fin) frm.fin (Ext.fin y) = Seg.currX (.line t.fin) frm.fin (Ext.fin y) := by
  unfold Seg.currX
  have e : (Seg.getCubic c1.fin c2.fin t.fin frm.fin) = (⟨frm, c1, c2, t⟩ : Cubic ℝ).fin := rfl
  simp only [e, Cubic.pointAtY_fails ⟨frm, c1, c2, t⟩ y h]

/-- The curve `drop` at height 1/8 is such a case. -/
example : Fails Cubic.drop.py3 Cubic.drop.py2 Cubic.drop.py1 (Cubic.drop.p0.y - 1 / 8) := by
  unfold Fails depK depP depQ Cubic.py3 Cubic.py2 Cubic.py1 Cubic.drop
  norm_num

end River
