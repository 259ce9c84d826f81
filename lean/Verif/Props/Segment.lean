import Verif.Model.Segment
import Verif.Props.Solver
import Verif.Props.Bezier
import Verif.Props.Line

/-! # Curve parameters at a height, abscissae, line/cubic intersection, reversal (C22, C23, C24, C42) -/

set_option linter.unusedSectionVars false

namespace River

/-- A curve with finite control points. -/
def Cubic.fin {R} (c : Cubic R) : Cubic (Ext R) := ⟨c.p0.fin, c.p1.fin, c.p2.fin, c.p3.fin⟩

/-- On this polynomial the solver returns every real root once and nothing else. -/
def SolverExact (a3 a2 a1 a0 : ℝ) : Prop :=
  ∃ l : List ℝ, resolvCubic (Ext.fin a3) (Ext.fin a2) (Ext.fin a1) (Ext.fin a0) = l.map Ext.fin ∧ l.Nodup ∧
    ∀ x, x ∈ l ↔ Root3 a3 a2 a1 a0 x

/-- Where `SolverExact` holds: outside the tolerance bands, for degree at most two or discriminant zero or positive,
except the `y³ + q`, `q > 0` case. -/
theorem solverExact_of (a3 a2 a1 a0 : ℝ)
    (h : (a3 = 0 ∧ ((1 / 100000000 ≤ |a2| ∧ Clear (a1 * a1 - 4 * a2 * a0)) ∨ (a2 = 0 ∧ 1 / 100000000 ≤ |a1|) ∨
        (a2 = 0 ∧ a1 = 0 ∧ a0 ≠ 0))) ∨
      (1 / 100000000 ≤ |a3| ∧ ((depK a3 a2 a1 a0 = 0 ∧ Clear (rcbrt (-depQ a3 a2 a1 a0 / 2))) ∨
        (1 / 100000000 ≤ depK a3 a2 a1 a0 ∧ ¬ (depP a3 a2 a1 = 0 ∧ 0 < depQ a3 a2 a1 a0))))) :
    SolverExact a3 a2 a1 a0 := by
  rcases h with ⟨rfl, h⟩ | ⟨h3, h⟩
  · have e : ∀ x, Root3 0 a2 a1 a0 x ↔ Root2 a2 a1 a0 x := by intro x; unfold Root3 Root2; rw [zero_mul, zero_add]
    unfold SolverExact
    rw [resolvCubic_quadratic]
    simp only [e]
    rcases h with ⟨h, hk⟩ | ⟨rfl, h⟩ | ⟨rfl, rfl, h⟩
    · obtain ⟨l, h1, h2, _, h4⟩ := resolvQuad_quadratic a2 a1 a0 h hk
      exact ⟨l, h1, h2, h4⟩
    · obtain ⟨l, h1, h2, h4⟩ := resolvQuad_linear a1 a0 h
      exact ⟨l, h1, h2, h4⟩
    · refine ⟨[], by rw [resolvQuad_const]; rfl, by simp, ?_⟩
      intro x; unfold Root2; simpa using h
  · rcases h with ⟨hk, hc⟩ | ⟨hk, hc⟩
    · exact resolvCubic_multiple a3 a2 a1 a0 h3 hk hc
    · obtain ⟨x, h1, h2⟩ := resolvCubic_single_partial a3 a2 a1 a0 h3 hk hc
      exact ⟨[x], h1, by simp, by intro y; simp [h2]⟩

namespace Cubic

theorem pointAt_fin (c : Cubic ℝ) (t : ℝ) : c.fin.pointAt (Ext.fin t) = (c.eval t).fin := by
  rw [← pointAt_eq_eval]
  unfold pointAt Cubic.fin
  simp only [Ext.fin_mul, Ext.lit_eq, Ext.fin_sub, Vec2.fin_smul, Vec2.fin_add]
  congr 1

/-- Power-basis coefficients of the ordinate. -/
def py3 (c : Cubic ℝ) : ℝ := c.p3.y - c.p2.y * 3 + c.p1.y * 3 - c.p0.y
def py2 (c : Cubic ℝ) : ℝ := c.p2.y * 3 - c.p1.y * 6 + c.p0.y * 3
def py1 (c : Cubic ℝ) : ℝ := c.p1.y * 3 - c.p0.y * 3

theorem pointAtY_unfold (c : Cubic ℝ) (y : ℝ) : c.fin.pointAtY (Ext.fin y) =
    (resolvCubic (Ext.fin c.py3) (Ext.fin c.py2) (Ext.fin c.py1) (Ext.fin (c.p0.y - y))).filter
      (fun t => (Ext.fin 0 ≤. t) && (t ≤. Ext.fin 1)) := by
  unfold pointAtY polT3 polT2 polT1 Cubic.fin Vec2.sub Vec2.add Vec2.smul Vec2.fin py3 py2 py1
  simp only [Ext.fin_mul, Ext.lit_eq, Ext.fin_sub, Ext.fin_add, Ext.fin_neg, Rat.cast_ofNat, Rat.cast_zero, Rat.cast_one,
    ← sub_eq_add_neg]

theorem root_iff_y (c : Cubic ℝ) (y t : ℝ) : Root3 c.py3 c.py2 c.py1 (c.p0.y - y) t ↔ (c.eval t).y = y := by
  unfold Root3 py3 py2 py1 eval bern
  constructor <;> intro h
  · linear_combination h
  · simp only at h; linear_combination h

/-- C22: at most three parameters (any arithmetic). -/
theorem pointAtY_length {K} [FTrans K] (c : Cubic K) (y : K) : (c.pointAtY y).length ≤ 3 :=
  (List.length_filter_le _ _).trans (resolvCubic_length _ _ _ _)

/-- C22: every returned parameter lies in `[0,1]` (any arithmetic, in terms of its own comparisons). -/
theorem pointAtY_range {K} [FTrans K] (c : Cubic K) (y t : K) (h : t ∈ c.pointAtY y) :
    (FNum.lit 0 ≤. t) = true ∧ (t ≤. FNum.lit 1) = true := by
  unfold pointAtY at h
  have := (List.mem_filter.mp h).2
  simpa using this

theorem filter_map_fin (l : List ℝ) : (l.map Ext.fin).filter (fun t => (Ext.fin 0 ≤. t) && (t ≤. Ext.fin (1 : ℝ))) =
    (l.filter (fun t => decide (0 ≤ t ∧ t ≤ 1))).map Ext.fin := by
  induction l with
  | nil => rfl
  | cons a l ih =>
    by_cases h : 0 ≤ a ∧ a ≤ 1
    · simp [h, ih]
    · have : (decide (0 ≤ a) && decide (a ≤ 1)) = false := by
        rw [← Bool.not_eq_true]; simpa using h
      simp only [List.map_cons, List.filter_cons, Ext.fin_le, this, h, decide_false, ih, Bool.false_eq_true, if_false]

/-- C22 (partial): where the solver is exact, `point_at_y` returns exactly the parameters in `[0,1]` at which the curve
has ordinate `y`, each once. Missing: the three-root regime (approximate) and the `y³+q` case (false there). -/
theorem pointAtY_exact_partial (c : Cubic ℝ) (y : ℝ) (h : SolverExact c.py3 c.py2 c.py1 (c.p0.y - y)) :
    ∃ l : List ℝ, c.fin.pointAtY (Ext.fin y) = l.map Ext.fin ∧ l.Nodup ∧
      ∀ t, t ∈ l ↔ 0 ≤ t ∧ t ≤ 1 ∧ (c.pointAt t).y = y := by
  obtain ⟨l, h1, h2, h3⟩ := h
  refine ⟨l.filter (fun t => decide (0 ≤ t ∧ t ≤ 1)), ?_, h2.filter _, ?_⟩
  · rw [pointAtY_unfold, h1, filter_map_fin]
  · intro t
    rw [List.mem_filter, h3, root_iff_y, pointAt_eq_eval]
    simp; tauto

/-- Three-root regime: three candidate parameters, of which the first is exact and the others are within
`3e-10·√(-p/3)` of exact ones. -/
theorem pointAtY_three_partial (c : Cubic ℝ) (y : ℝ) (h3 : 1 / 100000000 ≤ |c.py3|)
    (hk : depK c.py3 c.py2 c.py1 (c.p0.y - y) ≤ -(1 / 100000000)) :
    ∃ x1 x2 x3 y2 y3 : ℝ, c.fin.pointAtY (Ext.fin y) =
        ([x1, x2, x3].filter (fun t => decide (0 ≤ t ∧ t ≤ 1))).map Ext.fin ∧
      (∀ t, (c.pointAt t).y = y ↔ t = x1 ∨ t = y2 ∨ t = y3) ∧
      |x2 - y2| ≤ 3 / 10000000000 * Real.sqrt (-depP c.py3 c.py2 c.py1 / 3) ∧
      |x3 - y3| ≤ 3 / 10000000000 * Real.sqrt (-depP c.py3 c.py2 c.py1 / 3) := by
  obtain ⟨x1, x2, x3, y2, y3, e, hr, b2, b3⟩ := resolvCubic_three_partial _ _ _ _ h3 hk
  refine ⟨x1, x2, x3, y2, y3, ?_, ?_, b2, b3⟩
  · rw [pointAtY_unfold, e, show [Ext.fin x1, Ext.fin x2, Ext.fin x3] = [x1, x2, x3].map Ext.fin from rfl, filter_map_fin]
  · intro t; rw [pointAt_eq_eval, ← root_iff_y, hr]

/-- The descending curve with ordinate `(1-t)³`. -/
def drop : Cubic ℝ := ⟨⟨0, 1⟩, ⟨1, 0⟩, ⟨2, 0⟩, ⟨3, 0⟩⟩

/-- The claim of C22 is false: on the curve with ordinates `1,0,0,0` no parameter is returned for the height 1/8,
although the curve has that height at `t = 1/2`. -/
theorem pointAtY_misses : drop.fin.pointAtY (Ext.fin (1 / 8)) = [] ∧ (drop.pointAt (1 / 2)).y = 1 / 8 := by
  constructor
  · rw [pointAtY_unfold]
    have e3 : drop.py3 = -1 := by unfold py3 drop; norm_num
    have e2 : drop.py2 = 3 := by unfold py2 drop; norm_num
    have e1 : drop.py1 = -3 := by unfold py1 drop; norm_num
    have e0 : drop.p0.y = 1 := rfl
    rw [e3, e2, e1, e0]
    have hp : depP (-1) 3 (-3) = 0 := by unfold depP; norm_num
    have hq : depQ (-1) 3 (-3) (1 - 1 / 8) = 1 / 8 := by unfold depQ; norm_num
    have hk : depK (-1) 3 (-3) (1 - 1 / 8) = 1 / 256 := by unfold depK; rw [hp, hq]; norm_num
    rw [resolvCubic_nan_general _ _ _ _ (by norm_num) hp (by rw [hq]; norm_num) (by rw [hk]; norm_num)]
    simp
  · rw [pointAt_eq_eval]; unfold eval bern drop; norm_num

/-- The hypothesis of `pointAtY_exact_partial` is met, e.g. by the straight cubic `y = 3t` at height 1. -/
example : let c : Cubic ℝ := ⟨⟨0, 0⟩, ⟨0, 1⟩, ⟨0, 2⟩, ⟨0, 3⟩⟩
    SolverExact c.py3 c.py2 c.py1 (c.p0.y - 1) := by
  apply solverExact_of; left
  unfold py3 py2 py1
  norm_num

end Cubic

/-! ## C23: abscissa at a height -/

namespace Seg
section
variable {R : Type} [Field R] [LinearOrder R] [IsStrictOrderedRing R]

/-- C23: for a line that is not horizontal, `curr_x` is the abscissa of the point of the line at that height. -/
theorem linX_on_line (a b : Vec2 R) (h : a.y ≠ b.y) (y : R) : OnLine ⟨linX b a y, y⟩ a b := by
  have hy : b.y - a.y ≠ 0 := sub_ne_zero.mpr (Ne.symm h)
  refine ⟨(y - a.y) / (b.y - a.y), ?_⟩
  unfold linX lerp
  ext
  · simp; field_simp; ring
  · simp; field_simp; ring

/-- C23: at the end points' heights it gives the end points' abscissae. -/
theorem linX_ends (a b : Vec2 R) (h : a.y ≠ b.y) : linX b a a.y = a.x ∧ linX b a b.y = b.x := by
  have hy : b.y - a.y ≠ 0 := sub_ne_zero.mpr (Ne.symm h)
  unfold linX
  constructor
  · simp
  · simp; field_simp; ring

/-- C23: between the end points' heights it lies between their abscissae. -/
theorem linX_between (a b : Vec2 R) (h : a.y ≠ b.y) (y : R) (hy : min a.y b.y ≤ y ∧ y ≤ max a.y b.y) :
    min a.x b.x ≤ linX b a y ∧ linX b a y ≤ max a.x b.x := by
  have hd : b.y - a.y ≠ 0 := sub_ne_zero.mpr (Ne.symm h)
  have hd2 : 0 < (b.y - a.y) * (b.y - a.y) := mul_self_pos.mpr hd
  rw [between_iff_mul] at hy ⊢
  unfold linX
  simp only [field_add, field_sub, field_mul, field_div]
  have e : ((b.x - a.x) * (y - a.y) / (b.y - a.y) + a.x - a.x) * ((b.x - a.x) * (y - a.y) / (b.y - a.y) + a.x - b.x) =
      (b.x - a.x) ^ 2 * ((y - a.y) * (y - b.y)) / ((b.y - a.y) * (b.y - a.y)) := by field_simp; ring
  rw [e]
  exact div_nonpos_of_nonpos_of_nonneg (mul_nonpos_of_nonneg_of_nonpos (sq_nonneg _) hy) hd2.le

/-- C23: it is monotone in the height. -/
theorem linX_mono (a b : Vec2 R) (h : a.y ≠ b.y) :
    (∀ y z, y ≤ z → linX b a y ≤ linX b a z) ∨ (∀ y z, y ≤ z → linX b a z ≤ linX b a y) := by
  have hd : b.y - a.y ≠ 0 := sub_ne_zero.mpr (Ne.symm h)
  have e : ∀ y, linX b a y = (b.x - a.x) / (b.y - a.y) * (y - a.y) + a.x := by
    intro y; unfold linX; simp; field_simp
  rcases le_total 0 ((b.x - a.x) / (b.y - a.y)) with hs | hs
  · left; intro y z hyz; rw [e, e]; nlinarith
  · right; intro y z hyz; rw [e, e]; nlinarith

/-- C23: the direction in which the line is stored does not matter. -/
theorem linX_symm (a b : Vec2 R) (h : a.y ≠ b.y) (y : R) : linX b a y = linX a b y := by
  have h1 : b.y - a.y ≠ 0 := sub_ne_zero.mpr (Ne.symm h)
  have h2 : a.y - b.y ≠ 0 := sub_ne_zero.mpr h
  unfold linX
  simp only [field_add, field_sub, field_mul, field_div]
  have : b.y - a.y = -(a.y - b.y) := by ring
  rw [this, div_neg]
  field_simp
  ring

end

/-- C23: for a cubic that has exactly one point at the height, `curr_x` is that point's abscissa (where the solver is
exact). -/
theorem currX_cubic_partial (c1 c2 t frm : Vec2 ℝ) (y : ℝ)
    (hex : SolverExact (Cubic.py3 ⟨frm, c1, c2, t⟩) (Cubic.py2 ⟨frm, c1, c2, t⟩) (Cubic.py1 ⟨frm, c1, c2, t⟩) (frm.y - y))
    (s : ℝ) (hs : 0 ≤ s ∧ s ≤ 1 ∧ ((⟨frm, c1, c2, t⟩ : Cubic ℝ).pointAt s).y = y)
    (huniq : ∀ s', 0 ≤ s' ∧ s' ≤ 1 ∧ ((⟨frm, c1, c2, t⟩ : Cubic ℝ).pointAt s').y = y → s' = s) :
    currX (.cubic c1.fin c2.fin t.fin) frm.fin (Ext.fin y) = Ext.fin ((⟨frm, c1, c2, t⟩ : Cubic ℝ).pointAt s).x := by
  obtain ⟨l, h1, h2, h3⟩ := Cubic.pointAtY_exact_partial ⟨frm, c1, c2, t⟩ y hex
  have hl : l = [s] := by
    have hm : s ∈ l := (h3 s).mpr hs
    have hall : ∀ x ∈ l, x = s := fun x hx => huniq x ((h3 x).mp hx)
    match l, h2, hm, hall with
    | [x], _, hm, _ => simp at hm; rw [hm]
    | x :: x' :: l, h2, _, hall =>
      exfalso
      have e1 := hall x (by simp)
      have e2 := hall x' (by simp)
      rw [e1, e2] at h2; simp at h2
  unfold currX
  have e : (getCubic c1.fin c2.fin t.fin frm.fin) = (⟨frm, c1, c2, t⟩ : Cubic ℝ).fin := rfl
  simp only [e, h1, hl, List.map_cons, List.map_nil]
  rw [Cubic.pointAt_fin, Cubic.pointAt_eq_eval]; rfl

/-- The hypotheses of `currX_cubic_partial` are met, e.g. by the straight cubic `y = 3t` at height 1. -/
example : ∃ s : ℝ, (0 ≤ s ∧ s ≤ 1 ∧ ((⟨⟨0, 0⟩, ⟨0, 1⟩, ⟨5, 2⟩, ⟨0, 3⟩⟩ : Cubic ℝ).pointAt s).y = 1) ∧
    (∀ s', 0 ≤ s' ∧ s' ≤ 1 ∧ ((⟨⟨0, 0⟩, ⟨0, 1⟩, ⟨5, 2⟩, ⟨0, 3⟩⟩ : Cubic ℝ).pointAt s').y = 1 → s' = s) ∧
    SolverExact (Cubic.py3 ⟨⟨0, 0⟩, ⟨0, 1⟩, ⟨5, 2⟩, ⟨0, 3⟩⟩) (Cubic.py2 ⟨⟨0, 0⟩, ⟨0, 1⟩, ⟨5, 2⟩, ⟨0, 3⟩⟩)
      (Cubic.py1 ⟨⟨0, 0⟩, ⟨0, 1⟩, ⟨5, 2⟩, ⟨0, 3⟩⟩) (0 - 1) := by
  have e : ∀ t : ℝ, ((⟨⟨0, 0⟩, ⟨0, 1⟩, ⟨5, 2⟩, ⟨0, 3⟩⟩ : Cubic ℝ).pointAt t).y = 3 * t := by
    intro t; rw [Cubic.pointAt_eq_eval]; unfold Cubic.eval bern; ring
  refine ⟨1 / 3, ⟨by norm_num, by norm_num, by rw [e]; norm_num⟩, ?_, ?_⟩
  · rintro s' ⟨_, _, h⟩; rw [e] at h; linarith
  · apply solverExact_of; left
    unfold Cubic.py3 Cubic.py2 Cubic.py1
    norm_num

/-- Where the solver loses the root, `curr_x` silently answers with the chord instead of the curve: on the curve `drop`
at height 1/8 the only curve point has abscissa 3/2, the answer is 21/8. -/
theorem currX_cubic_wrong :
    currX (.cubic (⟨1, 0⟩ : Vec2 ℝ).fin (⟨2, 0⟩ : Vec2 ℝ).fin (⟨3, 0⟩ : Vec2 ℝ).fin) (⟨0, 1⟩ : Vec2 ℝ).fin
      (Ext.fin (1 / 8)) = Ext.fin (21 / 8) ∧
    (∀ t, 0 ≤ t → t ≤ 1 → (Cubic.drop.pointAt t).y = 1 / 8 → (Cubic.drop.pointAt t).x = 3 / 2) := by
  constructor
  · unfold currX
    have e : (getCubic (⟨1, 0⟩ : Vec2 ℝ).fin (⟨2, 0⟩ : Vec2 ℝ).fin (⟨3, 0⟩ : Vec2 ℝ).fin (⟨0, 1⟩ : Vec2 ℝ).fin) =
      Cubic.drop.fin := rfl
    simp only [e, Cubic.pointAtY_misses.1]
    unfold linX Vec2.fin
    simp only [Ext.fin_sub, Ext.fin_mul]
    rw [Ext.fin_div _ _ (by norm_num), Ext.fin_add]; norm_num
  · intro t _ _ h
    rw [Cubic.pointAt_eq_eval] at h ⊢
    have e : (1 - t) ^ 3 = (1 / 2) ^ 3 := by
      unfold Cubic.eval bern Cubic.drop at h; simp only at h; linear_combination h
    have := cube_inj e
    have ht : t = 1 / 2 := by linarith
    rw [ht]; unfold Cubic.eval bern Cubic.drop; norm_num

/-! ## C42: reversal -/

/-- The points of a segment, in traversal order, as a function of the parameter. -/
def trace {R} [Field R] (s : Seg R) (frm : Vec2 R) (t : R) : Vec2 R :=
  match s with
  | line b => lerp frm b t
  | cubic c1 c2 b => (⟨frm, c1, c2, b⟩ : Cubic R).eval t

/-- C42: the reversed segment, started at the old target, visits the same points in the opposite order. -/
theorem reverse_trace {R} [Field R] (s : Seg R) (frm : Vec2 R) (t : R) :
    (s.reverse frm).trace s.target t = s.trace frm (1 - t) := by
  cases s with
  | line b => unfold reverse trace target lerp; ext <;> simp <;> ring
  | cubic c1 c2 b => unfold reverse trace target Cubic.eval bern; ext <;> simp <;> ring

/-- C42: it starts at the old target and ends at the old start (any arithmetic). -/
theorem reverse_target {K} (s : Seg K) (frm : Vec2 K) : (s.reverse frm).target = frm := by cases s <;> rfl

/-- C42: reversing twice restores the segment (any arithmetic). -/
theorem reverse_reverse {K} (s : Seg K) (frm : Vec2 K) : (s.reverse frm).reverse s.target = s := by cases s <;> rfl

/-- C42: the kind is kept. -/
theorem reverse_isCubic {K} (s : Seg K) (frm : Vec2 K) : (s.reverse frm).isCubic = s.isCubic := by cases s <;> rfl

end Seg

/-! ## C24: line/cubic intersection -/

/-- Coefficients of the curve inserted in the line equation `A x + B y + C`. -/
def lc3 (A B : ℝ) (c : Cubic ℝ) : ℝ :=
  A * (c.p3.x - c.p2.x * 3 + c.p1.x * 3 - c.p0.x) + B * (c.p3.y - c.p2.y * 3 + c.p1.y * 3 - c.p0.y)
def lc2 (A B : ℝ) (c : Cubic ℝ) : ℝ := A * (c.p2.x * 3 - c.p1.x * 6 + c.p0.x * 3) + B * (c.p2.y * 3 - c.p1.y * 6 + c.p0.y * 3)
def lc1 (A B : ℝ) (c : Cubic ℝ) : ℝ := A * (c.p1.x * 3 - c.p0.x * 3) + B * (c.p1.y * 3 - c.p0.y * 3)
def lc0 (A B C : ℝ) (c : Cubic ℝ) : ℝ := A * c.p0.x + B * c.p0.y + C

theorem root_iff_line (A B C : ℝ) (c : Cubic ℝ) (t : ℝ) :
    Root3 (lc3 A B c) (lc2 A B c) (lc1 A B c) (lc0 A B C c) t ↔ A * (c.eval t).x + B * (c.eval t).y + C = 0 := by
  unfold Root3 lc3 lc2 lc1 lc0 Cubic.eval bern
  constructor <;> intro h
  · linear_combination h
  · simp only at h; linear_combination h

/-- The loop body as a function. -/
def lcStep {K} [FTrans K] (s0 s1 : Vec2 K) (curve : Cubic K) (res : Option (List (Info K))) (t : K) :
    Option (List (Info K)) :=
  if (FNum.lit 0 ≤. t) && (t ≤. FNum.lit 1) then
    if pointBetween (curve.pointAt t) s0 s1 then
      pushInfo 3 res ⟨curve.pointAt t, paramOn (curve.pointAt t) s0 (s1.sub s0), t⟩ else res
  else res

/-- The loop as filter and map: no write past the array as long as there are at most three roots. -/
theorem lcFold {K} [FTrans K] (s0 s1 : Vec2 K) (curve : Cubic K) (ts : List K) (acc : List (Info K))
    (h : acc.length + ts.length ≤ 3) :
    ts.foldl (lcStep s0 s1 curve) (some acc) = some (acc ++
      (ts.filter (fun t => ((FNum.lit 0 ≤. t) && (t ≤. FNum.lit 1)) && pointBetween (curve.pointAt t) s0 s1)).map
        (fun t => ⟨curve.pointAt t, paramOn (curve.pointAt t) s0 (s1.sub s0), t⟩)) := by
  induction ts generalizing acc with
  | nil => simp
  | cons t ts ih =>
    simp only [List.length_cons] at h
    rw [List.foldl_cons, List.filter_cons]
    unfold lcStep
    by_cases h1 : ((FNum.lit 0 ≤. t) && (t ≤. FNum.lit 1)) = true
    · rw [if_pos h1]
      by_cases h2 : pointBetween (curve.pointAt t) s0 s1 = true
      · rw [if_pos h2]
        have : pushInfo 3 (some acc) ⟨curve.pointAt t, paramOn (curve.pointAt t) s0 (s1.sub s0), t⟩ =
            some (acc ++ [⟨curve.pointAt t, paramOn (curve.pointAt t) s0 (s1.sub s0), t⟩]) := by
          unfold pushInfo; simp; omega
        rw [this]
        have hh := ih (acc ++ [⟨curve.pointAt t, paramOn (curve.pointAt t) s0 (s1.sub s0), t⟩]) (by simp; omega)
        unfold lcStep at hh
        rw [hh]; simp only [h1, h2, Bool.and_self, if_true]; simp
      · rw [if_neg h2]
        have hh := ih acc (by omega)
        unfold lcStep at hh
        rw [hh]; simp only [h1, h2, Bool.and_false, Bool.false_eq_true, if_false]
    · rw [if_neg h1]
      have hh := ih acc (by omega)
      unfold lcStep at hh
      rw [hh]; simp only [h1, Bool.false_and, Bool.false_eq_true, if_false]

/-- C24, any arithmetic: no write past the array; every reported record is the curve point at its own `t1`, which
passed the `[0,1]` test and the test against the segment's box. -/
theorem lineCubicIntersect_fits {K} [FTrans K] (s0 s1 : Vec2 K) (curve : Cubic K) :
    ∃ l, lineCubicIntersect s0 s1 curve = some l ∧ l.length ≤ 3 ∧
      ∀ i ∈ l, i.p = curve.pointAt i.t1 ∧ i.t0 = paramOn i.p s0 (s1.sub s0) ∧
        (FNum.lit 0 ≤. i.t1) = true ∧ (i.t1 ≤. FNum.lit 1) = true ∧ pointBetween i.p s0 s1 = true := by
  unfold lineCubicIntersect
  dsimp only
  generalize hts : resolvCubic (K := K) _ _ _ _ = ts
  have hlen : ts.length ≤ 3 := by rw [← hts]; exact resolvCubic_length _ _ _ _
  have := lcFold s0 s1 curve ts [] (by simpa using hlen)
  unfold lcStep at this
  refine ⟨_, this, ?_, ?_⟩
  · simp only [List.nil_append, List.length_map]
    exact (List.length_filter_le _ _).trans hlen
  · intro i hi
    simp only [List.nil_append, List.mem_map, List.mem_filter, Bool.and_eq_true] at hi
    obtain ⟨t, ⟨_, ⟨h1, h2⟩, h3⟩, rfl⟩ := hi
    exact ⟨rfl, rfl, h1, h2, h3⟩

/-- On a proper segment, a point of its line passes `point_between_two_point` exactly when it is on the segment. -/
theorem onSeg_iff_between (q a b : Vec2 ℝ) (hab : a ≠ b) (ha : a.InRange) (hq : OnLine q a b) :
    pointBetween q.fin a.fin b.fin = true ↔ OnSeg q a b := by
  obtain ⟨v, rfl⟩ := hq
  rw [pointBetween_fin _ _ _ ha]
  have hv : ((v - 0) * (v - 1) ≤ 0) ↔ 0 ≤ v ∧ v ≤ 1 := by
    have := between_iff_mul (0 : ℝ) 1 v
    rw [← this]; simp
  have hseg : OnSeg (lerp a b v) a b ↔ 0 ≤ v ∧ v ≤ 1 := by
    constructor
    · rintro ⟨t, h0, h1, e⟩
      rw [lerp_eq_iff a b hab] at e; rw [e]; exact ⟨h0, h1⟩
    · rintro ⟨h0, h1⟩; exact ⟨v, h0, h1, rfl⟩
  rw [hseg, ← hv]
  by_cases hx : a.x = b.x
  · have hy : b.y - a.y ≠ 0 := by
      intro h; apply hab; ext
      · exact hx
      · linarith
    have := between_coord a.y (b.y - a.y) 0 1 v hy
    have e0 : a.y + 0 * (b.y - a.y) = a.y := by ring
    have e1 : a.y + 1 * (b.y - a.y) = b.y := by ring
    rw [e0, e1] at this
    rw [← this]
    simp [hx, lerp]
  · have hx' : b.x - a.x ≠ 0 := sub_ne_zero.mpr (Ne.symm hx)
    have := between_coord a.x (b.x - a.x) 0 1 v hx'
    have e0 : a.x + 0 * (b.x - a.x) = a.x := by ring
    have e1 : a.x + 1 * (b.x - a.x) = b.x := by ring
    rw [e0, e1] at this
    rw [← this]
    simp [hx, lerp]

/-- C24 (partial): for a proper segment and where the solver is exact, the reported records are exactly the common
points: each is on the curve at `t1 ∈ [0,1]` and on the segment at `t0 ∈ [0,1]`, and every common point is reported.
Missing: the approximate three-root regime, where reported points are on the curve but only near the line. -/
theorem lineCubicIntersect_exact_partial (s0 s1 : Vec2 ℝ) (hs : s0 ≠ s1) (hr : s0.InRange) (c : Cubic ℝ)
    (hex : ∀ A B C, generalFrom s0.fin s1.fin = (.fin A, .fin B, .fin C) →
      SolverExact (lc3 A B c) (lc2 A B c) (lc1 A B c) (lc0 A B C c)) :
    ∃ l, lineCubicIntersect s0.fin s1.fin c.fin = some l ∧
      (∀ i ∈ l, ∃ s t : ℝ, i.t0 = .fin s ∧ i.t1 = .fin t ∧ 0 ≤ s ∧ s ≤ 1 ∧ 0 ≤ t ∧ t ≤ 1 ∧
        i.p = (c.pointAt t).fin ∧ c.pointAt t = lerp s0 s1 s) ∧
      (∀ t, 0 ≤ t → t ≤ 1 → OnSeg (c.pointAt t) s0 s1 → ∃ i ∈ l, i.t1 = .fin t) := by
  obtain ⟨A, B, C, hg, _, hline⟩ := generalFrom_spec s0 s1 hs
  obtain ⟨rs, h1, h2, h3⟩ := hex A B C hg
  unfold lineCubicIntersect
  rw [hg]
  dsimp only
  have ec : resolvCubic (Ext.fin A *. c.fin.polT3.x +. Ext.fin B *. c.fin.polT3.y)
      (Ext.fin A *. c.fin.polT2.x +. Ext.fin B *. c.fin.polT2.y)
      (Ext.fin A *. c.fin.polT1.x +. Ext.fin B *. c.fin.polT1.y)
      (Ext.fin A *. c.fin.p0.x +. Ext.fin B *. c.fin.p0.y +. Ext.fin C) = rs.map Ext.fin := by
    rw [← h1]
    unfold Cubic.polT3 Cubic.polT2 Cubic.polT1 Cubic.fin Vec2.sub Vec2.add Vec2.smul Vec2.fin lc3 lc2 lc1 lc0
    simp only [Ext.fin_mul, Ext.lit_eq, Ext.fin_sub, Ext.fin_add, Rat.cast_ofNat]
  have hlen : (rs.map Ext.fin).length ≤ 3 := by rw [← ec]; exact resolvCubic_length _ _ _ _
  rw [ec]
  have hf := lcFold s0.fin s1.fin c.fin (rs.map Ext.fin) [] (by simpa using hlen)
  unfold lcStep at hf
  refine ⟨_, hf, ?_, ?_⟩
  · intro i hi
    simp only [List.nil_append, List.mem_map, List.mem_filter, Bool.and_eq_true] at hi
    obtain ⟨t, ⟨⟨t', ht', rfl⟩, ⟨h4, h5⟩, h6⟩, rfl⟩ := hi
    simp only [Ext.lit_eq, Ext.fin_le, decide_eq_true_eq, Rat.cast_zero, Rat.cast_one] at h4 h5
    have hroot := (root_iff_line A B C c t').mp ((h3 t').mp ht')
    have hol := (hline _).mp hroot
    rw [Cubic.pointAt_fin] at h6
    obtain ⟨s, hs0, hs1, e⟩ := (onSeg_iff_between _ _ _ hs hr hol).mp h6
    refine ⟨s, t', ?_, rfl, hs0, hs1, h4, h5, ?_, ?_⟩
    · rw [Cubic.pointAt_fin, e, paramOn_lerp s0 s1 hs]
    · rw [Cubic.pointAt_fin, Cubic.pointAt_eq_eval]
    · rw [Cubic.pointAt_eq_eval]; exact e
  · intro t ht0 ht1 hon
    rw [Cubic.pointAt_eq_eval] at hon
    have hol : OnLine (c.eval t) s0 s1 := by obtain ⟨s, _, _, e⟩ := hon; exact ⟨s, e⟩
    have hroot := (h3 t).mpr ((root_iff_line A B C c t).mpr ((hline _).mpr hol))
    refine ⟨⟨c.fin.pointAt (.fin t), paramOn (c.fin.pointAt (.fin t)) s0.fin (s1.fin.sub s0.fin), .fin t⟩, ?_, rfl⟩
    simp only [List.nil_append, List.mem_map, List.mem_filter, Bool.and_eq_true]
    refine ⟨.fin t, ⟨⟨t, hroot, rfl⟩, ⟨?_, ?_⟩, ?_⟩, rfl⟩
    · simpa using ht0
    · simpa using ht1
    · rw [Cubic.pointAt_fin]; exact (onSeg_iff_between _ _ _ hs hr hol).mpr hon

/-- The hypotheses are met, e.g. by a horizontal segment crossing a vertical cubic. -/
example : ∀ A B C : ℝ, generalFrom (⟨-1, 1⟩ : Vec2 ℝ).fin (⟨1, 1⟩ : Vec2 ℝ).fin = (.fin A, .fin B, .fin C) →
    let c : Cubic ℝ := ⟨⟨0, 0⟩, ⟨0, 1⟩, ⟨0, 2⟩, ⟨0, 3⟩⟩
    SolverExact (lc3 A B c) (lc2 A B c) (lc1 A B c) (lc0 A B C c) := by
  intro A B C h
  have hg : generalFrom (⟨-1, 1⟩ : Vec2 ℝ).fin (⟨1, 1⟩ : Vec2 ℝ).fin = (.fin 0, .fin 1, .fin (-1)) := by
    unfold generalFrom
    rw [Vec2.fin_beq, if_neg (by simp; norm_num)]
    simp [Vec2.fin, show ¬ ((-1 : ℝ) = 1) by norm_num]
  rw [hg] at h
  simp only [Prod.mk.injEq, Ext.fin.injEq] at h
  obtain ⟨rfl, rfl, rfl⟩ := h
  apply solverExact_of; left
  unfold lc3 lc2 lc1 lc0
  norm_num

/-- The general claim of C24 is false: the horizontal line at height 1/8 crosses the curve `drop` at its point
`(3/2, 1/8)`, and nothing is reported. -/
theorem lineCubicIntersect_misses :
    lineCubicIntersect (⟨0, 1 / 8⟩ : Vec2 ℝ).fin (⟨3, 1 / 8⟩ : Vec2 ℝ).fin Cubic.drop.fin = some [] ∧
    OnSeg (Cubic.drop.pointAt (1 / 2)) ⟨0, 1 / 8⟩ ⟨3, 1 / 8⟩ := by
  constructor
  · unfold lineCubicIntersect
    have hg : generalFrom (⟨0, 1 / 8⟩ : Vec2 ℝ).fin (⟨3, 1 / 8⟩ : Vec2 ℝ).fin = (.fin 0, .fin 1, .fin (-(1 / 8))) := by
      unfold generalFrom
      rw [Vec2.fin_beq, if_neg (by simp)]
      simp [Vec2.fin]
    rw [hg]
    dsimp only
    have ec : resolvCubic (Ext.fin 0 *. Cubic.drop.fin.polT3.x +. Ext.fin 1 *. Cubic.drop.fin.polT3.y)
        (Ext.fin 0 *. Cubic.drop.fin.polT2.x +. Ext.fin 1 *. Cubic.drop.fin.polT2.y)
        (Ext.fin 0 *. Cubic.drop.fin.polT1.x +. Ext.fin 1 *. Cubic.drop.fin.polT1.y)
        (Ext.fin 0 *. Cubic.drop.fin.p0.x +. Ext.fin 1 *. Cubic.drop.fin.p0.y +. Ext.fin (-(1 / 8))) = [Ext.nan] := by
      have hp : depP (-1) 3 (-3) = 0 := by unfold depP; norm_num
      have hq : depQ (-1) 3 (-3) (7 / 8) = 1 / 8 := by unfold depQ; norm_num
      have hk : depK (-1) 3 (-3) (7 / 8) = 1 / 256 := by unfold depK; rw [hp, hq]; norm_num
      rw [← resolvCubic_nan_general (-1) 3 (-3) (7 / 8) (by norm_num) hp (by rw [hq]; norm_num) (by rw [hk]; norm_num)]
      unfold Cubic.drop Cubic.polT3 Cubic.polT2 Cubic.polT1 Cubic.fin Vec2.sub Vec2.add Vec2.smul Vec2.fin
      simp only [Ext.fin_mul, Ext.lit_eq, Ext.fin_sub, Ext.fin_add, Rat.cast_ofNat]
      norm_num
    rw [ec]
    simp
  · refine ⟨1 / 2, by norm_num, by norm_num, ?_⟩
    rw [Cubic.pointAt_eq_eval]
    unfold Cubic.eval bern Cubic.drop lerp
    ext <;> norm_num

end River
