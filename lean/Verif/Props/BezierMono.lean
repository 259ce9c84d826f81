import Verif.Props.Bezier
import Verif.Props.Rect
import Mathlib.Tactic.IntervalCases

set_option linter.unusedSectionVars false

/-! # Monotone pieces and bounding box of a cubic (C18, C19), circle (C45) -/

namespace River
namespace Cubic

/-! ## Derivative coefficients -/

/-- Coefficients of `y'` (`a t² + b t + c`). -/
def yA (c : Cubic ℝ) : ℝ := dA c.p0.y c.p1.y c.p2.y c.p3.y
def yB (c : Cubic ℝ) : ℝ := dB c.p0.y c.p1.y c.p2.y
def yC (c : Cubic ℝ) : ℝ := dC c.p0.y c.p1.y

theorem derA_y (c : Cubic ℝ) : c.derA.y = c.yA := by
  unfold derA yA dA Vec2.smul Vec2.add Vec2.sub; simp; ring
theorem derB_y (c : Cubic ℝ) : c.derB.y = c.yB := by
  unfold derB yB dB Vec2.smul Vec2.add Vec2.sub; simp; ring
theorem derC_y (c : Cubic ℝ) : c.derC.y = c.yC := by
  unfold derC yC dC Vec2.smul Vec2.sub; simp; ring

theorem isZero_real (v : ℝ) : isZero v = true ↔ |v| < 1 / 100000000 := by
  unfold isZero; simp [abs_lt]

theorem isZero_real_false {v : ℝ} : isZero v = false ↔ 1 / 100000000 ≤ |v| := by
  rw [← not_lt, ← isZero_real]; simp

theorem eval_y (c : Cubic ℝ) (t : ℝ) : (c.eval t).y = cub c.yA c.yB c.yC c.p0.y t := by
  simp only [eval]; exact bern_eq_cub _ _ _ _ _

/-- A curve that traces `c` over `[u,v]` where `y'` keeps its sign is monotone in `y`. -/
theorem monoY_of_traces (c p : Cubic ℝ) (u v : ℝ) (huv : u ≤ v) (hp : ∀ s, p.pointAt s = c.pointAt (u + s * (v - u)))
    (h : ConstSign c.yA c.yB c.yC u v) : p.MonoY := by
  have hp' : ∀ s, (p.eval s).y = cub c.yA c.yB c.yC c.p0.y (u + s * (v - u)) := by
    intro s; rw [← eval_y, ← pointAt_eq_eval, ← pointAt_eq_eval, hp]
  have hd : 0 ≤ v - u := by linarith
  rcases h with h | h
  · left; intro s t hs hst ht; rw [hp', hp']
    refine cub_mono _ h ?_ ?_ ?_
    · nlinarith [mul_nonneg hs hd]
    · nlinarith [mul_le_mul_of_nonneg_right hst hd]
    · nlinarith [mul_le_mul_of_nonneg_right ht hd]
  · right; intro s t hs hst ht; rw [hp', hp']
    refine cub_anti _ h ?_ ?_ ?_
    · nlinarith [mul_nonneg hs hd]
    · nlinarith [mul_le_mul_of_nonneg_right hst hd]
    · nlinarith [mul_le_mul_of_nonneg_right ht hd]

theorem pointAt_id (c : Cubic ℝ) : ∀ s, c.pointAt s = c.pointAt (0 + s * (1 - 0)) := by
  intro s; congr 1; ring

/-- The test with which `read_cubicto` rechecks the parameters. -/
theorem readPieces_of_splitY (c : Cubic ℝ) (h : ∀ t ∈ c.splitY, 1 / 1000000 < t ∧ t < 1 - 1 / 1000000) :
    c.readPieces = if c.splitY = [] then [c] else c.splitMany c.splitY := by
  unfold readPieces
  have : c.splitY.filter (fun t => (FNum.lit 0 +. FNum.lit (1 / 1000000) <. t) &&
      (t <. FNum.lit 1 -. FNum.lit (1 / 1000000))) = c.splitY := by
    rw [List.filter_eq_self]
    intro t ht
    have := h t ht
    simp; constructor
    · linarith [this.1]
    · linarith [this.2]
  simp only [this]
  cases c.splitY <;> simp

/-- The order in which `split_y` returns two parameters. -/
theorem splitY_order (c : Cubic ℝ) (t1 t2 : ℝ) (h : c.splitY = [t1, t2]) :
    (c.yA < 0 ∧ t1 < t2) ∨ (0 < c.yA ∧ t2 < t1) := by
  unfold splitY at h
  simp only [derA_y, derB_y, derC_y] at h
  split at h
  · split at h
    · simp at h
    · split at h <;> simp at h
  · rename_i ha
    have ha' : c.yA ≠ 0 := by
      intro e; rw [e] at ha; apply ha; rw [isZero_real]; norm_num
    split at h
    · rename_i hk
      simp only [field_lt, field_lit, field_mul, field_sub, decide_eq_true_eq] at hk
      have hk' : 0 < c.yB * c.yB - 4 * c.yA * c.yC := by push_cast at hk; exact hk
      have hs := Real.sqrt_pos.mpr hk'

      set r1 := (FNum.neg c.yB +. FTrans.sqrt (c.yB *. c.yB -. FNum.lit 4 *. c.yA *. c.yC)) /. (FNum.lit 2 *. c.yA) with hr1
      set r2 := (FNum.neg c.yB -. FTrans.sqrt (c.yB *. c.yB -. FNum.lit 4 *. c.yA *. c.yC)) /. (FNum.lit 2 *. c.yA) with hr2
      have e1 : r1 = (-c.yB + Real.sqrt (c.yB * c.yB - 4 * c.yA * c.yC)) / (2 * c.yA) := by
        rw [hr1]; simp; rfl
      have e2 : r2 = (-c.yB - Real.sqrt (c.yB * c.yB - 4 * c.yA * c.yC)) / (2 * c.yA) := by
        rw [hr2]; simp; rfl
      have hd : r1 - r2 = Real.sqrt (c.yB * c.yB - 4 * c.yA * c.yC) / c.yA := by
        rw [e1, e2]; field_simp; ring
      have : t1 = r1 ∧ t2 = r2 := by
        split at h <;> split at h <;> simp at h
        exact ⟨h.1.symm, h.2.symm⟩
      obtain ⟨rfl, rfl⟩ := this
      rcases lt_or_gt_of_ne ha' with hn | hp
      · left; exact ⟨hn, by have := div_neg_of_pos_of_neg hs hn; linarith⟩
      · right; exact ⟨hp, by have := div_pos hs hp; linarith⟩
    · simp at h

/-- The parameters returned by `split_y` lie strictly between 0 and 1 (any curve). -/
theorem splitY_mem (c : Cubic ℝ) : ∀ t ∈ c.splitY, 0 < t ∧ t < 1 := by
  intro t ht
  unfold splitY at ht
  dsimp only at ht
  split at ht
  · split at ht
    · simp at ht
    · split at ht
      · rename_i h; simp at ht h; rw [ht]; exact h
      · simp at ht
  · split at ht
    · rw [List.mem_append] at ht
      rcases ht with ht | ht <;> split at ht
      · rename_i h; simp at ht h; rw [ht]; exact h
      · simp at ht
      · rename_i h; simp at ht h; rw [ht]; exact h
      · simp at ht
    · simp at ht

/-- The derivative coefficients are outside the solver's `1e-8` tolerance band, or exactly zero. -/
def OutsideTolerance (c : Cubic ℝ) : Prop :=
  (c.yA = 0 ∨ 1 / 100000000 ≤ |c.yA|) ∧ (c.yA = 0 → c.yB = 0 ∨ 1 / 100000000 ≤ |c.yB|)

/-- Outside the tolerance band: the sorted cut parameters separate `[0,1]` into intervals on which `y'` keeps its
sign. -/
theorem constSign_cuts (c : Cubic ℝ) (ht : c.OutsideTolerance) (hs : c.splitY.Pairwise (· < ·)) :
    ∀ (i : Nat) (u v : ℝ), (0 :: c.splitY)[i]? = some u → (c.splitY ++ [1])[i]? = some v → ConstSign c.yA c.yB c.yC u v := by
  obtain ⟨hA, hB⟩ := ht
  have hdef : c.splitY = c.splitY := rfl
  conv_rhs at hdef => unfold splitY
  simp only [derA_y, derB_y, derC_y] at hdef
  by_cases ha : isZero c.yA = true
  · have ha0 : c.yA = 0 := by
      rcases hA with h | h
      · exact h
      · rw [isZero_real] at ha; linarith
    rw [if_pos ha] at hdef
    by_cases hb : isZero c.yB = true
    · have hb0 : c.yB = 0 := by
        rcases hB ha0 with h | h
        · exact h
        · rw [isZero_real] at hb; linarith
      intro i u v _ _
      rw [ha0, hb0]; exact constSign_const _ _ _
    · rw [if_neg hb] at hdef
      have hb0 : c.yB ≠ 0 := by
        intro e; rw [e] at hb; apply hb; rw [isZero_real]; norm_num
      set r := FNum.neg c.yC /. c.yB with hr
      have hr' : r = -c.yC / c.yB := rfl
      have hf : ∀ w, c.yB * w + c.yC = c.yB * (w - r) := by
        intro w; rw [hr']; field_simp; ring
      rw [ha0]
      intro i u v hu hv
      split at hdef
      · rename_i h; simp at h
        rw [hdef] at hu hv
        match i with
        | 0 => simp at hu hv; subst hu hv; exact constSign_linear hf (Or.inl (le_refl _))
        | 1 => simp at hu hv; subst hu hv; exact constSign_linear hf (Or.inr (le_refl _))
        | n + 2 => simp at hu
      · rename_i h; simp at h
        rw [hdef] at hu hv
        match i with
        | 0 =>
          simp at hu hv; subst hu hv
          rcases le_or_gt r 0 with h' | h'
          · exact constSign_linear hf (Or.inr h')
          · exact constSign_linear hf (Or.inl (h h'))
        | n + 1 => simp at hu
  · rw [if_neg ha] at hdef
    have ha0 : c.yA ≠ 0 := by
      intro e; rw [e] at ha; apply ha; rw [isZero_real]; norm_num
    by_cases hk : (FNum.lit 0 <. (c.yB *. c.yB -. FNum.lit 4 *. c.yA *. c.yC)) = true
    · rw [if_pos hk] at hdef
      simp only [field_lt, field_lit, field_mul, field_sub, decide_eq_true_eq] at hk
      have hk' : 0 < c.yB * c.yB - 4 * c.yA * c.yC := by push_cast at hk; exact hk
      set r1 := (FNum.neg c.yB +. FTrans.sqrt (c.yB *. c.yB -. FNum.lit 4 *. c.yA *. c.yC)) /. (FNum.lit 2 *. c.yA) with hr1
      set r2 := (FNum.neg c.yB -. FTrans.sqrt (c.yB *. c.yB -. FNum.lit 4 *. c.yA *. c.yC)) /. (FNum.lit 2 *. c.yA) with hr2
      have hf : ∀ w, c.yA * w ^ 2 + c.yB * w + c.yC = c.yA * (w - r1) * (w - r2) := by
        intro w; rw [quad_factor ha0 hk'.le w, hr1, hr2]; simp; rfl
      have hf' : ∀ w, c.yA * w ^ 2 + c.yB * w + c.yC = c.yA * (w - r2) * (w - r1) := by
        intro w; rw [hf]; ring
      -- both inside / one inside / none
      intro i u v hu hv
      have key : ∀ lo hi, lo ≤ hi → (∀ w, c.yA * w ^ 2 + c.yB * w + c.yC = c.yA * (w - lo) * (w - hi)) →
          (v ≤ lo ∨ (lo ≤ u ∧ v ≤ hi) ∨ hi ≤ u) → ConstSign c.yA c.yB c.yC u v :=
        fun lo hi h1 h2 h3 => constSign_factored h1 h2 h3
      by_cases c1 : 0 < r1 ∧ r1 < 1 <;> by_cases c2 : 0 < r2 ∧ r2 < 1
      · have e : c.splitY = [r1, r2] := by rw [hdef]; simp [c1, c2]
        rw [e] at hs
        have h12 : r1 < r2 := by simpa using hs
        rw [e] at hu hv
        match i with
        | 0 => simp at hu hv; subst hu hv; exact key r1 r2 h12.le hf (Or.inl (le_refl _))
        | 1 => simp at hu hv; subst hu hv; exact key _ _ h12.le hf (Or.inr (Or.inl ⟨le_refl _, le_refl _⟩))
        | 2 => simp at hu hv; subst hu hv; exact key _ _ h12.le hf (Or.inr (Or.inr (le_refl _)))
        | n + 3 => simp at hu
      · have e : c.splitY = [r1] := by rw [hdef]; simp [c1]; intro h; by_contra hc; exact c2 ⟨h, not_le.mp hc⟩
        rw [e] at hu hv
        have hr2' : r2 ≤ 0 ∨ 1 ≤ r2 := by
          by_contra hc; rw [not_or, not_le, not_le] at hc; exact c2 hc
        match i with
        | 0 =>
          simp at hu hv; subst hu hv
          rcases hr2' with h | h
          · exact key r2 _ (by linarith) hf' (Or.inr (Or.inl ⟨h, le_refl _⟩))
          · exact key _ r2 (by linarith) hf (Or.inl (le_refl _))
        | 1 =>
          simp at hu hv; subst hu hv
          rcases hr2' with h | h
          · exact key r2 _ (by linarith) hf' (Or.inr (Or.inr (le_refl _)))
          · exact key _ r2 (by linarith) hf (Or.inr (Or.inl ⟨le_refl _, h⟩))
        | n + 2 => simp at hu
      · have e : c.splitY = [r2] := by
          rw [hdef]; simp [c2]; intro h; by_contra hc; exact c1 ⟨h, not_le.mp hc⟩
        rw [e] at hu hv
        have hr1' : r1 ≤ 0 ∨ 1 ≤ r1 := by
          by_contra hc; rw [not_or, not_le, not_le] at hc; exact c1 hc
        match i with
        | 0 =>
          simp at hu hv; subst hu hv
          rcases hr1' with h | h
          · exact key r1 _ (by linarith) hf (Or.inr (Or.inl ⟨h, le_refl _⟩))
          · exact key _ r1 (by linarith) hf' (Or.inl (le_refl _))
        | 1 =>
          simp at hu hv; subst hu hv
          rcases hr1' with h | h
          · exact key r1 _ (by linarith) hf (Or.inr (Or.inr (le_refl _)))
          · exact key _ r1 (by linarith) hf' (Or.inr (Or.inl ⟨le_refl _, h⟩))
        | n + 2 => simp at hu
      · have e : c.splitY = [] := by
          rw [hdef]; simp
          exact ⟨fun h => by by_contra hc; exact c1 ⟨h, not_le.mp hc⟩, fun h => by by_contra hc; exact c2 ⟨h, not_le.mp hc⟩⟩
        rw [e] at hu hv
        have hr1' : r1 ≤ 0 ∨ 1 ≤ r1 := by
          by_contra hc; rw [not_or, not_le, not_le] at hc; exact c1 hc
        have hr2' : r2 ≤ 0 ∨ 1 ≤ r2 := by
          by_contra hc; rw [not_or, not_le, not_le] at hc; exact c2 hc
        match i with
        | 0 =>
          simp at hu hv; subst hu hv
          rcases le_total r1 r2 with h12 | h12
          · refine key r1 r2 h12 hf ?_
            rcases hr1' with h | h <;> rcases hr2' with h' | h'
            · exact Or.inr (Or.inr h')
            · exact Or.inr (Or.inl ⟨h, h'⟩)
            · exact Or.inl h
            · exact Or.inl h
          · refine key r2 r1 h12 hf' ?_
            rcases hr2' with h | h <;> rcases hr1' with h' | h'
            · exact Or.inr (Or.inr h')
            · exact Or.inr (Or.inl ⟨h, h'⟩)
            · exact Or.inl h
            · exact Or.inl h
        | n + 1 => simp at hu
    · intro i u v _ _
      apply constSign_disc _ ha0
      simp at hk; linarith

/-- C18 (partial): when the interior extrema are returned in ascending order (leading derivative coefficient not
positive, or at most one interior extremum), outside the tolerance bands, every stored piece is monotone in `y`.
Missing: two interior extrema with positive leading coefficient, for which the claim is false
(`readPieces_not_monotone`). -/
theorem readPieces_monotone_partial (c : Cubic ℝ) (htol : c.OutsideTolerance)
    (hend : ∀ t ∈ c.splitY, 1 / 1000000 < t ∧ t < 1 - 1 / 1000000)
    (hord : c.yA ≤ 0 ∨ c.splitY.length ≤ 1) : ∀ p ∈ c.readPieces, p.MonoY := by
  have hs : c.splitY.Pairwise (· < ·) := by
    match h : c.splitY with
    | [] => simp
    | [_] => simp
    | [t1, t2] =>
      rcases splitY_order c t1 t2 h with ⟨_, h'⟩ | ⟨h', _⟩
      · simpa using h'
      · rcases hord with h'' | h''
        · linarith
        · rw [h] at h''; simp at h''
    | _ :: _ :: _ :: l =>
      exfalso
      have : c.splitY.length ≤ 2 := by
        unfold splitY; dsimp only
        split
        · split
          · simp
          · split <;> simp
        · split
          · split <;> split <;> simp
          · simp
      rw [h] at this; simp at this
  have hcs := constSign_cuts c htol hs
  intro p hp
  rw [readPieces_of_splitY c hend] at hp
  split at hp
  · rename_i he
    simp at hp; subst hp
    exact monoY_of_traces p p 0 1 zero_le_one (pointAt_id p) (hcs 0 0 1 rfl (by simp [he]))
  · rename_i he
    have hne1 : ∀ t ∈ c.splitY, t ≠ 1 := fun t ht => ne_of_lt (splitY_mem c t ht).2
    obtain ⟨i, hi⟩ := List.getElem?_of_mem hp
    obtain ⟨u, v, hu, hv, htr⟩ := (splitMany_eval c c.splitY he hne1).2 i p hi
    refine monoY_of_traces c p u v ?_ htr (hcs i u v hu hv)
    -- cut parameters are sorted
    have hmem := splitY_mem c
    have hsort : (0 :: (c.splitY ++ [1])).Pairwise (· ≤ ·) := by
      rw [List.pairwise_cons]
      constructor
      · intro a ha; rw [List.mem_append] at ha
        rcases ha with ha | ha
        · exact (hmem a ha).1.le
        · simp at ha; rw [ha]; norm_num
      · rw [List.pairwise_append]
        refine ⟨hs.imp (fun h => le_of_lt h), by simp, ?_⟩
        intro a ha b hb
        simp at hb; rw [hb]; exact (hmem a ha).2.le
    have hv' : (0 :: (c.splitY ++ [1]))[i + 1]? = some v := by simpa using hv
    have hu' : (0 :: (c.splitY ++ [1]))[i]? = some u := by
      have : (0 :: (c.splitY ++ [1])) = (0 :: c.splitY) ++ [1] := rfl
      rw [this, List.getElem?_append_left]
      · exact hu
      · exact (List.getElem?_eq_some_iff.mp hu).1
    obtain ⟨h1, e1⟩ := List.getElem?_eq_some_iff.mp hu'
    obtain ⟨h2, e2⟩ := List.getElem?_eq_some_iff.mp hv'
    have := List.pairwise_iff_getElem.mp hsort i (i + 1) h1 h2 (by omega)
    rw [e1, e2] at this; exact this

/-- The whole curve is always covered: the stored pieces join, start where the curve starts and end where it ends. -/
theorem readPieces_joins (c : Cubic ℝ) :
    List.IsChain (fun a b : Cubic ℝ => a.p3 = b.p0) c.readPieces ∧
    (∃ h, c.readPieces.head? = some h ∧ h.p0 = c.p0) ∧ (∃ l, c.readPieces.getLast? = some l ∧ l.p3 = c.p3) := by
  unfold readPieces
  dsimp only
  generalize List.filter _ _ = ts
  cases ts with
  | nil => exact ⟨by simp, ⟨c, rfl, rfl⟩, ⟨c, rfl, rfl⟩⟩
  | cons t ts => exact splitMany_joins c (t :: ts) (by simp)

/-! ### The claim of C18 is false in general -/

/-- A curve with two interior extrema, at `1/4` (maximum) and `3/4` (minimum). -/
def wave : Cubic ℝ := ⟨⟨0, 0⟩, ⟨1, 3⟩, ⟨2, -2⟩, ⟨3, 1⟩⟩
/-- The same curve upside down. -/
def waveDown : Cubic ℝ := ⟨⟨0, 0⟩, ⟨1, -3⟩, ⟨2, 2⟩, ⟨3, -1⟩⟩

theorem sqrt576 : Real.sqrt 576 = 24 := by
  rw [show (576 : ℝ) = 24 ^ 2 by norm_num]; exact Real.sqrt_sq (by norm_num)

theorem wave_splitY : wave.splitY = [3 / 4, 1 / 4] := by
  unfold splitY
  simp only [derA_y, derB_y, derC_y]
  have a : wave.yA = 48 := by unfold yA wave dA; norm_num
  have b : wave.yB = -48 := by unfold yB wave dB; norm_num
  have c : wave.yC = 9 := by unfold yC wave dC; norm_num
  rw [a, b, c]
  have hz : isZero (48 : ℝ) = false := by rw [isZero_real_false]; norm_num
  have hq : FTrans.sqrt ((576 : ℝ)) = 24 := sqrt576
  rw [hz]
  simp only [field_mul, field_sub, field_neg, field_lit, field_lt, field_add, field_div]
  norm_num [hq]

theorem waveDown_splitY : waveDown.splitY = [1 / 4, 3 / 4] := by
  unfold splitY
  simp only [derA_y, derB_y, derC_y]
  have a : waveDown.yA = -48 := by unfold yA waveDown dA; norm_num
  have b : waveDown.yB = 48 := by unfold yB waveDown dB; norm_num
  have c : waveDown.yC = -9 := by unfold yC waveDown dC; norm_num
  rw [a, b, c]
  have hz : isZero (-48 : ℝ) = false := by rw [isZero_real_false]; norm_num
  have hq : FTrans.sqrt ((576 : ℝ)) = 24 := sqrt576
  rw [hz]
  simp only [field_mul, field_sub, field_neg, field_lit, field_lt, field_add, field_div]
  norm_num [hq]

/-- Negation of C18: for `wave`, well inside all tolerances, the first stored piece goes up and comes back. -/
theorem readPieces_not_monotone :
    wave.OutsideTolerance ∧ (∀ t ∈ wave.splitY, 1 / 1000000 < t ∧ t < 1 - 1 / 1000000) ∧
    ∃ p ∈ wave.readPieces, ¬ p.MonoY := by
  have hend : ∀ t ∈ wave.splitY, 1 / 1000000 < t ∧ t < 1 - 1 / 1000000 := by
    rw [wave_splitY]; intro t ht; simp at ht; rcases ht with rfl | rfl <;> norm_num
  refine ⟨?_, hend, ?_⟩
  · constructor
    · right; unfold yA wave dA; norm_num
    · intro h; unfold yA wave dA at h; norm_num at h
  · have hne1 : ∀ t ∈ wave.splitY, t ≠ 1 := fun t ht => ne_of_lt (splitY_mem _ t ht).2
    have he : wave.splitY ≠ [] := by rw [wave_splitY]; simp
    have hr := readPieces_of_splitY wave hend
    rw [if_neg he] at hr
    obtain ⟨hlen, htr⟩ := splitMany_eval wave wave.splitY he hne1
    rw [← hr] at hlen htr
    have h0 : 0 < wave.readPieces.length := by rw [hlen]; omega
    obtain ⟨u, v, hu, hv, ht⟩ := htr 0 wave.readPieces[0] (List.getElem?_eq_getElem h0)
    rw [wave_splitY] at hu hv
    simp at hu hv
    refine ⟨wave.readPieces[0], List.getElem_mem h0, ?_⟩
    have hy : ∀ s, (wave.readPieces[0].eval s).y = (wave.eval (u + s * (v - u))).y := by
      intro s; rw [← pointAt_eq_eval, ← pointAt_eq_eval, ht]
    subst hu hv
    have y0 : (wave.readPieces[0].eval 0).y = 0 := by rw [hy]; unfold eval bern wave; norm_num
    have y1 : (wave.readPieces[0].eval (1 / 3)).y = 1 := by rw [hy]; unfold eval bern wave; norm_num
    have y2 : (wave.readPieces[0].eval 1).y = 0 := by rw [hy]; unfold eval bern wave; norm_num
    rintro (h | h)
    · have := h (1 / 3) 1 (by norm_num) (by norm_num) (le_refl _)
      rw [y1, y2] at this; norm_num at this
    · have := h 0 (1 / 3) (le_refl _) (by norm_num) (by norm_num)
      rw [y0, y1] at this; norm_num at this

/-- The hypotheses of `readPieces_monotone_partial` are met by a curve with two interior extrema. -/
example : waveDown.OutsideTolerance ∧ (∀ t ∈ waveDown.splitY, 1 / 1000000 < t ∧ t < 1 - 1 / 1000000) ∧
    waveDown.yA ≤ 0 ∧ waveDown.splitY.length = 2 := by
  refine ⟨⟨?_, ?_⟩, ?_, ?_, ?_⟩
  · right; unfold yA waveDown dA; norm_num
  · intro h; unfold yA waveDown dA at h; norm_num at h
  · rw [waveDown_splitY]; intro t ht; simp at ht; rcases ht with rfl | rfl <;> norm_num
  · unfold yA waveDown dA; norm_num
  · rw [waveDown_splitY]; rfl

end Cubic
end River
