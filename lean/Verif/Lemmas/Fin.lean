import Verif.Spec.Line

/-! # Evaluation of the model on finite points (helper lemmas for the exact theorems) -/

set_option linter.unusedSectionVars false

namespace River
variable {R : Type} [Field R] [LinearOrder R] [IsStrictOrderedRing R]

/-- The coordinates do not exceed `DBL_MAX` (true for every finite double). -/
def Vec2.InRange (p : Vec2 R) : Prop :=
  -(dblMax : R) ≤ p.x ∧ p.x ≤ (dblMax : R) ∧ -(dblMax : R) ≤ p.y ∧ p.y ≤ (dblMax : R)

/-! ## helper lemmas: evaluation on finite points -/

theorem Vec2.fin_sub (p q : Vec2 R) : p.fin.sub q.fin = (⟨p.x - q.x, p.y - q.y⟩ : Vec2 R).fin := by
  simp [Vec2.sub, Vec2.fin]
theorem Vec2.fin_add (p q : Vec2 R) : p.fin.add q.fin = (⟨p.x + q.x, p.y + q.y⟩ : Vec2 R).fin := by
  simp [Vec2.add, Vec2.fin]
theorem Vec2.fin_smul (p : Vec2 R) (s : R) : p.fin.smul (.fin s) = (⟨p.x * s, p.y * s⟩ : Vec2 R).fin := by
  simp [Vec2.smul, Vec2.fin]
theorem Vec2.fin_dist2 (p : Vec2 R) : p.fin.dist2 = .fin (p.x * p.x + p.y * p.y) := by
  simp [Vec2.dist2, Vec2.fin]
theorem Vec2.fin_dot (p q : Vec2 R) : p.fin.dot q.fin = .fin (p.x * q.x + p.y * q.y) := by
  simp [Vec2.dot, Vec2.fin]
omit [LinearOrder R] [IsStrictOrderedRing R] [Field R] in
theorem Vec2.fin_inj (p q : Vec2 R) : p.fin = q.fin ↔ p = q := by
  simp [Vec2.fin, Vec2.ext_iff]
theorem Vec2.fin_beq (p q : Vec2 R) : p.fin.beq q.fin = decide (p = q) := by
  rw [Bool.eq_iff_iff]
  simp [Vec2.beq, Vec2.fin, Vec2.ext_iff]
theorem Vec2.fin_bne (p q : Vec2 R) : p.fin.bne q.fin = decide (p ≠ q) := by
  simp [Vec2.bne, Vec2.fin_beq]

theorem Ext.fin_fmin (a b : R) : fmin (Ext.fin a) (Ext.fin b) = .fin (min a b) := by
  unfold fmin; simp only [Ext.fin_lt, decide_eq_true_eq]
  split
  · rw [min_eq_right (le_of_lt ‹_›)]
  · rw [min_eq_left (not_lt.mp ‹_›)]
theorem Ext.fin_fmax (a b : R) : fmax (Ext.fin a) (Ext.fin b) = .fin (max a b) := by
  unfold fmax; simp only [Ext.fin_lt, decide_eq_true_eq]
  split
  · rw [max_eq_right (le_of_lt ‹_›)]
  · rw [max_eq_left (not_lt.mp ‹_›)]

theorem rect_of_fin2 (p q : Vec2 R) (hp : p.InRange) : Rect.of [p.fin, q.fin] =
    (⟨(⟨min p.x q.x, min p.y q.y⟩ : Vec2 R).fin, (⟨max p.x q.x, max p.y q.y⟩ : Vec2 R).fin⟩ : Rect (Ext R)) := by
  obtain ⟨h1, h2, h3, h4⟩ := hp
  simp only [Rect.of, List.foldl, Rect.extend, Rect.start, Vec2.fin, Ext.maxNum_eq, Ext.fin_neg, Ext.fin_fmin,
    Ext.fin_fmax]
  rw [min_eq_right h2, min_eq_right h4, max_eq_right h1, max_eq_right h3]

theorem pointBetween_fin (p a b : Vec2 R) (ha : a.InRange) : pointBetween p.fin a.fin b.fin = true ↔
    (a.x = b.x ∧ min a.y b.y ≤ p.y ∧ p.y ≤ max a.y b.y) ∨ (a.x ≠ b.x ∧ min a.x b.x ≤ p.x ∧ p.x ≤ max a.x b.x) := by
  unfold pointBetween
  rw [rect_of_fin2 a b ha]
  simp only [Vec2.fin, Ext.fin_eq, Ext.fin_le]
  by_cases h : a.x = b.x
  · simp [h]
  · simp [h]


end River
