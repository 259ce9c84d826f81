import Verif.Spec.IeeeOrder
import Verif.Props.ScanLine
import Verif.Props.Ring
import Verif.Props.Ael
import Verif.Props.Wind
import Verif.Props.Rect
import Verif.Lemmas.SimList

/-! # Comparing doubles is comparing their values

Functions of the code that only compare numbers do the same on doubles that are not NaN as on their values. -/

namespace River
attribute [local instance 10000] FTrans.toFNum

open Classical in
/-- Extended real numbers with their comparisons; the arithmetic is a dummy. -/
noncomputable def erealNum : FTrans EReal where
  add a _ := a
  sub a _ := a
  mul a _ := a
  div a _ := a
  neg a := -a
  lt a b := decide (a < b)
  le a b := decide (a ≤ b)
  eq a b := decide (a = b)
  lit q := ((q : ℝ) : EReal)
  isFinite _ := true
  maxNum := ((dblMax : ℝ) : EReal)
  sqrt a := a
  cbrt a := a
  powi a _ := a
  cos a := a
  sin a := a
  atan a := a

attribute [local instance] erealNum

theorem ereal_lt (a b : EReal) : (a <. b) = true ↔ a < b := decide_eq_true_iff
theorem ereal_le (a b : EReal) : (a ≤. b) = true ↔ a ≤ b := decide_eq_true_iff
theorem ereal_eq (a b : EReal) : (a ==. b) = true ↔ a = b := decide_eq_true_iff

theorem erealLawful : LawfulOrd EReal := ⟨ereal_lt, ereal_le, ereal_eq⟩
attribute [local instance] erealLawful

namespace Dbl

theorem value_lt {a b : Dbl} (ha : a ≠ .nan) (hb : b ≠ .nan) : (a <. b) = (a.value <. b.value) := by
  rw [Bool.eq_iff_iff, ereal_lt]
  cases a with
  | nan => exact absurd rfl ha
  | num s m =>
    cases b with
    | nan => exact absurd rfl hb
    | num t n =>
      show decide (val s m < val t n) = true ↔ _
      rw [decide_eq_true_iff]
      show _ ↔ (((val s m : ℚ) : ℝ) : EReal) < (((val t n : ℚ) : ℝ) : EReal)
      rw [EReal.coe_lt_coe_iff, Rat.cast_lt]
    | inf t => cases t <;> simp [FNum.lt, lt, value, EReal.coe_lt_top]
  | inf s =>
    cases b with
    | nan => exact absurd rfl hb
    | num t n => cases s <;> simp [FNum.lt, lt, value, EReal.bot_lt_coe]
    | inf t => cases s <;> cases t <;> simp [FNum.lt, lt, value]

theorem value_eq {a b : Dbl} (ha : a ≠ .nan) (hb : b ≠ .nan) : (a ==. b) = (a.value ==. b.value) := by
  rw [Bool.eq_iff_iff, ereal_eq]
  cases a with
  | nan => exact absurd rfl ha
  | num s m =>
    cases b with
    | nan => exact absurd rfl hb
    | num t n =>
      show decide (val s m = val t n) = true ↔ _
      rw [decide_eq_true_iff]
      show _ ↔ (((val s m : ℚ) : ℝ) : EReal) = (((val t n : ℚ) : ℝ) : EReal)
      rw [EReal.coe_eq_coe_iff, Rat.cast_inj]
    | inf t => cases t <;> simp [FNum.eq, eq, value]
  | inf s =>
    cases b with
    | nan => exact absurd rfl hb
    | num t n => cases s <;> simp [FNum.eq, eq, value]
    | inf t => cases s <;> cases t <;> simp [FNum.eq, eq, value]

theorem lt_value {a b : Dbl} (ha : a ≠ .nan) (hb : b ≠ .nan) : (a <. b) = true ↔ a.value < b.value := by
  rw [value_lt ha hb, ereal_lt]

theorem eq_value {a b : Dbl} (ha : a ≠ .nan) (hb : b ≠ .nan) : (a ==. b) = true ↔ a.value = b.value := by
  rw [value_eq ha hb, ereal_eq]

theorem lt_value_false {a b : Dbl} (ha : a ≠ .nan) (hb : b ≠ .nan) : (a <. b) = false ↔ b.value ≤ a.value := by
  rw [← not_lt, ← lt_value ha hb, Bool.not_eq_true]

end Dbl
end River
