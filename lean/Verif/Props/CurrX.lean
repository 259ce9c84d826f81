import Verif.Lemmas.CurvedSide
import Verif.Props.Segment

/-! # `curr_x` of a line, as one statement (C23) -/

namespace River.Seg
variable {K : Type} [Field K] [LinearOrder K] [IsStrictOrderedRing K] [FTrans K] [LawfulOrd K] [Exact K]
attribute [local instance 10000] FTrans.toFNum

/-- C23: `curr_x` of a line from `a` to `b` that is not horizontal gives the point of the line at the height asked for; at the ends their abscissae,
in between an abscissa between them; it is monotone in the height, and reversing the segment changes nothing. -/
theorem currX_line (a b : Vec2 K) (h : a.y ≠ b.y) :
    (∀ y, OnLine ⟨(Seg.line b).currX a y, y⟩ a b) ∧
    (Seg.line b).currX a a.y = a.x ∧ (Seg.line b).currX a b.y = b.x ∧
    (∀ y, min a.y b.y ≤ y → y ≤ max a.y b.y → min a.x b.x ≤ (Seg.line b).currX a y ∧ (Seg.line b).currX a y ≤ max a.x b.x) ∧
    ((∀ y z, y ≤ z → (Seg.line b).currX a y ≤ (Seg.line b).currX a z) ∨ (∀ y z, y ≤ z → (Seg.line b).currX a z ≤ (Seg.line b).currX a y)) ∧
    (∀ y, ((Seg.line b).reverse a).currX b y = (Seg.line b).currX a y) := by
  have e : ∀ (a b : Vec2 K) y, (Seg.line b).currX a y = @linX K instFNumField b a y := by
    intro a b y
    simp only [currX, linX, Exact.add_eq, Exact.sub_eq, Exact.mul_eq, Exact.div_eq]
    rfl
  refine ⟨fun y => ?_, ?_, ?_, fun y h1 h2 => ?_, ?_, fun y => ?_⟩
  · rw [e]; exact linX_on_line a b h y
  · rw [e]; exact (linX_ends a b h).1
  · rw [e]; exact (linX_ends a b h).2
  · rw [e]; exact linX_between a b h y ⟨h1, h2⟩
  · simp only [e]; exact linX_mono a b h
  · simp only [Seg.reverse]; rw [e, e]; exact (linX_symm a b h y).symm

end River.Seg
