import Verif.Model.Memory
import Verif.Props.ScanLine
import Verif.Props.Handle
import Mathlib.Data.Finset.Card

/-! # C78: memory that `process` does not give back -/

set_option linter.unusedSectionVars false

namespace River

section
variable {K : Type} [FNum K] [LinearOrder K] [LawfulOrd K]

theorem touch_xs (x : K) (f : ScanPoint K → ScanPoint K) (hf : ∀ p, (f p).x = p.x) (pts : List (ScanPoint K))
    (hs : pts.Pairwise (fun p q => p.x < q.x)) :
    ((touch x f pts).map ScanPoint.x).toFinset = insert x (pts.map ScanPoint.x).toFinset ∧
    (touch x f pts).length = pts.length + pointBlocks x pts := by
  induction pts with
  | nil => simp [touch, pointBlocks, hf]
  | cons p ps ih =>
    have hs' := List.pairwise_cons.mp hs
    obtain ⟨i1, i2⟩ := ih hs'.2
    unfold touch
    simp only [lt_eq_decide, decide_eq_true_eq]
    split
    · rename_i hlt
      constructor
      · rw [List.map_cons, List.toFinset_cons, i1, List.map_cons, List.toFinset_cons, Finset.insert_comm]
      · rw [List.length_cons, i2, List.length_cons]
        have : pointBlocks x (p :: ps) = pointBlocks x ps := by
          unfold pointBlocks; simp [lt_eq_decide, hlt]
        rw [this]; omega
    · rename_i hge
      split
      · rename_i hlt
        constructor
        · simp [hf]
        · have : pointBlocks x (p :: ps) = 1 := by
            unfold pointBlocks
            rw [if_neg]
            simp only [List.any_cons, List.any_eq_true, lt_eq_decide, Bool.or_eq_true, Bool.and_eq_true, Bool.not_eq_true',
              decide_eq_false_iff_not, not_lt]
            rintro (⟨_, h⟩ | ⟨q, hq, _, h⟩)
            · exact absurd hlt (not_lt.mpr h)
            · exact absurd (hlt.trans (hs'.1 q hq)) (not_lt.mpr h)
          rw [this]; rfl
      · rename_i hge'
        have e : p.x = x := le_antisymm (not_lt.mp hge') (not_lt.mp hge)
        constructor
        · simp [hf, e]
        · have : pointBlocks x (p :: ps) = 0 := by
            unfold pointBlocks; simp [lt_eq_decide, e]
          rw [this]; rfl

/-- **C78**, broad phase (ordered level): one block for every box and one for every different abscissa of a left or right side. -/
theorem scanBlocks_eq (bs : List (Rect K)) :
    scanBlocks [] 0 bs = bs.length + ((bs.flatMap (fun b => [b.min.x, b.max.x])).toFinset).card := by
  have gen : ∀ (bs : List (Rect K)) (pts : List (ScanPoint K)) (i : Nat), pts.Pairwise (fun p q => p.x < q.x) →
      pts.length + scanBlocks pts i bs = bs.length +
        ((pts.map ScanPoint.x).toFinset ∪ (bs.flatMap (fun b => [b.min.x, b.max.x])).toFinset).card := by
    intro bs
    induction bs with
    | nil =>
      intro pts i hs
      have hn : (pts.map ScanPoint.x).Nodup := by
        rw [List.Nodup, List.pairwise_map]
        exact hs.imp (fun h => ne_of_lt h)
      have : pts.length = (pts.map ScanPoint.x).length := by simp
      simp only [scanBlocks, List.flatMap_nil, List.toFinset_nil, Finset.union_empty, List.length_nil]
      rw [List.toFinset_card_of_nodup hn, List.length_map]; omega
    | cons b bs ih =>
      intro pts i hs
      have hf : ∀ p : ScanPoint K, ({ p with ins := p.ins ++ [i] } : ScanPoint K).x = p.x := fun _ => rfl
      have hg : ∀ p : ScanPoint K, ({ p with outs := p.outs ++ [i] } : ScanPoint K).x = p.x := fun _ => rfl
      have s1 := (touch_spec b.min.x _ hf pts hs).1
      have s2 := (touch_spec b.max.x _ hg _ s1).1
      obtain ⟨x1, l1⟩ := touch_xs b.min.x _ hf pts hs
      obtain ⟨x2, l2⟩ := touch_xs b.max.x _ hg _ s1
      have := ih (addSegment pts i b) (i + 1) s2
      unfold addSegment at this
      rw [x2, x1, l2, l1] at this
      unfold scanBlocks segmentBlocks addSegment
      rw [List.flatMap_cons, List.length_cons]
      have e : insert b.max.x (insert b.min.x (pts.map ScanPoint.x).toFinset) ∪ (bs.flatMap (fun b => [b.min.x, b.max.x])).toFinset =
          (pts.map ScanPoint.x).toFinset ∪ ([b.min.x, b.max.x] ++ bs.flatMap (fun b => [b.min.x, b.max.x])).toFinset := by
        ext z
        simp only [Finset.mem_union, Finset.mem_insert, List.toFinset_append, List.toFinset_cons, List.toFinset_nil,
          Finset.notMem_empty, or_false]
        tauto
      rw [e] at this
      omega
  have := gen bs [] 0 List.Pairwise.nil
  simpa using this

end

section
variable {K : Type} [FTrans K] [LinearOrder K] [LawfulOrd K]
attribute [local instance 10000] FTrans.toFNum

/-- **C78** is false of the code, for every input: a call of `process` never gives back one block for every vertex of a contour and
one for every different abscissa at which a side begins or ends. -/
theorem process_leak (c : Clipper K) : c.leak = (allNodes c.rings).length +
    (((allNodes c.rings).flatMap (fun v => [(v.seg.boundary v.pt).min.x, (v.seg.boundary v.pt).max.x])).toFinset).card := by
  unfold Clipper.leak
  rw [scanBlocks_eq, List.length_map, List.flatMap_map]

/-- Only a call without any contour leaves nothing behind. -/
theorem leak_zero_iff (c : Clipper K) : c.leak = 0 ↔ allNodes c.rings = [] := by
  rw [process_leak]
  constructor
  · intro h
    exact List.eq_nil_of_length_eq_zero (by omega)
  · intro h; rw [h]; rfl

/-- **C78** (partial): nothing is left behind by a call without contours. Missing: all other calls, for which the claim is false
(`process_leak`, `leak_zero_iff`). -/
theorem process_leak_partial (c : Clipper K) (h : c.rings = []) : c.leak = 0 := by
  rw [leak_zero_iff, h]; rfl

end

/-- A triangle: three vertices, and the abscissas 0 and 4. -/
theorem triangle_leak : (((Clipper.new (K := ℚ)).addPath [((Path.empty.moveto ⟨0, 0⟩).lineto ⟨4, 0⟩).lineto ⟨4, 4⟩] .subject).map
    Clipper.leak) = some 5 := by decide +kernel

end River
