import Verif.Model.ScanLine
import Verif.Props.Rect
import Mathlib.Data.List.Perm.Basic
import Mathlib.Data.List.Perm.Lattice
import Mathlib.Data.List.Nodup
import Mathlib.Data.List.Range
import Mathlib.Data.Finset.Basic
import Mathlib.Data.List.Sort

/-! # C26: the broad phase reports every overlapping pair exactly once -/

set_option linter.unusedSectionVars false

namespace River
variable {K : Type} [FNum K] [LinearOrder K] [LawfulOrd K]

theorem mem_insertAddr (addr : Nat → Nat) (hinj : Function.Injective addr) (i : Nat) (l : List Nat) (c : Nat) :
    c ∈ insertAddr addr i l ↔ c = i ∨ c ∈ l := by
  induction l with
  | nil => simp [insertAddr]
  | cons a l ih =>
    unfold insertAddr
    split
    · simp only [List.mem_cons, ih]; tauto
    · split
      · simp
      · have : addr a = addr i := by omega
        have := hinj this
        subst this
        simp

theorem insertAddr_perm (addr : Nat → Nat) (hinj : Function.Injective addr) (i : Nat) (l : List Nat) (h : i ∉ l) :
    (insertAddr addr i l).Perm (i :: l) := by
  induction l with
  | nil => exact List.Perm.refl _
  | cons a l ih =>
    unfold insertAddr
    split
    · exact ((ih (by simp at h; exact h.2)).cons a).trans (List.Perm.swap i a l)
    · split
      · exact List.Perm.refl _
      · exfalso
        have : addr a = addr i := by omega
        exact h (by rw [hinj this]; simp)

/-- The set of current objects stays a set ordered by address: inserting keeps it strictly increasing, so it holds no object twice. -/
theorem insertAddr_sorted (addr : Nat → Nat) (i : Nat) (l : List Nat) (h : l.Pairwise (fun a b => addr a < addr b)) :
    (insertAddr addr i l).Pairwise (fun a b => addr a < addr b) := by
  have low : ∀ (l : List Nat) (c z : Nat), z ∈ insertAddr addr i l → addr c < addr i → (∀ y ∈ l, addr c < addr y) → addr c < addr z := by
    intro l c z
    induction l with
    | nil => intro hz hc _; simp only [insertAddr, List.mem_singleton] at hz; rwa [hz]
    | cons a l ih =>
      intro hz hc hl
      unfold insertAddr at hz
      split at hz
      · rcases List.mem_cons.1 hz with rfl | hz
        · exact hl _ List.mem_cons_self
        · exact ih hz hc (fun y hy => hl y (List.mem_cons_of_mem _ hy))
      · split at hz
        · rcases List.mem_cons.1 hz with rfl | hz
          · exact hc
          · exact hl _ hz
        · exact hl _ hz
  induction l with
  | nil => simp [insertAddr]
  | cons a l ih =>
    obtain ⟨h1, h2⟩ := List.pairwise_cons.1 h
    unfold insertAddr
    split
    · next hai => exact List.pairwise_cons.2 ⟨fun z hz => low l a z hz hai h1, ih h2⟩
    · split
      · next hia =>
        refine List.pairwise_cons.2 ⟨fun z hz => ?_, h⟩
        rcases List.mem_cons.1 hz with rfl | hz
        · exact hia
        · exact hia.trans (h1 z hz)
      · exact h

/-- Calls for one entry, from the entered list `P`. -/
def entryCalls (boxes : Nat → Rect K) (P : List Nat) (i : Nat) : List (Nat × Nat) :=
  (P.filter (fun c => (boxes c).intersect (boxes i))).map (fun c => (c, i))

/-- Calls for a sequence of entries when nothing is ever erased. -/
def allCalls (boxes : Nat → Rect K) : List Nat → List Nat → List (Nat × Nat)
  | _, [] => []
  | P, i :: is => entryCalls boxes P i ++ allCalls boxes (P ++ [i]) is

theorem filter_perm_of {α} (q : α → Bool) (A B : List α) (hA : A.Nodup) (hB : B.Nodup)
    (h : ∀ c, q c = true → (c ∈ A ↔ c ∈ B)) : (A.filter q).Perm (B.filter q) := by
  rw [List.perm_ext_iff_of_nodup (hA.filter _) (hB.filter _)]
  intro c
  simp only [List.mem_filter]
  constructor
  · rintro ⟨h1, h2⟩; exact ⟨(h c h2).mp h1, h2⟩
  · rintro ⟨h1, h2⟩; exact ⟨(h c h2).mpr h1, h2⟩

theorem scanIns_spec (addr : Nat → Nat) (hinj : Function.Injective addr) (boxes : Nat → Rect K) (is : List Nat)
    (cur P : List Nat) (hcur : cur.Nodup) (hP : (P ++ is).Nodup) (hsub : ∀ c ∈ cur, c ∈ P)
    (hgone : ∀ c ∈ P, c ∉ cur → ∀ j ∈ is, (boxes c).intersect (boxes j) = false) :
    (scanIns addr boxes cur is).1.Nodup ∧
    (∀ c, c ∈ (scanIns addr boxes cur is).1 ↔ c ∈ cur ∨ c ∈ is) ∧
    (scanIns addr boxes cur is).2.Perm (allCalls boxes P is) := by
  induction is generalizing cur P with
  | nil => simp [scanIns, allCalls, hcur]
  | cons i is ih =>
    have hi : i ∉ P := by
      intro h; exact (List.nodup_append.mp hP).2.2 i h i (by simp) rfl
    have hic : i ∉ cur := fun h => hi (hsub i h)
    have hperm := insertAddr_perm addr hinj i cur hic
    have key := ih (insertAddr addr i cur) (P ++ [i]) (hperm.nodup_iff.mpr (List.nodup_cons.mpr ⟨hic, hcur⟩))
      (by simpa using hP)
      (by
        intro c hc
        rcases (mem_insertAddr addr hinj i cur c).mp hc with rfl | h
        · simp
        · simp [hsub c h])
      (by
        intro c hc hnc j hj
        rw [mem_insertAddr addr hinj] at hnc
        push Not at hnc
        have hc' : c ∈ P := by
          rcases List.mem_append.mp hc with h | h
          · exact h
          · simp at h; exact absurd h hnc.1
        exact hgone c hc' hnc.2 j (by simp [hj]))
    unfold scanIns
    dsimp only
    refine ⟨key.1, ?_, ?_⟩
    · intro c
      rw [key.2.1, mem_insertAddr addr hinj]
      simp only [List.mem_cons]; tauto
    · unfold allCalls
      refine List.Perm.append ?_ key.2.2
      unfold entryCalls
      apply List.Perm.map
      apply filter_perm_of _ _ _ hcur (List.nodup_append.mp hP).1
      intro c hq
      constructor
      · exact hsub c
      · intro hc
        by_contra hnc
        rw [hgone c hc hnc i (by simp)] at hq
        exact absurd hq (by simp)

theorem allCalls_append (boxes : Nat → Rect K) (P a b : List Nat) :
    allCalls boxes P (a ++ b) = allCalls boxes P a ++ allCalls boxes (P ++ a) b := by
  induction a generalizing P with
  | nil => simp [allCalls]
  | cons i a ih =>
    simp only [List.cons_append, allCalls, ih, List.append_assoc]
    simp

/-- The event list is sorted, and the `out` entries are at the right abscissa. -/
structure PointsOK (boxes : Nat → Rect K) (pts : List (ScanPoint K)) : Prop where
  sorted : pts.Pairwise (fun p q => p.x < q.x)
  ins : ∀ p ∈ pts, ∀ i ∈ p.ins, (boxes i).min.x = p.x
  outs : ∀ p ∈ pts, ∀ i ∈ p.outs, (boxes i).max.x = p.x

theorem scanPoints_spec (addr : Nat → Nat) (hinj : Function.Injective addr) (boxes : Nat → Rect K)
    (pts : List (ScanPoint K)) (hpts : PointsOK boxes pts) (cur P : List Nat) (hcur : cur.Nodup)
    (hP : (P ++ pts.flatMap ScanPoint.ins).Nodup) (hsub : ∀ c ∈ cur, c ∈ P)
    (hgone : ∀ c ∈ P, c ∉ cur → ∀ j ∈ pts.flatMap ScanPoint.ins, (boxes c).intersect (boxes j) = false) :
    (scanPoints addr boxes cur pts).Perm (allCalls boxes P (pts.flatMap ScanPoint.ins)) := by
  induction pts generalizing cur P with
  | nil => simp [scanPoints, allCalls]
  | cons p ps ih =>
    rw [List.flatMap_cons] at hP hgone ⊢
    unfold scanPoints
    dsimp only
    have h1 := scanIns_spec addr hinj boxes p.ins cur P hcur
      (by rw [← List.append_assoc] at hP; exact (List.nodup_append.mp hP).1) hsub
      (fun c hc hnc j hj => hgone c hc hnc j (by simp [hj]))
    rw [allCalls_append]
    refine List.Perm.append h1.2.2 ?_
    have hs := List.pairwise_cons.mp hpts.sorted
    apply ih ⟨hs.2, fun q hq => hpts.ins q (by simp [hq]), fun q hq => hpts.outs q (by simp [hq])⟩
    · exact h1.1.filter _
    · rw [List.append_assoc]; exact hP
    · intro c hc
      have := (h1.2.1 c).mp (List.mem_filter.mp hc).1
      rcases this with h | h
      · simp [hsub c h]
      · simp [h]
    · intro c hc hnc j hj
      by_cases hin : c ∈ (scanIns addr boxes cur p.ins).1
      · -- erased at this point: its right end is here, the next ones start strictly later
        have hout : c ∈ p.outs := by
          by_contra hno
          exact hnc (List.mem_filter.mpr ⟨hin, by simpa using hno⟩)
        obtain ⟨q, hq, hjq⟩ := List.mem_flatMap.mp hj
        have e1 := hpts.outs p (by simp) c hout
        have e2 := hpts.ins q (by simp [hq]) j hjq
        have e3 := hs.1 q hq
        unfold Rect.intersect
        simp only [lt_eq_decide]
        rw [Bool.not_eq_false']
        have : (boxes c).max.x < (boxes j).min.x := by rw [e1, e2]; exact e3
        simp [this]
      · rw [h1.2.1] at hin
        push Not at hin
        have hcP : c ∈ P := by
          rcases List.mem_append.mp hc with h | h
          · exact h
          · exact absurd h hin.2
        exact hgone c hcP hin.1 j (by simp only [List.mem_append]; exact Or.inr hj)

theorem touch_spec (x : K) (f : ScanPoint K → ScanPoint K) (hf : ∀ p, (f p).x = p.x) (pts : List (ScanPoint K))
    (hs : pts.Pairwise (fun p q => p.x < q.x)) :
    (touch x f pts).Pairwise (fun p q => p.x < q.x) ∧
    (∀ p ∈ touch x f pts, p ∈ pts ∨ p = f ⟨x, [], []⟩ ∨ ∃ q ∈ pts, q.x = x ∧ p = f q) := by
  induction pts with
  | nil => simp [touch]
  | cons p ps ih =>
    have hs' := List.pairwise_cons.mp hs
    obtain ⟨i1, i2⟩ := ih hs'.2
    unfold touch
    simp only [lt_eq_decide, decide_eq_true_eq]
    split
    · rename_i hlt
      refine ⟨List.pairwise_cons.mpr ⟨?_, i1⟩, ?_⟩
      · intro q hq
        rcases i2 q hq with h | h | ⟨q', hq', e, h⟩
        · exact hs'.1 q h
        · rw [h, hf]; exact hlt
        · rw [h, hf, e]; exact hlt
      · intro q hq
        rcases List.mem_cons.mp hq with rfl | hq
        · simp
        · rcases i2 q hq with h | h | ⟨q', hq', e, h⟩
          · simp [h]
          · simp [h]
          · exact Or.inr (Or.inr ⟨q', by simp [hq'], e, h⟩)
    · rename_i hge
      split
      · rename_i hlt
        refine ⟨List.pairwise_cons.mpr ⟨?_, hs⟩, ?_⟩
        · intro q hq
          rw [hf]
          rcases List.mem_cons.mp hq with rfl | hq
          · exact hlt
          · exact hlt.trans (hs'.1 q hq)
        · intro q hq
          rcases List.mem_cons.mp hq with rfl | hq
          · simp
          · exact Or.inl hq
      · rename_i hge'
        have e : p.x = x := le_antisymm (not_lt.mp hge') (not_lt.mp hge)
        refine ⟨List.pairwise_cons.mpr ⟨?_, hs'.2⟩, ?_⟩
        · intro q hq; rw [hf]; exact hs'.1 q hq
        · intro q hq
          rcases List.mem_cons.mp hq with rfl | hq
          · exact Or.inr (Or.inr ⟨p, by simp, e, rfl⟩)
          · simp [hq]

theorem touch_ins (x : K) (i : Nat) (pts : List (ScanPoint K)) :
    ((touch x (fun p => { p with ins := p.ins ++ [i] }) pts).flatMap ScanPoint.ins).Perm
      (pts.flatMap ScanPoint.ins ++ [i]) := by
  induction pts with
  | nil => simp [touch]
  | cons p ps ih =>
    unfold touch
    split
    · simp only [List.flatMap_cons, List.append_assoc]
      exact List.Perm.append_left _ ih
    · split
      · simp only [List.flatMap_cons, List.nil_append]
        exact List.perm_append_comm
      · simp only [List.flatMap_cons, List.append_assoc]
        exact List.Perm.append_left _ List.perm_append_comm

theorem touch_outs_ins (x : K) (i : Nat) (pts : List (ScanPoint K)) :
    (touch x (fun p => { p with outs := p.outs ++ [i] }) pts).flatMap ScanPoint.ins = pts.flatMap ScanPoint.ins := by
  induction pts with
  | nil => simp [touch]
  | cons p ps ih =>
    unfold touch
    split
    · simp only [List.flatMap_cons, ih]
    · split <;> simp

theorem addSegment_ok (boxes : Nat → Rect K) (pts : List (ScanPoint K)) (h : PointsOK boxes pts) (i : Nat) :
    PointsOK boxes (addSegment pts i (boxes i)) := by
  unfold addSegment
  obtain ⟨a1, a2⟩ := touch_spec (boxes i).min.x (fun p => { p with ins := p.ins ++ [i] }) (by intro p; rfl) pts h.sorted
  obtain ⟨b1, b2⟩ := touch_spec (boxes i).max.x (fun p => { p with outs := p.outs ++ [i] }) (by intro p; rfl) _ a1
  have hA : PointsOK boxes (touch (boxes i).min.x (fun p => { p with ins := p.ins ++ [i] }) pts) := by
    refine ⟨a1, ?_, ?_⟩
    · intro p hp j hj
      rcases a2 p hp with h' | rfl | ⟨q, hq, e, rfl⟩
      · exact h.ins p h' j hj
      · simp at hj; rw [hj]
      · rcases List.mem_append.mp hj with hj | hj
        · exact h.ins q hq j hj
        · simp at hj; rw [hj]; exact e.symm
    · intro p hp j hj
      rcases a2 p hp with h' | rfl | ⟨q, hq, e, rfl⟩
      · exact h.outs p h' j hj
      · simp at hj
      · exact h.outs q hq j hj
  refine ⟨b1, ?_, ?_⟩
  · intro p hp j hj
    rcases b2 p hp with h' | rfl | ⟨q, hq, e, rfl⟩
    · exact hA.ins p h' j hj
    · simp at hj
    · exact hA.ins q hq j hj
  · intro p hp j hj
    rcases b2 p hp with h' | rfl | ⟨q, hq, e, rfl⟩
    · exact hA.outs p h' j hj
    · simp at hj; rw [hj]
    · rcases List.mem_append.mp hj with hj | hj
      · exact hA.outs q hq j hj
      · simp at hj; rw [hj]; exact e.symm

theorem addSegments_spec (boxes : Nat → Rect K) (bs : List (Rect K)) (i : Nat)
    (hb : ∀ (k : Nat) (b : Rect K), bs[k]? = some b → boxes (i + k) = b) (pts : List (ScanPoint K)) (h : PointsOK boxes pts)
    (hp : (pts.flatMap ScanPoint.ins).Perm (List.range i)) :
    PointsOK boxes (addSegments pts i bs) ∧
      ((addSegments pts i bs).flatMap ScanPoint.ins).Perm (List.range (i + bs.length)) := by
  induction bs generalizing i pts with
  | nil => exact ⟨h, hp⟩
  | cons b bs ih =>
    unfold addSegments
    have e : b = boxes i := (hb 0 b (by simp)).symm
    subst e
    have := ih (i + 1) (by
        intro k b' hk
        have := hb (k + 1) b' (by simpa using hk)
        rw [← this]; congr 1; omega) (addSegment pts i (boxes i)) (addSegment_ok boxes pts h i)
      (by
        unfold addSegment
        rw [touch_outs_ins, List.range_succ]
        exact (touch_ins _ _ _).trans (List.Perm.append_right _ hp))
    rw [List.length_cons, show i + (bs.length + 1) = i + 1 + bs.length by omega]
    exact this

/-- Membership and uniqueness for the calls of an entry sequence. -/
theorem allCalls_props (boxes : Nat → Rect K) (P is : List Nat) (hP : (P ++ is).Nodup) :
    (allCalls boxes P is).Nodup ∧
    (∀ c j, (c, j) ∈ allCalls boxes P is →
      j ∈ is ∧ c ≠ j ∧ (c ∈ P ∨ c ∈ is) ∧ (boxes c).intersect (boxes j) = true ∧ (j, c) ∉ allCalls boxes P is) ∧
    (∀ c j, c ≠ j → (boxes c).intersect (boxes j) = true → (j ∈ is ∧ c ∈ P → (c, j) ∈ allCalls boxes P is) ∧
      (j ∈ is → c ∈ is → (c, j) ∈ allCalls boxes P is ∨ (j, c) ∈ allCalls boxes P is)) := by
  induction is generalizing P with
  | nil => simp [allCalls]
  | cons i is ih =>
    obtain ⟨h1, h2, h3⟩ := ih (P ++ [i]) (by simpa using hP)
    have hPn := (List.nodup_append.mp hP).1
    have hn := (List.nodup_append.mp hP).2.1
    have hd := (List.nodup_append.mp hP).2.2
    have hi : i ∉ is := (List.nodup_cons.mp hn).1
    have hiP : i ∉ P := fun h => hd i h i (by simp) rfl
    have me : ∀ c j, (c, j) ∈ entryCalls boxes P i ↔ c ∈ P ∧ j = i ∧ (boxes c).intersect (boxes i) = true := by
      intro c j
      unfold entryCalls
      simp only [List.mem_map, List.mem_filter, Prod.mk.injEq]
      constructor
      · rintro ⟨a, ⟨ha, hq⟩, rfl, rfl⟩; exact ⟨ha, rfl, hq⟩
      · rintro ⟨ha, rfl, hq⟩; exact ⟨c, ⟨ha, hq⟩, rfl, rfl⟩
    unfold allCalls
    refine ⟨?_, ?_, ?_⟩
    · rw [List.nodup_append]
      refine ⟨?_, h1, ?_⟩
      · unfold entryCalls
        exact (hPn.filter _).map (by intro a b h; simpa using h)
      · rintro ⟨c, j⟩ ha ⟨c', j'⟩ hb e
        rw [me] at ha
        have := (h2 c' j' hb).1
        simp only [Prod.mk.injEq] at e
        rw [← e.2, ha.2.1] at this
        exact hi this
    · intro c j hcj
      rcases List.mem_append.mp hcj with h | h
      · obtain ⟨hc, rfl, hq⟩ := (me c j).mp h
        refine ⟨by simp, ?_, Or.inl hc, hq, ?_⟩
        · rintro rfl; exact hiP hc
        · intro h'
          rcases List.mem_append.mp h' with h' | h'
          · exact hiP ((me _ _).mp h').1
          · have := (h2 j c h').1
            exact hd c hc c (by simp [this]) rfl
      · obtain ⟨g1, g2, g3, g4, g5⟩ := h2 c j h
        refine ⟨by simp [g1], g2, ?_, g4, ?_⟩
        · rcases g3 with g3 | g3
          · rcases List.mem_append.mp g3 with g3 | g3
            · exact Or.inl g3
            · simp at g3; exact Or.inr (by simp [g3])
          · exact Or.inr (by simp [g3])
        · intro h'
          rcases List.mem_append.mp h' with h' | h'
          · obtain ⟨hj, rfl, _⟩ := (me _ _).mp h'
            exact hd j hj j (by simp [g1]) rfl
          · exact g5 h'
    · intro c j hne hq
      have hq' : (boxes j).intersect (boxes c) = true := by rw [Rect.intersect_comm]; exact hq
      obtain ⟨k1, k2⟩ := h3 c j hne hq
      obtain ⟨k3, _⟩ := h3 j c (Ne.symm hne) hq'
      constructor
      · rintro ⟨hj, hc⟩
        rcases List.mem_cons.mp hj with rfl | hj
        · exact List.mem_append_left _ ((me c j).mpr ⟨hc, rfl, hq⟩)
        · exact List.mem_append_right _ (k1 ⟨hj, by simp [hc]⟩)
      · intro hj hc
        rcases List.mem_cons.mp hj with hj' | hj' <;> rcases List.mem_cons.mp hc with hc' | hc'
        · exact absurd (hc'.trans hj'.symm) hne
        · exact Or.inr (List.mem_append_right _ (k3 ⟨hc', by simp [hj']⟩))
        · exact Or.inl (List.mem_append_right _ (k1 ⟨hj', by simp [hc']⟩))
        · rcases k2 hj' hc' with h | h
          · exact Or.inl (List.mem_append_right _ h)
          · exact Or.inr (List.mem_append_right _ h)

/-- **C26**: whatever the addresses of the segment objects are, the callback is called for the segments `i ≠ j` (in one
of the two orders) exactly when their boxes intersect, never twice for the same pair (in either order), never for a
segment with itself, and for nothing else. -/
theorem scanProcess_spec (addr : Nat → Nat) (hinj : Function.Injective addr) (bs : List (Rect K)) (d : Rect K) :
    (scanProcess addr bs d).Nodup ∧
    (∀ i j, (i, j) ∈ scanProcess addr bs d → i < bs.length ∧ j < bs.length ∧ i ≠ j ∧ (j, i) ∉ scanProcess addr bs d) ∧
    (∀ i j (hi : i < bs.length) (hj : j < bs.length), i ≠ j →
      ((i, j) ∈ scanProcess addr bs d ∨ (j, i) ∈ scanProcess addr bs d ↔ (bs[i]).intersect bs[j] = true)) := by
  have hb : ∀ (k : Nat) (b : Rect K), bs[k]? = some b → (fun i => bs.getD i d) (0 + k) = b := by
    intro k b h; simp [h]
  obtain ⟨hok, hperm⟩ := addSegments_spec (fun i => bs.getD i d) bs 0 hb [] ⟨List.Pairwise.nil, by simp, by simp⟩ (by simp)
  rw [Nat.zero_add] at hperm
  have hnd : ((addSegments [] 0 bs).flatMap ScanPoint.ins).Nodup := hperm.nodup_iff.mpr List.nodup_range
  have hP := scanPoints_spec addr hinj (fun i => bs.getD i d) _ hok [] [] List.nodup_nil (by simpa using hnd) (by simp)
    (by simp)
  have hmem : ∀ i, i ∈ (addSegments [] 0 bs).flatMap ScanPoint.ins ↔ i < bs.length := by
    intro i; rw [hperm.mem_iff, List.mem_range]
  obtain ⟨h1, h2, h3⟩ := allCalls_props (fun i => bs.getD i d) [] _ (by simpa using hnd)
  have hpm : ∀ x, x ∈ scanProcess addr bs d ↔ x ∈ allCalls (fun i => bs.getD i d) [] ((addSegments [] 0 bs).flatMap ScanPoint.ins) :=
    fun x => hP.mem_iff
  refine ⟨hP.nodup_iff.mpr h1, ?_, ?_⟩
  · intro i j hij
    rw [hpm] at hij
    obtain ⟨g1, g2, g3, g4, g5⟩ := h2 i j hij
    refine ⟨?_, (hmem j).mp g1, g2, fun h => g5 ((hpm _).mp h)⟩
    rcases g3 with g3 | g3
    · simp at g3
    · exact (hmem i).mp g3
  · intro i j hi hj hne
    have ei : bs.getD i d = bs[i] := by simp [hi]
    have ej : bs.getD j d = bs[j] := by simp [hj]
    rw [hpm, hpm, ← ei, ← ej]
    constructor
    · rintro (h | h)
      · exact (h2 i j h).2.2.2.1
      · rw [Rect.intersect_comm]; exact (h2 j i h).2.2.2.1
    · intro hq
      exact (h3 i j hne hq).2 ((hmem j).mpr hj) ((hmem i).mpr hi)

/-- A run: three boxes of which the first two touch in one line and the third is apart. -/
example : scanProcess id ([⟨⟨0, 0⟩, ⟨1, 1⟩⟩, ⟨⟨1, 0⟩, ⟨2, 1⟩⟩, ⟨⟨5, 0⟩, ⟨6, 1⟩⟩] : List (Rect ℚ)) ⟨⟨0, 0⟩, ⟨0, 0⟩⟩ =
    [(0, 1)] := by decide +kernel

end River
