import Verif.Spec.Sweep
import Verif.Props.Wind
import Verif.RatTrans

/-! # Scan lines (C31) and the order of the active edge list (C32) -/

set_option linter.unusedSectionVars false

namespace River
variable {K : Type} [FTrans K] [LinearOrder K] [LawfulOrd K]

/-! ## C31: scan lines -/

/-- `pop_scanline`: on a queue without heights below `old` it delivers the least height above `old`, leaving exactly the
heights above that one; it fails exactly when there is no height above `old`. -/
theorem popScan_spec (old : K) (q : List K) (hq : q.Pairwise (· ≤ ·)) (hold : ∀ z ∈ q, old ≤ z) :
    (popScan old q = none ↔ ∀ z ∈ q, z = old) ∧
    ∀ y q', popScan old q = some (y, q') →
      y ∈ q ∧ old < y ∧ (∀ z ∈ q, old < z → y ≤ z) ∧ q'.Pairwise (· ≤ ·) ∧ (∀ z, z ∈ q' ↔ z ∈ q ∧ y < z) := by
  induction q with
  | nil => simp [popScan]
  | cons a q ih =>
    obtain ⟨h1, h2⟩ := List.pairwise_cons.mp hq
    obtain ⟨ih1, ih2⟩ := ih h2 (fun z hz => hold z (by simp [hz]))
    rw [popScan]
    by_cases ha : a = old
    · simp only [eq_eq_decide, ha, decide_true, if_true]
      refine ⟨?_, ?_⟩
      · rw [ih1]; simp
      · intro y q' h
        obtain ⟨h3, h4, h5, h6, h7⟩ := ih2 y q' h
        refine ⟨by simp [h3], h4, ?_, h6, ?_⟩
        · intro z hz hlt
          rcases List.mem_cons.mp hz with rfl | hz
          · exact absurd hlt (lt_irrefl _)
          · exact h5 z hz hlt
        · intro z; rw [h7, List.mem_cons]
          constructor
          · rintro ⟨h8, h9⟩; exact ⟨Or.inr h8, h9⟩
          · rintro ⟨rfl | h8, h9⟩
            · exact absurd (h4.trans h9) (lt_irrefl _)
            · exact ⟨h8, h9⟩
    · simp only [eq_eq_decide, ha, decide_false, Bool.false_eq_true, if_false]
      have hlt : old < a := lt_of_le_of_ne (hold a (by simp)) (Ne.symm ha)
      refine ⟨by simp [ha], ?_⟩
      intro y q' h
      simp only [Option.some.injEq, Prod.mk.injEq] at h
      obtain ⟨rfl, rfl⟩ := h
      have hdw : ∀ l : List K, l.Pairwise (· ≤ ·) → (∀ z ∈ l, a ≤ z) →
          (l.dropWhile (fun z => decide (a = z))).Pairwise (· ≤ ·) ∧
          ∀ z, z ∈ l.dropWhile (fun z => decide (a = z)) ↔ z ∈ l ∧ a < z := by
        intro l
        induction l with
        | nil => intro _ _; simp
        | cons b l ihl =>
          intro hl hb
          by_cases hab : a = b
          · subst hab
            rw [List.dropWhile_cons_of_pos (by simp)]
            obtain ⟨h8, h9⟩ := ihl (List.pairwise_cons.mp hl).2 (fun z hz => hb z (by simp [hz]))
            refine ⟨h8, ?_⟩
            intro z; rw [h9]; simp only [List.mem_cons]
            constructor
            · rintro ⟨h10, h11⟩; exact ⟨Or.inr h10, h11⟩
            · rintro ⟨rfl | h10, h11⟩
              · exact absurd h11 (lt_irrefl _)
              · exact ⟨h10, h11⟩
          · rw [List.dropWhile_cons_of_neg (by simpa using hab)]
            refine ⟨hl, ?_⟩
            intro z
            refine ⟨fun hz => ⟨hz, ?_⟩, fun hz => hz.1⟩
            have hltb : a < b := lt_of_le_of_ne (hb b (by simp)) hab
            rcases List.mem_cons.mp hz with rfl | hz
            · exact hltb
            · exact lt_of_lt_of_le hltb ((List.pairwise_cons.mp hl).1 z hz)
      obtain ⟨h8, h9⟩ := hdw q h2 h1
      refine ⟨by simp, hlt, ?_, h8, ?_⟩
      · intro z hz _
        rcases List.mem_cons.mp hz with rfl | hz
        · exact le_refl _
        · exact h1 z hz
      · intro z
        rw [h9, List.mem_cons]
        constructor
        · rintro ⟨h10, h11⟩; exact ⟨Or.inr h10, h11⟩
        · rintro ⟨rfl | h10, h11⟩
          · exact absurd h11 (lt_irrefl _)
          · exact ⟨h10, h11⟩

theorem insertAll_spec (new q : List K) (hq : q.Pairwise (· ≤ ·)) :
    (new.foldl (fun s z => insertNum z s) q).Pairwise (· ≤ ·) ∧
      ∀ z, z ∈ new.foldl (fun s z => insertNum z s) q ↔ z ∈ new ∨ z ∈ q := by
  induction new generalizing q with
  | nil => simpa using hq
  | cons a new ih =>
    obtain ⟨h1, h2⟩ := ih (insertNum a q) (insertNum_sorted a q hq)
    refine ⟨h1, ?_⟩
    intro z
    rw [List.foldl_cons, h2, (insertNum_perm a q).mem_iff]
    simp only [List.mem_cons]; tauto

/-- **C31.** In every run of the queue in which no height below the one being processed is inserted, the delivered heights
strictly increase — so each is delivered once —, and they are exactly the heights above the start that were ever in the
queue (a height equal to the one being processed has been delivered already). -/
theorem scanRun_increasing (old : K) (q : List K) (ins : List (List K)) (ys : List K) (hq : q.Pairwise (· ≤ ·))
    (hold : ∀ z ∈ q, old ≤ z) (hrun : ScanRun old q ins ys) (hup : Upward ys ins) :
    (old :: ys).Pairwise (· < ·) ∧ ∀ z, z ∈ old :: ys ↔ z = old ∨ z ∈ q ∨ z ∈ ins.flatten := by
  induction hrun with
  | stop h =>
    refine ⟨by simp, ?_⟩
    intro z
    have := (popScan_spec _ _ hq hold).1.mp h
    simp only [List.mem_cons, List.not_mem_nil, or_false, List.flatten_nil]
    exact ⟨Or.inl, fun h => h.elim id (this z)⟩
  | @visit old q y q' new ins ys h _ ih =>
    obtain ⟨h1, h2, h3, h4, h5⟩ := (popScan_spec _ _ hq hold).2 _ _ h
    obtain ⟨hnew, hup'⟩ := hup
    obtain ⟨h6, h7⟩ := insertAll_spec new q' h4
    obtain ⟨h8, h9⟩ := ih h6
      (by
        intro z hz
        rcases (h7 z).mp hz with hz | hz
        · exact hnew z hz
        · exact ((h5 z).mp hz).2.le)
      hup'
    refine ⟨?_, ?_⟩
    · rw [List.pairwise_cons]
      refine ⟨?_, h8⟩
      intro z hz
      rcases List.mem_cons.mp hz with rfl | hz
      · exact h2
      · exact h2.trans ((List.pairwise_cons.mp h8).1 z hz)
    · intro z
      rw [List.mem_cons, h9, h7, h5, List.flatten_cons, List.mem_append]
      constructor
      · rintro (h | h | ((h | h) | h))
        · exact Or.inl h
        · rw [h]; exact Or.inr (Or.inl h1)
        · exact Or.inr (Or.inr (Or.inl h))
        · exact Or.inr (Or.inl h.1)
        · exact Or.inr (Or.inr (Or.inr h))
      · rintro (h | h | (h | h))
        · exact Or.inl h
        · rcases eq_or_lt_of_le (hold z h) with h10 | h10
          · exact Or.inl h10.symm
          · rcases eq_or_lt_of_le (h3 z h h10) with h11 | h11
            · exact Or.inr (Or.inl h11.symm)
            · exact Or.inr (Or.inr (Or.inl (Or.inr ⟨h, h11⟩)))
        · exact Or.inr (Or.inr (Or.inl (Or.inl h)))
        · exact Or.inr (Or.inr (Or.inr h))

omit [LinearOrder K] [LawfulOrd K] in
/-- Every `pop_scanline` shortens the queue: without further insertions the sweep comes to an end. -/
theorem popScan_length (old : K) (q : List K) (y : K) (q' : List K) (h : popScan old q = some (y, q')) :
    q'.length < q.length := by
  induction q with
  | nil => simp [popScan] at h
  | cons a q ih =>
    rw [popScan] at h
    split at h
    · have := ih h; simp only [List.length_cons]; omega
    · simp only [Option.some.injEq, Prod.mk.injEq] at h
      obtain ⟨-, rfl⟩ := h
      have := (List.dropWhile_sublist (fun z => a ==. z) (l := q)).length_le
      simp only [List.length_cons]; omega

/-- A run with insertions: 1, 2 and 5 at the start, 3 inserted while 1 is processed, 3 and 2 while 2 is processed. -/
example : ScanRun (K := ℚ) (-10) [1, 1, 2, 5] [[3], [2, 3], [], []] [1, 2, 3, 5] ∧
    Upward [1, 2, 3, 5] ([[3], [2, 3], [], []] : List (List ℚ)) := by
  refine ⟨?_, ?_⟩
  · refine .visit (q' := [2, 5]) (by decide +kernel) (.visit (q' := [3, 5]) (by decide +kernel)
      (.visit (q' := [5]) (by decide +kernel) (.visit (q' := []) (by decide +kernel) (.stop (by decide +kernel)))))
  · simp [Upward]; norm_num

/-! ## C32: order of the active edges -/

theorem validOrder_of_ne (rings : List (Ring K)) (r n : Edge K) (h : n.currX ≠ r.currX) :
    validOrder rings r n = decide (r.currX < n.currX) := by
  unfold validOrder
  simp only [eq_eq_decide, h, decide_false, Bool.false_eq_true, if_false, lt_eq_decide]

theorem validOrder_true (rings : List (Ring K)) (r n : Edge K) (h : validOrder rings r n = true) : r.currX ≤ n.currX := by
  by_cases he : n.currX = r.currX
  · exact he.ge
  · rw [validOrder_of_ne rings r n he, decide_eq_true_eq] at h; exact h.le

theorem validOrder_false (rings : List (Ring K)) (r n : Edge K) (h : validOrder rings r n = false) : n.currX ≤ r.currX := by
  by_cases he : n.currX = r.currX
  · exact he.le
  · rw [validOrder_of_ne rings r n he, decide_eq_false_iff_not, not_lt] at h; exact h

omit [FTrans K] [LinearOrder K] [LawfulOrd K] in
/-- Insertion puts the newcomer somewhere and leaves the others alone. -/
theorem insertFrom_split (valid : Edge K → Edge K → Bool) (n : Edge K) (l : List (Edge K)) :
    ∃ l1 l2, l = l1 ++ l2 ∧ insertFrom valid n l = l1 ++ n :: l2 ∧ (∀ x ∈ l1, valid x n = true) ∧
      (∀ x, l2.head? = some x → valid x n = false) := by
  induction l with
  | nil => exact ⟨[], [], rfl, rfl, by simp, by simp⟩
  | cons a l ih =>
    rw [insertFrom]
    by_cases h : valid a n = true
    · obtain ⟨l1, l2, h1, h2, h3, h4⟩ := ih
      refine ⟨a :: l1, l2, by rw [h1]; rfl, by rw [if_pos h, h2]; rfl, ?_, h4⟩
      intro x hx
      rcases List.mem_cons.mp hx with rfl | hx
      · exact h
      · exact h3 x hx
    · refine ⟨[], a :: l, rfl, by rw [if_neg h]; rfl, by simp, ?_⟩
      intro x hx
      simp only [List.head?_cons, Option.some.injEq] at hx
      rw [← hx]; simpa using h

omit [FTrans K] [LinearOrder K] [LawfulOrd K] in
theorem insertAel_eq (valid : Edge K → Edge K → Bool) (n : Edge K) (l : List (Edge K)) :
    insertAel valid n l = insertFrom valid n l := by
  cases l with
  | nil => rfl
  | cons a l => rw [insertAel, insertFrom]

theorem sorted_insert (rings : List (Ring K)) (pre post : List (Edge K)) (n : Edge K)
    (hs : AelSorted (pre ++ post)) (hpre : ∀ x ∈ pre, x.currX ≤ n.currX) :
    AelSorted (pre ++ insertFrom (validOrder rings) n post) := by
  obtain ⟨l1, l2, h1, h2, h3, h4⟩ := insertFrom_split (validOrder rings) n post
  rw [h2]
  subst h1
  unfold AelSorted at hs ⊢
  have hle2 : ∀ x ∈ l2, n.currX ≤ x.currX := by
    intro x hx
    cases l2 with
    | nil => simp at hx
    | cons a l2 =>
      have ha := validOrder_false rings a n (h4 a rfl)
      rcases List.mem_cons.mp hx with rfl | hx
      · exact ha
      · have h5 : (a :: l2).Pairwise (fun a b => a.currX ≤ b.currX) :=
          (List.pairwise_append.mp ((List.pairwise_append.mp hs).2.1)).2.1
        exact ha.trans ((List.pairwise_cons.mp h5).1 x hx)
  rw [← List.append_assoc, List.pairwise_append] at hs ⊢
  obtain ⟨h5, h6, h7⟩ := hs
  refine ⟨h5, List.pairwise_cons.mpr ⟨hle2, h6⟩, ?_⟩
  intro x hx z hz
  rcases List.mem_cons.mp hz with rfl | hz
  · rcases List.mem_append.mp hx with hx | hx
    · exact hpre x hx
    · exact validOrder_true rings x z (h3 x hx)
  · exact h7 x hx z hz

/-- **C32.** `insert_into_ael` keeps an ordered active edge list ordered; it inserts exactly the newcomer and leaves the
other edges in their relative order. -/
theorem insertAel_sorted (rings : List (Ring K)) (ael : List (Edge K)) (n : Edge K) (hs : AelSorted ael) :
    AelSorted (insertAel (validOrder rings) n ael) ∧
      (∃ l1 l2, ael = l1 ++ l2 ∧ insertAel (validOrder rings) n ael = l1 ++ n :: l2) := by
  rw [insertAel_eq]
  refine ⟨?_, ?_⟩
  · have := sorted_insert rings [] ael n (by simpa using hs) (by simp)
    simpa using this
  · obtain ⟨l1, l2, h1, h2, -, -⟩ := insertFrom_split (validOrder rings) n ael
    exact ⟨l1, l2, h1, h2⟩

omit [FTrans K] [LinearOrder K] [LawfulOrd K] in
theorem span_ne (aid : Nat) (l1 l2 : List (Edge K)) (a : Edge K) (ha : a.eid = aid) (hl1 : ∀ x ∈ l1, x.eid ≠ aid) :
    (l1 ++ a :: l2).span (fun e => e.eid != aid) = (l1, a :: l2) := by
  rw [List.span_eq_takeWhile_dropWhile]
  induction l1 with
  | nil => simp [ha]
  | cons x l1 ih =>
    have hx := hl1 x (by simp)
    have := ih (fun z hz => hl1 z (by simp [hz]))
    simp only [Prod.mk.injEq] at this
    rw [List.cons_append, List.takeWhile_cons_of_pos (by simpa using hx), List.dropWhile_cons_of_pos (by simpa using hx),
      this.1, this.2]

/-- **C32**, the two edges of a local minimum (`vatti.cpp:759-760`): if the descending edge `a` does not start to the right
of the ascending one `b`, inserting `a` and then `b` behind the predecessor of `a` keeps the list ordered. The two edges
start at different abscissas only if the minimum is a horizontal bottom; `insert_both_unordered` shows that the condition
cannot be dropped. -/
theorem insert_both_sorted_partial (rings : List (Ring K)) (ael : List (Edge K)) (a b : Edge K) (hs : AelSorted ael)
    (hfresh : ∀ x ∈ ael, x.eid ≠ a.eid) (hab : a.currX ≤ b.currX) :
    AelSorted (insertAfterPrev (validOrder rings) a.eid b (insertAel (validOrder rings) a ael)) ∧
      (insertAfterPrev (validOrder rings) a.eid b (insertAel (validOrder rings) a ael)).Perm (a :: b :: ael) ∧
      ael.Sublist (insertAfterPrev (validOrder rings) a.eid b (insertAel (validOrder rings) a ael)) := by
  obtain ⟨hs1, l1, l2, h1, h2⟩ := insertAel_sorted rings ael a hs
  rw [h2] at hs1 ⊢
  have hspan := span_ne a.eid l1 l2 a rfl (fun x hx => hfresh x (by rw [h1]; simp [hx]))
  have hpre : ∀ x ∈ l1, x.currX ≤ b.currX := by
    intro x hx
    have := (List.pairwise_append.mp hs1).2.2 x hx a (by simp)
    exact this.trans hab
  have key : insertAfterPrev (validOrder rings) a.eid b (l1 ++ a :: l2) =
      l1 ++ insertFrom (validOrder rings) b (a :: l2) := by
    unfold insertAfterPrev
    rw [hspan]
    cases l1 with
    | nil => simp [insertAel_eq]
    | cons x l1 => rfl
  rw [key]
  obtain ⟨m1, m2, g1, g2, -, -⟩ := insertFrom_split (validOrder rings) b (a :: l2)
  refine ⟨sorted_insert rings l1 (a :: l2) b hs1 hpre, ?_, ?_⟩
  · rw [g2, h1]
    calc (l1 ++ (m1 ++ b :: m2)).Perm (b :: (l1 ++ (m1 ++ m2))) := by
          rw [← List.append_assoc, ← List.append_assoc]; exact List.perm_middle
      _ = b :: (l1 ++ a :: l2) := by rw [g1]
      List.Perm _ (b :: a :: (l1 ++ l2)) := List.Perm.cons b List.perm_middle
      List.Perm _ (a :: b :: (l1 ++ l2)) := List.Perm.swap a b _
  · rw [g2, h1]
    refine List.Sublist.append_left ?_ l1
    have hsub : (a :: l2).Sublist (m1 ++ b :: m2) := by
      rw [g1]; exact List.Sublist.append_left (List.sublist_cons_self b m2) m1
    exact (List.sublist_cons_self a l2).trans hsub

/-- **Defect behind the `_partial` above**: with a horizontal bottom traversed from right to left the ascending edge starts
to the left of the descending one, and if another edge lies between, the active edge list is no longer ordered. -/
theorem insert_both_unordered :
    let e5 : Edge ℚ := demoEdge 0 5 1 .clip
    let a : Edge ℚ := demoEdge 1 10 1 .subject
    let b : Edge ℚ := demoEdge 2 0 (-1) .subject
    AelSorted [e5] ∧
      insertAfterPrev (validOrder []) a.eid b (insertAel (validOrder []) a [e5]) = [e5, b, a] ∧ ¬ AelSorted [e5, b, a] := by
  refine ⟨by simp [AelSorted], by decide +kernel, ?_⟩
  intro h
  have := (List.pairwise_cons.mp h).1 (demoEdge 2 0 (-1) .subject) (by simp)
  exact absurd this (by decide +kernel)

/-! ### `resort_ael` -/

theorem takeAt_spec (x : K) (l : List (Edge K)) :
    ((takeAt x l).1 ++ (takeAt x l).2.1 ++ (takeAt x l).2.2).Perm l ∧
      ((takeAt x l).1 ++ (takeAt x l).2.2).Sublist l ∧ (∀ e ∈ (takeAt x l).2.1, e.currX = x) ∧
      (AelSorted l → (∀ e ∈ (takeAt x l).1, e.currX < x) ∧ (∀ e ∈ (takeAt x l).2.2, x < e.currX)) := by
  induction l with
  | nil => simp [takeAt]
  | cons e l ih =>
    obtain ⟨h1, h2, h3, h4⟩ := ih
    rw [takeAt]
    by_cases he : e.currX = x
    · simp only [eq_eq_decide, he, decide_true, if_true]
      refine ⟨?_, h2.trans (List.sublist_cons_self _ _), ?_, ?_⟩
      · refine List.Perm.trans ?_ (h1.cons e)
        rw [List.append_assoc, List.append_assoc]
        exact List.perm_middle
      · intro z hz
        rcases List.mem_cons.mp hz with rfl | hz
        · exact he
        · exact h3 z hz
      · intro hs; exact h4 (List.pairwise_cons.mp hs).2
    · by_cases hlt : x < e.currX
      · simp only [eq_eq_decide, lt_eq_decide, he, hlt, decide_true, decide_false, Bool.false_eq_true, if_false, if_true]
        refine ⟨by simp, by simp, by simp, ?_⟩
        intro hs
        refine ⟨by simp, ?_⟩
        intro z hz
        rcases List.mem_cons.mp hz with rfl | hz
        · exact hlt
        · exact lt_of_lt_of_le hlt ((List.pairwise_cons.mp hs).1 z hz)
      · simp only [eq_eq_decide, lt_eq_decide, he, hlt, decide_false, Bool.false_eq_true, if_false]
        refine ⟨h1.cons e, h2.cons_cons e, h3, ?_⟩
        intro hs
        obtain ⟨h5, h6⟩ := h4 (List.pairwise_cons.mp hs).2
        refine ⟨?_, h6⟩
        intro z hz
        rcases List.mem_cons.mp hz with rfl | hz
        · exact lt_of_le_of_ne (not_lt.mp hlt) he
        · exact h5 z hz

theorem takeAll_spec (xs : List K) (l : List (Edge K)) :
    ((takeAll xs l).1 ++ (takeAll xs l).2).Perm l ∧ (takeAll xs l).1.Sublist l ∧ ∀ e ∈ (takeAll xs l).2, e.currX ∈ xs := by
  induction xs generalizing l with
  | nil => simp [takeAll]
  | cons x xs ih =>
    obtain ⟨h1, h2, h3, -⟩ := takeAt_spec x l
    obtain ⟨g1, g2, g3⟩ := ih (takeAt x l).2.2
    simp only [takeAll]
    refine ⟨?_, ?_, ?_⟩
    · refine List.Perm.trans ?_ h1
      rw [List.append_assoc, List.append_assoc]
      refine List.Perm.append_left _ ?_
      have : ((takeAll xs (takeAt x l).2.2).1 ++ ((takeAt x l).2.1 ++ (takeAll xs (takeAt x l).2.2).2)).Perm
          ((takeAt x l).2.1 ++ ((takeAll xs (takeAt x l).2.2).1 ++ (takeAll xs (takeAt x l).2.2).2)) := by
        rw [← List.append_assoc, ← List.append_assoc]
        exact List.perm_append_comm.append_right _
      exact this.trans (List.Perm.append_left _ g1)
    · exact (List.Sublist.append_left g2 _).trans h2
    · intro e he
      rcases List.mem_append.mp he with he | he
      · rw [h3 e he]; simp
      · exact List.mem_cons_of_mem _ (g3 e he)

theorem takeAll_kept (xs : List K) (l : List (Edge K)) (hxs : xs.Pairwise (· < ·)) (hl : AelSorted l) :
    ∀ e ∈ (takeAll xs l).1, e.currX ∉ xs := by
  induction xs generalizing l with
  | nil => simp
  | cons x xs ih =>
    obtain ⟨-, h2, -, h4⟩ := takeAt_spec x l
    obtain ⟨h5, h6⟩ := h4 hl
    obtain ⟨hx1, hx2⟩ := List.pairwise_cons.mp hxs
    have hl' : AelSorted (takeAt x l).2.2 := hl.sublist ((List.sublist_append_right _ _).trans h2)
    simp only [takeAll]
    intro e he hm
    rcases List.mem_append.mp he with he | he
    · have hlt := h5 e he
      rcases List.mem_cons.mp hm with hm | hm
      · exact absurd hm (ne_of_lt hlt)
      · exact absurd (hlt.trans (hx1 _ hm)) (lt_irrefl _)
    · rcases List.mem_cons.mp hm with hm | hm
      · have hsub := (takeAll_spec xs (takeAt x l).2.2).2.1
        exact absurd hm (ne_of_gt (h6 e (hsub.subset he)))
      · exact ih _ hx2 hl' e he hm

theorem foldl_insert_spec (rings : List (Ring K)) (ins l : List (Edge K)) (hs : AelSorted l) :
    AelSorted (ins.foldl (fun l e => insertAel (validOrder rings) { e with bound := none } l) l) ∧
      (ins.foldl (fun l e => insertAel (validOrder rings) { e with bound := none } l) l).Perm
        (l ++ ins.map (fun e => { e with bound := none })) ∧
      l.Sublist (ins.foldl (fun l e => insertAel (validOrder rings) { e with bound := none } l) l) := by
  induction ins generalizing l with
  | nil => exact ⟨hs, by simp, List.Sublist.refl _⟩
  | cons e ins ih =>
    obtain ⟨h1, l1, l2, h2, h3⟩ := insertAel_sorted rings l { e with bound := none } hs
    obtain ⟨g1, g2, g3⟩ := ih _ h1
    refine ⟨g1, ?_, ?_⟩
    · refine g2.trans ?_
      rw [h3, h2, List.map_cons]
      have : (l1 ++ ({ e with bound := none } : Edge K) :: l2).Perm (l1 ++ l2 ++ [{ e with bound := none }]) := by
        rw [List.append_assoc]
        exact List.Perm.append_left l1 (List.perm_append_comm (l₁ := [_]) (l₂ := l2))
      refine (this.append_right _).trans ?_
      simp
    · refine List.Sublist.trans ?_ g3
      rw [h3, h2]
      exact List.Sublist.append_left (List.sublist_cons_self _ _) _

/-- **C32**, `resort_ael`: an ordered active edge list stays ordered; no edge is lost or added; the edges away from the
recorded abscissas keep their relative order and their bounds; exactly the edges at recorded abscissas are inserted anew,
detached from their bounds. -/
theorem resortAel_sorted (rings : List (Ring K)) (st : St K) (hs : AelSorted st.ael) :
    AelSorted (resortAel rings st).ael ∧
      ∃ kept taken, (kept ++ taken).Perm st.ael ∧ kept.Sublist st.ael ∧ kept.Sublist (resortAel rings st).ael ∧
        (∀ e ∈ taken, e.currX ∈ st.changes) ∧ (∀ e ∈ kept, e.currX ∉ st.changes) ∧
        (resortAel rings st).ael.Perm (kept ++ taken.map (fun e => { e with bound := none })) := by
  obtain ⟨h1, h2, h3⟩ := takeAll_spec (uniqNum (sortNum st.changes)) st.ael
  have hs1 : AelSorted (takeAll (uniqNum (sortNum st.changes)) st.ael).1 := hs.sublist h2
  obtain ⟨g1, g2, g3⟩ := foldl_insert_spec rings (takeAll (uniqNum (sortNum st.changes)) st.ael).2 _ hs1
  obtain ⟨u1, u2⟩ := uniqNum_spec _ (sortNum_sorted st.changes)
  refine ⟨g1, _, _, h1, h2, g3, ?_, ?_, g2⟩
  · intro e he
    have := h3 e he
    rwa [u1, (sortNum_perm _).mem_iff] at this
  · intro e he hm
    refine takeAll_kept _ _ u2 hs e he ?_
    rwa [u1, (sortNum_perm _).mem_iff]

/-- The order is used by `recalc_windcnt` and by the output: see `Props/Process.lean` for an input on which the defect
changes the result. Here a case that meets the hypotheses of `insert_both_sorted_partial`. -/
example : AelSorted [demoEdge 0 5 1 .clip, demoEdge 3 7 (-1) .clip] ∧
    insertAfterPrev (validOrder []) 1 (demoEdge 2 6 (-1) .subject)
      (insertAel (validOrder []) (demoEdge 1 2 1 .subject) [demoEdge 0 5 1 .clip, demoEdge 3 7 (-1) .clip]) =
      [demoEdge 1 2 1 .subject, demoEdge 0 5 1 .clip, demoEdge 2 6 (-1) .subject, demoEdge 3 7 (-1) .clip] := by
  refine ⟨?_, by decide +kernel⟩
  unfold AelSorted; decide +kernel

end River
