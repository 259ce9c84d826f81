import Verif.Lemmas.BeamGeo

/-! # The sides that cross a height, from left to right -/

namespace River
variable {K : Type} [FTrans K] [LinearOrder K] [Absc K] [LawfulOrd K] {rings : List (Ring K)}

theorem Arranged.sort (A : Arranged rings) (y : K) (l : List (Side K)) (hl : ∀ s ∈ l, s ∈ sides rings ∧ s.Above y) (hnd : l.Nodup) :
    ∃ M : List (Side K), M.Perm l ∧ M.Pairwise (fun a b => a ≠ b ∧ LeftW a b) := by
  classical
  induction l with
  | nil => exact ⟨[], List.Perm.nil, List.Pairwise.nil⟩
  | cons s l ih =>
    obtain ⟨hn1, hn2⟩ := List.nodup_cons.1 hnd
    obtain ⟨M, h1, h2⟩ := ih (fun t ht => hl t (List.mem_cons_of_mem _ ht)) hn2
    have hM : ∀ t ∈ M, t ∈ sides rings ∧ t.Above y ∧ t ≠ s := by
      intro t ht
      have := h1.mem_iff.1 ht
      obtain ⟨a, b⟩ := hl t (List.mem_cons_of_mem _ this)
      exact ⟨a, b, fun h => hn1 (h ▸ this)⟩
    obtain ⟨s1, s2⟩ := hl s (by simp)
    refine ⟨M.filter (fun t => decide (LeftW t s)) ++ s :: M.filter (fun t => !decide (LeftW t s)), ?_, ?_⟩
    · refine List.perm_middle.trans (List.Perm.cons _ ?_)
      exact (List.filter_append_perm _ M).trans h1
    · rw [List.pairwise_append, List.pairwise_cons]
      have hL : ∀ t ∈ M.filter (fun t => decide (LeftW t s)), t ∈ M ∧ LeftW t s := by
        intro t ht
        obtain ⟨a, b⟩ := List.mem_filter.1 ht
        exact ⟨a, of_decide_eq_true b⟩
      have hR : ∀ t ∈ M.filter (fun t => !decide (LeftW t s)), t ∈ M ∧ LeftW s t ∧ ¬ LeftW t s := by
        intro t ht
        obtain ⟨a, b⟩ := List.mem_filter.1 ht
        obtain ⟨m1, m2, m3⟩ := hM t a
        have b' : ¬ LeftW t s := by simpa using b
        rcases A.total m1 s1 m3 m2 s2 with h | h
        · exact absurd h b'
        · exact ⟨a, h, b'⟩
      refine ⟨h2.sublist List.filter_sublist, ⟨?_, h2.sublist List.filter_sublist⟩, ?_⟩
      · intro t ht
        obtain ⟨a, b, _⟩ := hR t ht
        exact ⟨(hM t a).2.2.symm, b⟩
      · intro a ha b hb
        obtain ⟨a1, a2⟩ := hL a ha
        obtain ⟨m1, m2, m3⟩ := hM a a1
        rcases List.mem_cons.1 hb with rfl | hb
        · exact ⟨m3, a2⟩
        · obtain ⟨b1, b2, b3⟩ := hR b hb
          obtain ⟨n1, n2, n3⟩ := hM b b1
          refine ⟨?_, A.transW m1 s1 n1 m3 n3.symm m2 s2 n2 a2 b2⟩
          rintro rfl
          exact b3 a2

omit [FTrans K] [LawfulOrd K] in
theorem filter_lt_split {α : Type} (k : α → K) (X : K) (l : List α) (hl : l.Pairwise (fun a b => k a ≤ k b)) :
    l = l.filter (fun e => decide (k e < X)) ++ l.filter (fun e => !decide (k e < X)) := by
  induction l with
  | nil => rfl
  | cons e l ih =>
    obtain ⟨h1, h2⟩ := List.pairwise_cons.mp hl
    by_cases he : k e < X
    · rw [List.filter_cons_of_pos (by simpa using he), List.filter_cons_of_neg (by simpa using he)]
      rw [List.cons_append, ← ih h2]
    · have hnil : l.filter (fun e => decide (k e < X)) = [] := by
        simp only [List.filter_eq_nil_iff, decide_eq_true_eq]
        intro z hz hlt
        exact he (lt_of_le_of_lt (h1 z hz) hlt)
      rw [List.filter_cons_of_neg (by simpa using he), List.filter_cons_of_pos (by simpa using he)]
      have := ih h2
      rw [hnil] at this ⊢
      rw [List.nil_append] at this ⊢
      rw [← this]

/-! ## coincident sides -/

theorem Arranged.leftSides_twin (A : Arranged rings) {s t : Side K} (hs : s ∈ sides rings) (ht : t ∈ sides rings) (h : Twin s t) {y : K}
    (as : s.Above y) : leftSides rings s y = leftSides rings t y := by
  have key : ∀ {s t : Side K}, s ∈ sides rings → t ∈ sides rings → Twin s t → s.Above y → ∀ u, u ∈ sides rings → u.Above y ∧ u ≠ s ∧ LeftOf u s →
      u.Above y ∧ u ≠ t ∧ LeftOf u t := by
    rintro s t hs ht h as u hu ⟨h1, h2, h3⟩
    refine ⟨h1, ?_, h3.twin_right h⟩
    rintro rfl
    exact A.not_twin hu hs h2 h1 as h3 h.symm
  unfold leftSides
  refine List.filter_congr (fun u hu => ?_)
  rw [decide_eq_decide]
  exact ⟨key hs ht h as u hu, key ht hs h.symm (h.above.1 as) u hu⟩

omit [LawfulOrd K] in
open Classical in
theorem class_perm {s : Side K} (hs : s ∈ sides rings) : (s :: twins rings s).Perm ((sides rings).filter (fun u => decide (Twin u s))) := by
  rw [List.perm_ext_iff_of_nodup _ ((sides_nodup rings).filter _)]
  · intro u
    simp only [twins, List.mem_cons, List.mem_filter, decide_eq_true_eq]
    constructor
    · rintro (rfl | ⟨h1, h2, h3⟩)
      · exact ⟨hs, Twin.refl _⟩
      · exact ⟨h1, h3⟩
    · rintro ⟨h1, h2⟩
      by_cases h : u = s
      · exact Or.inl h
      · exact Or.inr ⟨h1, h, h2⟩
  · refine List.nodup_cons.2 ⟨?_, (sides_nodup rings).filter _⟩
    simp [twins]

omit [FTrans K] [LawfulOrd K] in
theorem inResultS_perm {ct : ClipType} {fr : FillRule} {a b : List (Side K)} (h : a.Perm b) : inResultS ct fr a ↔ inResultS ct fr b := by
  unfold inResultS
  rw [wnS_perm _ h, wnS_perm _ h]

theorem Arranged.boundary_twin (A : Arranged rings) {ct : ClipType} {fr : FillRule} {s t : Side K} (hs : s ∈ sides rings) (ht : t ∈ sides rings)
    (h : Twin s t) {y : K} (as : s.Above y) : Boundary rings ct fr s y ↔ Boundary rings ct fr t y := by
  classical
  unfold Boundary
  rw [A.leftSides_twin hs ht h as]
  have : (s :: twins rings s).Perm (t :: twins rings t) := by
    refine (class_perm hs).trans (List.Perm.trans (List.Perm.of_eq ?_) (class_perm ht).symm)
    refine List.filter_congr (fun u _ => ?_)
    rw [decide_eq_decide]
    exact ⟨fun h' => h'.trans h, fun h' => h'.trans h.symm⟩
  rw [inResultS_perm (this.append_left _)]

omit [FTrans K] [LinearOrder K] [Absc K] [LawfulOrd K] in
theorem sum_filter_or {α : Type} (f : α → Int) (p q : α → Prop) [DecidablePred p] [DecidablePred q] (l : List α) (h : ∀ a ∈ l, p a → q a → False) :
    ((l.filter (fun a => decide (p a ∨ q a))).map f).sum = ((l.filter (fun a => decide (p a))).map f).sum + ((l.filter (fun a => decide (q a))).map f).sum := by
  induction l with
  | nil => rfl
  | cons a l ih =>
    have ih := ih (fun b hb => h b (List.mem_cons_of_mem _ hb))
    have ha := h a (by simp)
    by_cases hp : p a <;> by_cases hq : q a
    · exact (ha hp hq).elim
    · simp only [List.filter_cons, hp, hq, true_or, decide_true, decide_false, if_true, List.map_cons, List.sum_cons, ih, Bool.false_eq_true, if_false]; ring
    · simp only [List.filter_cons, hp, hq, or_true, decide_true, decide_false, if_true, List.map_cons, List.sum_cons, ih, Bool.false_eq_true, if_false]; ring
    · simp only [List.filter_cons, hp, hq, or_self, decide_false, ih, Bool.false_eq_true, if_false]

theorem Arranged.left_same_in (A : Arranged rings) {ct : ClipType} {fr : FillRule} {s : Side K} (hs : s ∈ sides rings) {y y' : K} (h1 : s.Above y)
    (h2 : s.Above y') : inResultS ct fr (leftSides rings s y) ↔ inResultS ct fr (leftSides rings s y') := by
  unfold inResultS
  simp only [A.left_same' _ hs h1 h2]

open Classical in
/-- Crossing the sides of an outline from the left up to the abscissa `X` counts `σ` inside the result and `0` outside. -/
theorem Arranged.winding (A : Arranged rings) {ct : ClipType} {fr : FillRule} {σ : Int} (hσ : σ = 1 ∨ σ = -1) {B : List (Side K)}
    (O : Outline rings ct fr σ B) (y X : K) :
    ((B.filter (fun s => decide (s.Above y ∧ s.x y < X))).map Side.dx).sum =
      if inResultS ct fr ((sides rings).filter (fun s => decide (s.Above y ∧ s.x y < X))) then σ else 0 := by
  have main : ∀ (n : Nat) (p : Side K → Prop), (∀ s, p s → s.Above y) → (∀ s ∈ sides rings, ∀ t ∈ sides rings, Twin s t → p s → p t) →
      (∀ s ∈ sides rings, ∀ t ∈ sides rings, s.Above y → p t → LeftOf s t → p s) →
      ((sides rings).filter (fun s => decide (p s))).length = n →
      ((B.filter (fun s => decide (p s))).map Side.dx).sum = if inResultS ct fr ((sides rings).filter (fun s => decide (p s))) then σ else 0 := by
    intro n
    induction n using Nat.strong_induction_on with
    | _ n ih =>
      intro p pa pt pl hn
      by_cases hem : (sides rings).filter (fun s => decide (p s)) = []
      · have h0 : ¬ inResultS ct fr ([] : List (Side K)) := by
          cases ct <;> cases fr <;> simp [inResultS, wnS, ClipType.op, FillRule.inside]
        rw [hem, if_neg h0]
        have : B.filter (fun s => decide (p s)) = [] := by
          rw [List.filter_eq_nil_iff] at hem ⊢
          exact fun s hs => hem s (O.mem s hs).1
        rw [this]; rfl
      · obtain ⟨M, h1, h2⟩ := A.sort y ((sides rings).filter (fun s => decide (p s)))
          (fun s hs => ⟨(List.mem_filter.1 hs).1, pa s (of_decide_eq_true (List.mem_filter.1 hs).2)⟩) ((sides_nodup rings).filter _)
        have hMne : M ≠ [] := fun h => hem (by rw [h] at h1; exact h1.symm.eq_nil)
        obtain ⟨M', s, hM⟩ : ∃ M' s, M = M' ++ [s] := ⟨M.dropLast, M.getLast hMne, (List.dropLast_append_getLast hMne).symm⟩
        have hmem : ∀ u, u ∈ M ↔ u ∈ sides rings ∧ p u := by
          intro u; rw [h1.mem_iff, List.mem_filter, decide_eq_true_eq]
        obtain ⟨hs, ps⟩ := (hmem s).1 (by rw [hM]; simp)
        have as := pa s ps
        have hmax : ∀ u ∈ sides rings, p u → LeftW u s := by
          intro u hu hpu
          have := (hmem u).2 ⟨hu, hpu⟩
          rw [hM] at this h2
          rcases List.mem_append.1 this with h | h
          · exact ((List.pairwise_append.1 h2).2.2 u h s (by simp)).2
          · rw [List.mem_singleton.1 h]; exact Or.inr (Twin.refl _)
        -- strictly to the left of `s`
        obtain ⟨q, hq⟩ : ∃ q : Side K → Prop, q = fun u => u.Above y ∧ u ≠ s ∧ LeftOf u s := ⟨_, rfl⟩
        have hqs : ∀ u ∈ sides rings, q u → ¬ Twin u s := by
          intro u hu hqu ht
          rw [hq] at hqu
          exact A.not_twin hu hs hqu.2.1 hqu.1 as hqu.2.2 ht
        have hpq : ∀ u ∈ sides rings, p u ↔ q u ∨ Twin u s := by
          intro u hu
          constructor
          · intro h
            by_cases ht : Twin u s
            · exact Or.inr ht
            · left
              rw [hq]
              refine ⟨pa u h, ?_, ?_⟩
              · rintro rfl; exact ht (Twin.refl _)
              · rcases hmax u hu h with h' | h'
                · exact h'
                · exact absurd h' ht
          · rintro (h | h)
            · rw [hq] at h; exact pl u hu s hs h.1 ps h.2.2
            · exact pt s hs u hu h.symm ps
        have hqleft : (sides rings).filter (fun u => decide (q u)) = leftSides rings s y := by
          unfold leftSides
          refine List.filter_congr (fun u _ => ?_)
          rw [decide_eq_decide, hq]
        have ihq := ih ((sides rings).filter (fun u => decide (q u))).length (by
          rw [← hn]
          have hsub : ((sides rings).filter (fun u => decide (q u))).Sublist ((sides rings).filter (fun u => decide (p u))) := by
            have : (sides rings).filter (fun u => decide (q u)) = ((sides rings).filter (fun u => decide (p u))).filter (fun u => decide (q u)) := by
              rw [List.filter_filter]
              refine List.filter_congr (fun u hu => ?_)
              rw [← Bool.decide_and, decide_eq_decide]
              exact ⟨fun h => ⟨h, (hpq u hu).2 (Or.inl h)⟩, fun h => h.1⟩
            rw [this]; exact List.filter_sublist
          refine lt_of_le_of_ne hsub.length_le (fun hc => ?_)
          have := hsub.eq_of_length hc
          have hm : s ∈ (sides rings).filter (fun u => decide (p u)) := by simp [hs, ps]
          rw [← this, List.mem_filter, decide_eq_true_eq] at hm
          exact hqs s hs hm.2 (Twin.refl _)) q (by rw [hq]; exact fun u h => h.1) (by
            rw [hq]
            rintro u hu v hv huv ⟨h1, h2, h3⟩
            refine ⟨huv.above.1 h1, ?_, h3.twin_left huv.symm⟩
            rintro rfl
            exact A.not_twin hu hs h2 h1 as h3 huv) (by
            rw [hq]
            rintro u hu v hv h0 ⟨h1, h2, h3⟩ h4
            by_cases huv : u = v
            · subst huv; exact ⟨h1, h2, h3⟩
            refine ⟨h0, ?_, A.trans hu hv hs huv h2 h0 h1 as h4 h3⟩
            rintro rfl
            exact A.asymm hv hu h2 h1 h0 h3 h4) rfl
        rw [hqleft] at ihq
        have e1 : B.filter (fun u => decide (p u)) = B.filter (fun u => decide (q u ∨ Twin u s)) :=
          List.filter_congr (fun u hu => by rw [decide_eq_decide]; exact hpq u (O.mem u hu).1)
        have e2 : inResultS ct fr ((sides rings).filter (fun u => decide (p u))) ↔ inResultS ct fr (leftSides rings s y ++ s :: twins rings s) := by
          refine inResultS_perm (List.Perm.trans ?_ ((class_perm hs).symm.append_left _))
          rw [← hqleft, List.perm_ext_iff_of_nodup ((sides_nodup rings).filter _)]
          · intro u
            simp only [List.mem_append, List.mem_filter, decide_eq_true_eq]
            constructor
            · rintro ⟨hu, h⟩
              rcases (hpq u hu).1 h with h | h
              · exact Or.inl ⟨hu, h⟩
              · exact Or.inr ⟨hu, h⟩
            · rintro (⟨hu, h⟩ | ⟨hu, h⟩)
              · exact ⟨hu, (hpq u hu).2 (Or.inl h)⟩
              · exact ⟨hu, (hpq u hu).2 (Or.inr h)⟩
          · rw [List.nodup_append]
            refine ⟨(sides_nodup rings).filter _, (sides_nodup rings).filter _, ?_⟩
            rintro a ha _ hb rfl
            simp only [List.mem_filter, decide_eq_true_eq] at ha hb
            exact hqs a ha.1 ha.2 hb.2
        rw [e1, sum_filter_or Side.dx q (fun u => Twin u s) B (fun u hu h h' => hqs u (O.mem u hu).1 h h'), ihq]
        simp only [e2]
        have bsame : ∀ u ∈ B, Twin u s → (Boundary rings ct fr s y ∧ (u.dx = σ ↔ ¬ inResultS ct fr (leftSides rings s y))) := by
          intro u hu ht
          obtain ⟨m1, m2, m3⟩ := O.mem u hu
          have ua := ht.above.2 as
          have ub : u.Above u.bot.y := ⟨le_refl _, Side.ht m2⟩
          refine ⟨(A.boundary_twin m1 hs ht ua).1 ((A.boundary_same ct fr m1 ub ua).1 m3), ?_⟩
          rw [← A.leftSides_twin m1 hs ht ua, ← A.left_same_in m1 ub ua]
          exact O.dir u hu
        have hle : (B.filter (fun u => decide (Twin u s))).Pairwise (fun _ _ => False) := by
          refine (O.once.sublist List.filter_sublist).imp_of_mem ?_
          intro u v hu hv h
          have h1 := of_decide_eq_true (List.mem_filter.1 hu).2
          have h2 := of_decide_eq_true (List.mem_filter.1 hv).2
          exact h.2 (h1.trans h2.symm)
        obtain ⟨T, hT⟩ : ∃ T, T = B.filter (fun u => decide (Twin u s)) := ⟨_, rfl⟩
        have hTm : ∀ u, u ∈ T ↔ u ∈ B ∧ Twin u s := by
          intro u; rw [hT, List.mem_filter, decide_eq_true_eq]
        rw [← hT] at hle ⊢
        by_cases hb : Boundary rings ct fr s y
        · have hb0 := (A.boundary_same ct fr hs as (⟨le_refl _, Side.ht as.steep⟩ : s.Above s.bot.y)).1 hb
          obtain ⟨u, hu, hus⟩ : ∃ u ∈ B, Twin u s := by
            rcases O.all s hs as.steep hb0 with h | h
            · exact ⟨s, h, Twin.refl _⟩
            · exact h
          have hTu : T = [u] := by
            have hut := (hTm u).2 ⟨hu, hus⟩
            match T, hle, hut with
            | [v], _, h => rw [List.mem_singleton.1 h]
            | v :: w :: T, h, _ => exact (List.rel_of_pairwise_cons h (by simp : w ∈ w :: T)).elim
          rw [hTu]
          simp only [List.map_cons, List.map_nil, List.sum_cons, List.sum_nil, add_zero]
          have hD := (bsame u hu hus).2
          unfold Boundary at hb
          by_cases hi : inResultS ct fr (leftSides rings s y)
          · have ho : ¬ inResultS ct fr (leftSides rings s y ++ s :: twins rings s) := fun h => hb ⟨fun _ => h, fun _ => hi⟩
            rw [if_pos hi, if_neg ho]
            have : u.dx ≠ σ := fun h => hD.1 h hi
            rcases u.dx_cases with d | d <;> rcases hσ with q | q <;> rw [d, q] at this ⊢ <;> simp_all
          · have ho : inResultS ct fr (leftSides rings s y ++ s :: twins rings s) := by
              by_contra h
              exact hb ⟨fun h' => absurd h' hi, fun h' => absurd h' h⟩
            rw [if_neg hi, if_pos ho, hD.2 hi, zero_add]
        · have hTn : T = [] := by
            rw [List.eq_nil_iff_forall_not_mem]
            intro u hu
            obtain ⟨h1, h2⟩ := (hTm u).1 hu
            exact hb (bsame u h1 h2).1
          rw [hTn]
          have : inResultS ct fr (leftSides rings s y) ↔ inResultS ct fr (leftSides rings s y ++ s :: twins rings s) := by
            unfold Boundary at hb; exact not_not.1 hb
          simp only [List.map_nil, List.sum_nil, add_zero, this]
  have := main _ (fun s => s.Above y ∧ s.x y < X) (fun s h => h.1) ?_ ?_ rfl
  · convert this using 6
  · rintro s _ t _ h ⟨h1, h2⟩
    exact ⟨h.above.1 h1, by rw [← h.x_above h1]; exact h2⟩
  · rintro s hs t ht h1 ⟨h2, h3⟩ h4
    exact ⟨h1, lt_of_le_of_lt (h4.le h1 h2) h3⟩

end River
