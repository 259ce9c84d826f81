import Verif.Lemmas.FlatEdge
import Verif.Lemmas.FrameBare

/-! # The top of a scan beam, split into its effects on the active edges, the recorded abscissas and the output -/

namespace River
variable {K : Type} [FTrans K] [LinearOrder K] [Absc K] [LawfulOrd K] {rings : List (Ring K)}

/-- The edge after the top of the scan beam. -/
def topE (rings : List (Ring K)) (y : K) (e : Edge K) : Option (Edge K) :=
  if e.top.y = y then (topN rings e).1
  else some { e with currX := (sideOf rings e).x y }

/-- The effect on the output. -/
def topO (rings : List (Ring K)) (y : K) (o : Outs K) (e : Edge K) : Option (Outs K) :=
  if e.top.y = y then
    (appendSeg rings o e e.top.x).map (fun o => if (topN rings e).1.isNone then detach o e else o)
  else some (match e.bound with
    | some b => o.modB b (fun z => { z with stopX := (sideOf rings e).x y })
    | none => o)

/-- The abscissas recorded while walking over horizontal sides. -/
def topX (rings : List (Ring K)) (y : K) (e : Edge K) : List K := if e.top.y = y then (topN rings e).2 else []

/-- The recorded abscissas. -/
def topCh : K → List (K × List K) → List K → List K
  | _, [], ch => ch
  | last, x :: xs, ch => topCh x.1 xs ((if x.1 = last then ch ++ [last] else ch) ++ x.2)

/-- The scan lines. -/
def topSc (rings : List (Ring K)) (y : K) (l : List (Edge K)) (sc : List K) : List K :=
  l.foldl (fun sc e => if e.top.y = y then
    (match (topN rings e).1 with | some e' => insertNum e'.top.y sc | none => sc) else sc) sc

theorem EOk.x_end (A : Arranged rings) {e : Edge K} (h : EOk rings e) {y : K} (hb : (sideOf rings e).Below y) :
    e.top.y = y → (sideOf rings e).x y = e.top.x := by
  obtain ⟨m1, _, _, _, t1, _, _⟩ := h.facts A.linked
  intro h1
  rw [← t1] at h1 ⊢
  rw [← h1]; exact Side.x_top (hb.1.trans_le hb.2)

theorem EOk.x_at (A : Arranged rings) {e : Edge K} (h : EOk rings e) {y : K} (hy : EndHeight rings y) (hb : (sideOf rings e).Below y) :
    (e.top.y = y → (sideOf rings e).x y = e.top.x) ∧
    (e.top.y ≠ y → (sideOf rings e).x y = (sideOf rings e).seg.currX (sideOf rings e).frm y) := by
  obtain ⟨m1, _, _, _, t1, _, _⟩ := h.facts A.linked
  refine ⟨h.x_end A hb, fun h1 => ?_⟩
  rw [← t1] at h1
  obtain ⟨t, ht, hy⟩ := hy
  rw [Side.x_mid hb.1.ne' (Ne.symm h1), A.visit _ m1 t ht y hy hb.1 (lt_of_le_of_ne hb.2 (Ne.symm h1))]

theorem topEdge_eq (A : Arranged rings) (y : K) (st : St K) (last : K) (e : Edge K) (h : EOk rings e)
    (hv : EndHeight rings y) (hb : (sideOf rings e).Below y) :
    topEdge rings y st last e = (topO rings y st.out e).map (fun o =>
      (topE rings y e, { st with
        out := o
        changes := (if (sideOf rings e).x y = last then st.changes ++ [last] else st.changes) ++ topX rings y e
        scan := topSc rings y [e] st.scan }, (sideOf rings e).x y)) := by
  obtain ⟨m1, g1, _, b1, t1, _, _⟩ := h.facts A.linked
  obtain ⟨x1, x2⟩ := h.x_at A hv hb
  rw [topEdge]
  simp only [eq_eq_decide, decide_eq_true_eq]
  by_cases hy : e.top.y = y
  · rw [if_pos hy, x1 hy]
    have ha : appendSeg rings st.out { e with currX := e.top.x } e.top.x = appendSeg rings st.out e e.top.x := rfl
    have hm0 : isMaxima rings { e with currX := e.top.x } = isMaxima rings e := rfl
    have hs0 : stepEdge rings { e with currX := e.top.x } = stepEdge rings e := rfl
    rw [ha, hm0, hs0]
    simp only [topO, if_pos hy, topE, topX, topSc, List.foldl_cons, List.foldl_nil]
    obtain ⟨fl, t, _, _, h1 | h1⟩ := h.next A
    · obtain ⟨_, htn, hm | ⟨hm, e1, hs, hgo⟩⟩ := h1
      · have htn' : topN rings e = (none, []) := by rw [topN, if_pos hm]
        rw [hm, htn']
        cases appendSeg rings st.out e e.top.x with
        | none => rfl
        | some o => simp; rfl
      · rw [hm, hs]
        cases appendSeg rings st.out e e.top.x with
        | none => rfl
        | some o =>
          simp only [Option.bind_some, Bool.false_eq_true, if_false, Option.map_some]
          rw [horzGo_ch, hgo, htn]
          simp
          rfl
    · obtain ⟨_, hm, e1, e', hs, hgo, htn, _⟩ := h1
      rw [hm, hs]
      cases appendSeg rings st.out e e.top.x with
      | none => rfl
      | some o =>
        simp only [Option.bind_some, Bool.false_eq_true, if_false, Option.map_some]
        rw [horzGo_ch, hgo, htn]
        simp
  · rw [if_neg hy, x2 hy]
    simp only [topO, if_neg hy, topE, topX, topSc, List.foldl_cons, List.foldl_nil, List.append_nil]
    rw [g1, x2 hy]
    rfl

theorem topGo_eq (A : Arranged rings) (y : K) (st : St K) (last : K) (done rest : List (Edge K)) (h : ∀ e ∈ rest, EOk rings e)
    (hv : EndHeight rings y) (hb : ∀ e ∈ rest, (sideOf rings e).Below y) :
    topGo rings y st last done rest = (rest.foldlM (topO rings y) st.out).map (fun o =>
      { st with ael := done ++ rest.filterMap (topE rings y), out := o,
                changes := topCh last (rest.map (fun e => ((sideOf rings e).x y, topX rings y e))) st.changes,
                scan := topSc rings y rest st.scan }) := by
  induction rest generalizing st last done with
  | nil => simp [topGo, topCh, topSc, List.foldlM_nil]
  | cons e rest ih =>
    rw [topGo, topEdge_eq A y st last e (h e List.mem_cons_self) hv (hb e List.mem_cons_self), List.foldlM_cons]
    cases topO rings y st.out e with
    | none => rfl
    | some o =>
      simp only [Option.map_some, Option.bind_some, Option.bind_eq_bind]
      rw [ih _ _ _ (fun e he => h e (List.mem_cons_of_mem _ he)) (fun e he => hb e (List.mem_cons_of_mem _ he))]
      congr 1
      funext o
      have hf : done ++ (topE rings y e).toList ++ rest.filterMap (topE rings y) = done ++ (e :: rest).filterMap (topE rings y) := by
        rw [List.filterMap_cons, List.append_assoc]
        cases topE rings y e <;> rfl
      rw [hf]
      rfl

omit [FTrans K] [LawfulOrd K] in
theorem topCh_mono (last : K) (xs : List (K × List K)) (ch : List K) (z : K) (h : z ∈ ch) : z ∈ topCh last xs ch := by
  induction xs generalizing last ch with
  | nil => exact h
  | cons x xs ih =>
    rw [topCh]
    apply ih
    apply List.mem_append_left
    split
    · exact List.mem_append_left _ h
    · exact h

omit [FTrans K] [LawfulOrd K] in
theorem topCh_extra (last : K) (xs : List (K × List K)) (ch : List K) (x : K × List K) (hx : x ∈ xs) (z : K) (h : z ∈ x.2) :
    z ∈ topCh last xs ch := by
  induction xs generalizing last ch with
  | nil => cases hx
  | cons x' xs ih =>
    rw [topCh]
    rcases List.mem_cons.1 hx with rfl | hx
    · exact topCh_mono _ _ _ _ (List.mem_append_right _ h)
    · exact ih _ _ hx

omit [FTrans K] [LawfulOrd K] in
/-- Every abscissa that occurs twice is recorded. -/
theorem topCh_marks (last : K) (xs : List (K × List K)) (ch : List K) (hs : (last :: xs.map Prod.fst).Pairwise (· ≤ ·)) :
    (last :: xs.map Prod.fst).Pairwise (fun a b => a = b → a ∈ topCh last xs ch) := by
  induction xs generalizing last ch with
  | nil => simp
  | cons x xs ih =>
    have h1 := ih x.1 ((if x.1 = last then ch ++ [last] else ch) ++ x.2) hs.of_cons
    refine List.pairwise_cons.2 ⟨?_, h1⟩
    intro b hb e
    have hx : x.1 = last := by
      refine le_antisymm ?_ (List.rel_of_pairwise_cons hs List.mem_cons_self)
      rw [e]
      rcases List.mem_cons.1 hb with rfl | hb
      · exact le_refl _
      · exact List.rel_of_pairwise_cons hs.of_cons hb
    rw [topCh]
    apply topCh_mono
    rw [if_pos hx]
    simp

theorem topSc_spec (y : K) (l : List (Edge K)) (sc : List K) (hs : sc.Pairwise (· ≤ ·)) :
    (topSc rings y l sc).Pairwise (· ≤ ·) ∧ ∀ z, z ∈ topSc rings y l sc ↔
      z ∈ sc ∨ ∃ e ∈ l, e.top.y = y ∧ ∃ e', topE rings y e = some e' ∧ e'.top.y = z := by
  induction l generalizing sc with
  | nil => exact ⟨hs, by simp [topSc]⟩
  | cons e l ih =>
    have hstep : topSc rings y (e :: l) sc = topSc rings y l (topSc rings y [e] sc) := rfl
    have h1 : (topSc rings y [e] sc).Pairwise (· ≤ ·) ∧ ∀ z, z ∈ topSc rings y [e] sc ↔ z ∈ sc ∨ (e.top.y = y ∧ ∃ e', topE rings y e = some e' ∧ e'.top.y = z) := by
      simp only [topSc, List.foldl_cons, List.foldl_nil]
      split
      · next hc =>
        rw [topE, if_pos hc]
        split
        · next e' he' =>
          refine ⟨insertNum_sorted _ _ hs, fun z => ?_⟩
          rw [(insertNum_perm _ _).mem_iff, List.mem_cons]
          constructor
          · rintro (rfl | h)
            · exact Or.inr ⟨hc, e', he', rfl⟩
            · exact Or.inl h
          · rintro (h | ⟨_, e2, h2, rfl⟩)
            · exact Or.inr h
            · rw [he'] at h2; cases h2; exact Or.inl rfl
        · next hn =>
          refine ⟨hs, fun z => ⟨Or.inl, ?_⟩⟩
          rintro (h | ⟨_, e2, h2, rfl⟩)
          · exact h
          · rw [hn] at h2; cases h2
      · next hc =>
        refine ⟨hs, fun z => ⟨Or.inl, ?_⟩⟩
        rintro (h | ⟨h1, _⟩)
        · exact h
        · exact (hc h1).elim
    rw [hstep]
    obtain ⟨h2, h3⟩ := ih _ h1.1
    refine ⟨h2, fun z => ?_⟩
    rw [h3, h1.2]
    simp only [List.mem_cons, exists_eq_or_imp]
    exact or_assoc

end River
