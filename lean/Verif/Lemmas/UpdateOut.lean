import Verif.Lemmas.Pairing

/-! # `update_ouput_bound` -/

namespace River
variable {K : Type}

/-! ## lists -/

theorem sublist_last {α : Type} {l m : List α} {z : α} (h : l.Sublist m) (hnd : m.Nodup) (hz : m.getLast? = some z) (hm : z ∈ l) :
    l.getLast? = some z := by
  induction h with
  | slnil => simp at hm
  | @cons l m a h ih =>
    rw [List.nodup_cons] at hnd
    cases m with
    | nil => cases h; simp at hm
    | cons b m => rw [List.getLast?_cons_cons] at hz; exact ih hnd.2 hz hm
  | @cons_cons l m a h ih =>
    rw [List.nodup_cons] at hnd
    cases m with
    | nil => cases h; exact hz
    | cons b m =>
      rw [List.getLast?_cons_cons] at hz
      have hza : z ≠ a := by rintro rfl; exact hnd.1 (List.mem_of_getLast? hz)
      have hzl : z ∈ l := by
        rcases List.mem_cons.1 hm with hh | hh
        · exact absurd hh hza
        · exact hh
      have := ih hnd.2 hz hzl
      cases l with
      | nil => simp at hzl
      | cons c l => rw [List.getLast?_cons_cons]; exact this

theorem mapM_some {α β : Type} (F : α → Option β) (g : α → β) (l : List α) (h : ∀ a ∈ l, F a = some (g a)) : l.mapM F = some (l.map g) := by
  induction l with
  | nil => rfl
  | cons a l ih =>
    rw [List.mapM_cons, h a List.mem_cons_self, ih (fun b hb => h b (List.mem_cons_of_mem _ hb))]
    rfl

theorem filterMap_filter {α β : Type} (p : α → Bool) (F : α → Option β) (g : α → β) (l : List α) (h1 : ∀ a ∈ l, p a = true → F a = some (g a))
    (h2 : ∀ a ∈ l, p a = false → F a = none) : l.filterMap F = (l.filter p).map g := by
  induction l with
  | nil => rfl
  | cons a l ih =>
    have ih := ih (fun b hb => h1 b (List.mem_cons_of_mem _ hb)) (fun b hb => h2 b (List.mem_cons_of_mem _ hb))
    cases hp : p a with
    | true => rw [List.filterMap_cons_some (h1 a List.mem_cons_self hp), List.filter_cons_of_pos hp, List.map_cons, ih]
    | false => rw [List.filterMap_cons_none (h2 a List.mem_cons_self hp), List.filter_cons_of_neg (by rw [hp]; simp), ih]

/-! ## rebuilding the list of bounds -/

theorem linkObl_sameO [FTrans K] (l : List Nat) (o : Outs K) (last : Nat) : SameO o (linkObl o last l) := by
  induction l generalizing o last with
  | nil => exact SameO.refl o
  | cons i l ih =>
    rw [linkObl]
    have h1 : SameO o (o.modB last (fun x => { x with next := some i })) := sameO_modB o last _ (fun b => ⟨rfl, rfl, rfl, rfl⟩)
    exact (h1.trans (sameO_modB _ i (fun x => { x with prev := some last }) (fun b => ⟨rfl, rfl, rfl, rfl⟩))).trans (ih _ i)

theorem rebuildObl_sameO [FTrans K] (o : Outs K) (l : List Nat) : SameO o (rebuildObl o l) := by
  cases l with
  | nil => exact ⟨rfl, rfl, fun _ b h => ⟨b, h, rfl, rfl, rfl, rfl⟩⟩
  | cons i l =>
    rw [rebuildObl]
    refine SameO.trans ?_ (linkObl_sameO l _ i)
    have h1 : SameO o { o with oblFirst := some i } := ⟨rfl, rfl, fun _ b h => ⟨b, h, rfl, rfl, rfl, rfl⟩⟩
    exact h1.trans (sameO_modB _ i (fun x => { x with prev := none, next := none }) (fun b => ⟨rfl, rfl, rfl, rfl⟩))

section
variable [FTrans K] [LinearOrder K] [LawfulOrd K]
variable {ael0 C : List (Edge K)} {obl : List Nat} {sx : Nat → K} {wd : Nat → Int} {tp : Nat → Vec2 K} {y : K} {em : Multiset (Piece K)}

/-! ## opening polygons -/

theorem PInv.openPairs (c : PCtx ael0 C obl sx wd tp y) (n : Nat) : ∀ (l k : List (Edge K)) (τ : Int) (F : Multiset (Piece K)) (st : St K) (f : Nat → Option Nat) (act : Set Nat)
    (tip : Nat → Vec2 K) (Epre : List (Edge K)) (L0 B : List Nat), l.length ≤ n → PInv ael0 C obl sx wd tp y em F st f act tip Epre (k ++ l) L0 B →
    AltDir Edge.windDx τ l → l.Pairwise (fun a b => a.currX ≤ b.currX) →
    ∃ F' f' act' tip', PInv ael0 C obl sx wd tp y em F' (River.openPairs st l).1 f' act' tip' Epre (k ++ (River.openPairs st l).2) L0 B ∧
      AltDir Edge.windDx τ (River.openPairs st l).2 ∧
      (River.openPairs st l).2.Sublist l ∧
      ∃ m, l.length = (River.openPairs st l).2.length + 2 * m := by
  induction n using Nat.strong_induction_on with
  | _ n ih =>
    intro l k τ F st f act tip Epre L0 B hn h ha hs
    match l, hn, h, ha, hs with
    | [], _, h, ha, _ =>
      rw [show River.openPairs st [] = (st, []) from rfl]
      exact ⟨F, f, act, tip, h, ha, List.Sublist.refl _, 0, rfl⟩
    | [a], _, h, ha, _ =>
      rw [show River.openPairs st [a] = (st, [a]) from rfl]
      exact ⟨F, f, act, tip, h, ha, List.Sublist.refl _, 0, rfl⟩
    | a :: b :: r, hn, h, ha, hs =>
      obtain ⟨a1, a2, a3⟩ := ha
      rw [neg_neg] at a3
      rw [List.pairwise_cons, List.pairwise_cons] at hs
      simp only [List.length_cons] at hn
      by_cases hx : a.currX = b.currX
      · have hop : River.openPairs st (a :: b :: r) = River.openPairs (st.newOutput a b) r := by
          rw [River.openPairs, if_pos ((LawfulOrd.eq_iff _ _).2 hx)]
        have haC : a ∈ C := h.lists.subset (by simp)
        have hbC : b ∈ C := h.lists.subset (by simp)
        have hab : a ≠ b := by
          rintro rfl
          have := c.nodup.sublist h.lists
          rw [List.nodup_append] at this
          have := (List.nodup_cons.1 (List.nodup_append.1 this.2.1).2.1).1
          simp at this
        obtain ⟨F1, f1, act1, tip1, g⟩ := h.newOutput c (by rw [a1, a2, neg_neg])
          (fun i hs => hab (hs.uniqE b hbC (by rw [← hx]; exact hs.x)).symm) (fun i hs => hab (hs.uniqE a haC (by rw [hx]; exact hs.x)))
          (fun X hX => absurd (by rw [hx]) hX)
        obtain ⟨F2, f2, act2, tip2, g1, g2, g4, m0, g6⟩ := ih r.length (by omega) r k τ F1 _ f1 act1 tip1 Epre L0 B (le_refl _) g a3 hs.2.2
        rw [hop]
        refine ⟨F2, f2, act2, tip2, g1, g2, g4.trans ((List.sublist_cons_self _ _).trans (List.sublist_cons_self _ _)), ?_⟩
        exact ⟨m0 + 1, by simp only [List.length_cons]; rw [g6]; ring⟩
      · have hop : River.openPairs st (a :: b :: r) = ((River.openPairs st r).1, a :: b :: (River.openPairs st r).2) := by
          rw [River.openPairs, if_neg (by rw [LawfulOrd.eq_iff]; exact hx)]
        obtain ⟨F2, f2, act2, tip2, g1, g2, g4, m0, g6⟩ := ih r.length (by omega) r (k ++ [a, b]) τ F st f act tip Epre L0 B (le_refl _)
          (by simpa using h) a3 hs.2.2
        rw [hop]
        refine ⟨F2, f2, act2, tip2, by simpa using g1, ⟨a1, a2, by rw [neg_neg]; exact g2⟩, g4.cons_cons b |>.cons_cons a, m0, ?_⟩
        simp only [List.length_cons]; rw [g6]; ring

/-! ## the whole function -/

/-- What `update_ouput_bound` needs: `obl` are the bounds in order. -/
structure UIn (ael : List (Edge K)) (o : Outs K) (C : List (Edge K)) (obl : List Nat) (sx : Nat → K) (wd : Nat → Int) (tip : Nat → Vec2 K)
    (y : K) (em : Multiset (Piece K)) (σ : Int) : Prop where
  ctx : PCtx ael C obl sx wd tip y
  rep : o.links.Represents obl
  poly : PolyInv o {i | i ∈ obl} tip em
  non : ∀ e ∈ ael, e ∉ C → e.bound = none
  wait : ∀ i ∈ obl, ∃ b, o.bounds[i]? = some b ∧ b.stopX = sx i ∧ b.windDx = wd i ∧
    ∀ id, b.currEdge = some id → ∃ e ∈ C, e.eid = id ∧ Solid C obl sx tip e i
  sortedB : obl.Pairwise (fun a b => sx a ≤ sx b)
  altE : AltDir Edge.windDx σ C
  altB : AltDir wd σ obl
  even : Even (C.length + obl.length)

/-- The active edges and the output between two scan lines: exactly the edges in `C` have bounds, the bounds are linked in
the order of the edges, and each has reached the lower end of its edge. -/
structure OutLow (C : List (Edge K)) (ael : List (Edge K)) (o : Outs K) (NL : List Nat) (tip : Nat → Vec2 K) (em : Multiset (Piece K)) : Prop where
  rep : o.links.Represents NL
  list : ael.filterMap Edge.bound = NL
  poly : PolyInv o {i | i ∈ NL} tip em
  iff : ∀ e ∈ ael, e ∈ C ↔ e.bound.isSome
  bound : ∀ e ∈ ael, ∀ i, e.bound = some i → ∃ b, o.bounds[i]? = some b ∧ b.currEdge = some e.eid ∧ b.windDx = e.windDx ∧ tip i = e.bot

omit [FTrans K] [LinearOrder K] [LawfulOrd K] in
theorem filterMap_sublist {α β : Type} (g : α → Option β) {C l : List α} (h : C.Sublist l) (hn : l.Nodup) (h0 : ∀ a ∈ l, a ∉ C → g a = none) :
    l.filterMap g = C.filterMap g := by
  induction h with
  | slnil => rfl
  | cons a h ih =>
    obtain ⟨n1, n2⟩ := List.nodup_cons.1 hn
    rw [List.filterMap_cons_none (h0 a (by simp) (fun hc => n1 (h.subset hc))), ih n2 (fun b hb => h0 b (List.mem_cons_of_mem _ hb))]
  | cons_cons a h ih =>
    obtain ⟨n1, n2⟩ := List.nodup_cons.1 hn
    rw [List.filterMap_cons, List.filterMap_cons, ih n2 (fun b hb hc => h0 b (List.mem_cons_of_mem _ hb) (by
      intro hh
      rcases List.mem_cons.1 hh with rfl | hh
      · exact n1 hb
      · exact hc hh))]

omit [LinearOrder K] [LawfulOrd K] in
theorem boundEdges_map (rings : List (Ring K)) (ct : ClipType) (fr : FillRule) (g : Edge K → Edge K)
    (h1 : ∀ e, isContributing ct fr (g e) = isContributing ct fr e) (h2 : ∀ a b, isSame rings (g a) (g b) = isSame rings a b) (ael : List (Edge K)) :
    boundEdges rings ct fr (ael.map g) = (boundEdges rings ct fr ael).map g := by
  obtain ⟨F, hF, f1, f2, f3⟩ : ∃ F : List (Edge K) → Edge K → List (Edge K), (∀ l, boundEdges rings ct fr l = (l.foldl F []).reverse) ∧
      (∀ acc e, isContributing ct fr e = false → F acc e = acc) ∧ (∀ e, isContributing ct fr e = true → F [] e = [e]) ∧
      (∀ acc b e, isContributing ct fr e = true → F (b :: acc) e = if isSame rings e b then acc else e :: b :: acc) := by
    refine ⟨_, fun _ => rfl, ?_, ?_, ?_⟩
    · intro acc e h; simp [h]
    · intro e h; simp [h]
    · intro acc b e h; simp [h]
  have hFg : ∀ acc e, F (acc.map g) (g e) = (F acc e).map g := by
    intro acc e
    cases hc : isContributing ct fr e with
    | false => rw [f1 _ _ hc, f1 _ _ (by rw [h1]; exact hc)]
    | true =>
      cases acc with
      | nil => rw [List.map_nil, f2 _ hc, f2 _ (by rw [h1]; exact hc)]; rfl
      | cons b acc =>
        rw [List.map_cons, f3 _ _ _ hc, f3 _ _ _ (by rw [h1]; exact hc), h2]
        split <;> rfl
  have key : ∀ (l acc : List (Edge K)), (l.map g).foldl F (acc.map g) = (l.foldl F acc).map g := by
    intro l
    induction l with
    | nil => intro acc; rfl
    | cons e l ih => intro acc; rw [List.map_cons, List.foldl_cons, List.foldl_cons, hFg, ih]
  rw [hF, hF, List.map_reverse, ← key ael []]
  rfl

theorem updateOutput_spec {rings : List (Ring K)} {ct : ClipType} {fr : FillRule} {σ : Int} {tip : Nat → Vec2 K} (st : St K)
    (hch : st.changes ≠ [])
    (h : UIn st.ael st.out (boundEdges rings ct fr st.ael) obl sx wd tip y em σ) :
    ∃ st' NL tip' F, updateOutput rings ct fr y st = some st' ∧ OutLow (boundEdges rings ct fr st'.ael) st'.ael st'.out NL tip' (em + F) ∧
      (∀ p ∈ F, Level y p) ∧ ∀ X, F.countP (Straddles X) = cnt sx (boundEdges rings ct fr st.ael) obl X % 2 := by
  obtain ⟨C, hC⟩ : ∃ C, C = boundEdges rings ct fr st.ael := ⟨_, rfl⟩
  rw [← hC] at h ⊢
  have c := h.ctx
  -- the state at the start
  obtain ⟨st0, hst0⟩ : ∃ st0 : St K, st0 = { st with changes := [] } := ⟨_, rfl⟩
  have hupd : updateOutput rings ct fr y st = (oblWalk (openPairs st0 C).1.out.bounds ((openPairs st0 C).1.out.bounds.length)
      (openPairs st0 C).1.out.oblFirst).bind (fun obl =>
      let items := sortItems ((openPairs st0 C).2.map Item.edge ++
        obl.filterMap (fun i => ((openPairs st0 C).1.out.bounds[i]?).map (fun b => Item.bound i b.stopX)))
      (pairItems y items.length (openPairs st0 C).1 items).bind (fun st' =>
        (boundsOf st'.ael C).map (fun l => { st' with out := rebuildObl st'.out l }))) := by
    rw [updateOutput, if_neg (by cases hc : st.changes with
      | nil => exact absurd hc hch
      | cons _ _ => simp)]
    simp only [← hC, ← hst0]
  have hael : st.ael = withB st.ael (fun id => (st.ael.find? (fun x => x.eid == id)).bind Edge.bound) := by
    rw [withB]
    conv_lhs => rw [← List.map_id st.ael]
    refine List.map_congr_left (fun e he => ?_)
    obtain ⟨x, hx⟩ : ∃ x, st.ael.find? (fun x => x.eid == e.eid) = some x := by
      rw [← Option.isSome_iff_exists, List.find?_isSome]; exact ⟨e, he, by simp⟩
    have hxe : x = e := c.eq (List.mem_of_find?_eq_some hx) he (by simpa using List.find?_some hx)
    subst hxe
    simp [hx]
  have p0 : PInv st.ael C obl sx wd tip y em 0 st0 (fun id => (st.ael.find? (fun x => x.eid == id)).bind Edge.bound) {i | i ∈ obl} tip [] ([] ++ C) [] obl := by
    refine ⟨by rw [hst0]; exact hael, by rw [hst0, add_zero]; exact h.poly, by rw [hst0]; exact h.rep, fun i hi => hi, fun i hi hn => absurd hi hn,
      List.Sublist.refl _, List.Sublist.refl _, fun e he hn => absurd he hn, fun i hi => Or.inl hi, ?_, fun i hi => hi, ?_, by simp, by simp, fun e i hs => ⟨fun _ => hs.memB, fun _ => hs.memE⟩⟩
    · intro e he heC
      obtain ⟨x, hx⟩ : ∃ x, st.ael.find? (fun x => x.eid == e.eid) = some x := by
        rw [← Option.isSome_iff_exists, List.find?_isSome]; exact ⟨e, he, by simp⟩
      have hxe : x = e := c.eq (List.mem_of_find?_eq_some hx) he (by simpa using List.find?_some hx)
      subst hxe
      simp only [hx, Option.bind_some]
      exact h.non x he heC
    · intro i hi
      obtain ⟨b, h1, h2, h3, h4⟩ := h.wait i hi
      exact ⟨rfl, b, by rw [hst0]; exact h1, h2, h3, h4⟩
  obtain ⟨F1, f1, act1, tip1, q1, q2, q4, m0, q6⟩ := PInv.openPairs c C.length C [] σ 0 st0 _ _ tip [] [] obl (le_refl _) p0 h.altE c.sorted
  obtain ⟨st1, E, hop⟩ : ∃ st1 E, openPairs st0 C = (st1, E) := ⟨_, _, rfl⟩
  rw [hop] at hupd q1 q2 q4 q6
  simp only [List.nil_append] at hupd q1 q2 q4 q6
  have hoblt : ∀ i ∈ obl, i < st1.out.bounds.length := fun i hi => q1.poly.lt (q1.repAct i (by simpa using hi))
  have hobln : obl.Nodup := h.rep.2.1
  have hwalk : oblWalk st1.out.bounds st1.out.bounds.length st1.out.oblFirst = some obl := by
    refine Links.oblWalk_spec st1.out obl (by simpa using q1.rep) hoblt _ ?_
    have : obl ⊆ List.range st1.out.bounds.length := fun i hi => List.mem_range.2 (hoblt i hi)
    have := (List.subperm_of_subset hobln this).length_le
    simpa using this
  have hitems : sortItems (E.map Item.edge ++ obl.filterMap (fun i => (st1.out.bounds[i]?).map (fun b => Item.bound i b.stopX))) = items sx E obl := by
    rw [items]
    congr 2
    rw [← List.filterMap_eq_map]
    refine List.filterMap_congr (fun i hi => ?_)
    obtain ⟨_, b, h1, h2, _⟩ := q1.wait i hi
    rw [h1]
    simp [h2]
  have hmatch : Match Edge.currX Edge.windDx sx wd E obl := by
    refine match_of Edge.currX Edge.windDx sx wd _ σ E obl (le_refl _) (c.sorted.sublist q4) h.sortedB q2 h.altB ?_
    have := h.even
    rw [q6] at this
    rw [Nat.even_iff] at this ⊢
    omega
  have hlen : (items sx E obl).length = E.length + obl.length := by
    rw [items, (sortItems_perm _).length_eq]; simp
  obtain ⟨st2, F2, f2, act2, tip2, Epre, L, r1, r2⟩ := PInv.pair c hmatch (items sx E obl).length F1 st1 f1 act1 tip1 [] [] hlen.ge q1
  rw [hwalk, Option.bind_some] at hupd
  simp only [hitems, r1, Option.bind_some] at hupd
  -- the bounds of the contributing edges
  have hdone := fun e he => r2.done e he (by simp)
  have hg : ∀ e ∈ C, f2 e.eid = some ((f2 e.eid).getD 0) := by
    intro e he
    obtain ⟨i, b, h1, _⟩ := hdone e he
    rw [h1]; rfl
  have hfm : C.filterMap (fun e => f2 e.eid) = C.map (fun e => (f2 e.eid).getD 0) := by
    rw [← List.filterMap_eq_map]
    exact List.filterMap_congr (fun e he => hg e he)
  obtain ⟨NL, hNL⟩ : ∃ NL, NL = C.map (fun e => (f2 e.eid).getD 0) := ⟨_, rfl⟩
  have hmemNL : ∀ i, i ∈ NL ↔ i ∈ act2 := by
    intro i
    rw [hNL, List.mem_map]
    constructor
    · rintro ⟨e, he, rfl⟩
      obtain ⟨i, b, h1, h2, _⟩ := hdone e he
      rw [h1]; exact h2
    · intro hi
      rcases r2.cover i hi with hb | ⟨e, he, _, hfe⟩
      · simp at hb
      · exact ⟨e, he, by rw [hfe]; rfl⟩
  have hNLnd : NL.Nodup := by
    rw [hNL]
    refine List.Nodup.map_on ?_ c.nodup
    intro a ha b hb hab
    obtain ⟨i, b1, s1, _, _, s4, s5, _⟩ := hdone a ha
    obtain ⟨j, b2, t1, _, _, t4, t5, _⟩ := hdone b hb
    rw [s1, t1] at hab
    simp only [Option.getD_some] at hab
    subst hab
    rw [s4] at t4; cases t4
    rw [s5] at t5
    exact c.eq (c.cs.subset ha) (c.cs.subset hb) (Option.some.inj t5)
  have hbo : boundsOf st2.ael C = some NL := by
    rw [boundsOf, hNL]
    refine mapM_some _ _ C (fun e he => ?_)
    obtain ⟨x, hx⟩ : ∃ x, st2.ael.find? (fun x => x.eid == e.eid) = some x := by
      rw [← Option.isSome_iff_exists, List.find?_isSome, r2.ael, withB]
      exact ⟨_, List.mem_map_of_mem (c.cs.subset he), by simp⟩
    rw [hx, Option.bind_some]
    have hxm := List.mem_of_find?_eq_some hx
    have hxe : x.eid = e.eid := by simpa using List.find?_some hx
    rw [r2.ael, withB] at hxm
    obtain ⟨z, hz, rfl⟩ := List.mem_map.1 hxm
    simp only at hxe ⊢
    rw [hxe]; exact hg e he
  rw [hbo] at hupd
  have hlt2 : ∀ i ∈ NL, i < st2.out.bounds.length := fun i hi => r2.poly.lt ((hmemNL i).1 hi)
  have hsame := rebuildObl_sameO st2.out NL
  have hbe2 : boundEdges rings ct fr st2.ael = C.map (fun z => { z with bound := f2 z.eid }) := by
    rw [r2.ael, withB, hC]
    exact boundEdges_map rings ct fr (fun z => { z with bound := f2 z.eid }) (fun _ => rfl) (fun _ _ => rfl) _
  refine ⟨{ st2 with out := rebuildObl st2.out NL }, NL, tip2, F2, hupd, ⟨?_, ?_, ?_, ?_, ?_⟩, r2.level, fun X => by
    have := r2.acc X
    rw [cnt_zero (by simp) (by simp)] at this
    simpa using this⟩
  · rw [Links.rebuildObl_spec st2.out NL hlt2 hNLnd]
    right
    intro z hz
    have hza : z ∈ act2 := (hmemNL z).1 (List.mem_of_getLast? hz)
    by_cases hzL : z ∈ L
    · have hsub : L.Sublist NL := by
        rw [hNL, ← hfm]
        exact r2.sub.trans (List.Sublist.filterMap _ ((List.sublist_append_left _ _).trans r2.lists))
      have hlast := sublist_last hsub hNLnd hz hzL
      obtain ⟨L', hL'⟩ := List.getLast?_eq_some_iff.1 hlast
      have hr := r2.rep
      rw [List.append_nil, hL', Links.represents_iff] at hr
      have := (Links.chainE_next hr.2.2).1
      simpa using this
    · exact r2.fresh z hza (by simpa using hzL)
  · simp only
    rw [r2.ael, withB, List.filterMap_map, hNL, ← hfm]
    exact filterMap_sublist _ c.cs (List.Nodup.of_map _ c.nd) (fun e he hp => r2.non e he hp)
  · have hset : {i | i ∈ NL} = act2 := by ext i; exact hmemNL i
    simp only
    rw [hset]
    exact r2.poly.sameO hsame
  · intro e he
    simp only at he
    rw [r2.ael, withB] at he
    obtain ⟨z, hz, rfl⟩ := List.mem_map.1 he
    simp only [hbe2, List.mem_map]
    constructor
    · rintro ⟨w, hw, hwz⟩
      have hwe : w.eid = z.eid := by
        have := congrArg Edge.eid hwz
        exact this
      rw [← hwe, hg w hw]; rfl
    · intro hs
      by_contra hp
      rw [r2.non z hz (fun hh => hp ⟨z, hh, rfl⟩)] at hs
      cases hs
  · intro e he i hi
    simp only at he
    rw [r2.ael, withB] at he
    obtain ⟨z, hz, rfl⟩ := List.mem_map.1 he
    simp only at hi ⊢
    have hzC : z ∈ C := by
      by_contra hn
      rw [r2.non z hz hn] at hi; cases hi
    obtain ⟨j, b, h1, _, _, h4, h5, h6, h7⟩ := hdone z hzC
    rw [h1] at hi; cases hi
    obtain ⟨b', t1, t2⟩ := hsame.bounds i b h4
    exact ⟨b', t1, by rw [t2.currEdge]; exact h5, by rw [t2.windDx]; exact h6, h7⟩

end

end River
