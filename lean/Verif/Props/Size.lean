import Verif.Props.TerminateAny
import Verif.Props.Output
import Verif.Lemmas.DcelRun

/-! # C95: how large the result can become -/

namespace River
variable {K : Type}

/-! ## growth of the output -/

/-- Number of segments stored for a polygon. -/
def Poly.count (p : Poly K) : Nat := p.upPath.length + p.downPath.length

/-- Number of segments stored in all polygons. -/
def Outs.count (o : Outs K) : Nat := (o.polys.map Poly.count).sum

/-- From `o` to `o'` at most `a` polygons (with two bounds each) and `b` segments were added. -/
structure Grow (a b : Nat) (o o' : Outs K) : Prop where
  bounds : o'.bounds.length ≤ o.bounds.length + 2 * a
  polys : o'.polys.length ≤ o.polys.length + a
  count : o'.count ≤ o.count + b

theorem Grow.refl (o : Outs K) : Grow 0 0 o o := ⟨by omega, by omega, by omega⟩

theorem Grow.trans {a b a' b' : Nat} {o o' o'' : Outs K} (h : Grow a b o o') (g : Grow a' b' o' o'') : Grow (a + a') (b + b') o o'' :=
  ⟨by have := h.1; have := g.1; omega, by have := h.2; have := g.2; omega, by have := h.3; have := g.3; omega⟩

theorem Grow.mono {a b a' b' : Nat} {o o' : Outs K} (h : Grow a b o o') (ha : a ≤ a') (hb : b ≤ b') : Grow a' b' o o' :=
  ⟨by have := h.1; omega, by have := h.2; omega, by have := h.3; omega⟩

theorem sum_modify_le {α : Type} (g : α → Nat) (f : α → α) (k : Nat) (hf : ∀ x, g (f x) ≤ g x + k) (l : List α) (i : Nat) :
    ((l.modify i f).map g).sum ≤ (l.map g).sum + k := by
  induction l generalizing i with
  | nil => simp
  | cons x l ih =>
    cases i with
    | zero => have := hf x; simp; omega
    | succ i => have := ih i; simp; omega

theorem sum_modify_clear {α : Type} (g : α → Nat) (f : α → α) (hf : ∀ x, g (f x) = 0) (l : List α) (i : Nat) (x : α) (h : l[i]? = some x) :
    ((l.modify i f).map g).sum + g x = (l.map g).sum := by
  induction l generalizing i with
  | nil => simp at h
  | cons y l ih =>
    cases i with
    | zero => simp at h; subst h; simp [hf]; omega
    | succ i => have := ih i (by simpa using h); simp; omega

theorem grow_modB (o : Outs K) (i : Nat) (f : Bound K → Bound K) : Grow 0 0 o (o.modB i f) :=
  ⟨by simp [Outs.modB], by simp [Outs.modB], by simp [Outs.modB, Outs.count]⟩

theorem grow_modP (o : Outs K) (i : Nat) (f : Poly K → Poly K) (k : Nat) (hf : ∀ x, (f x).count ≤ x.count + k) : Grow 0 k o (o.modP i f) :=
  ⟨by simp [Outs.modP], by simp [Outs.modP], sum_modify_le Poly.count f k hf o.polys i⟩

theorem grow_push (o : Outs K) (b : Bound K) (s : Seg K) : Grow 0 1 o (o.push b s) := by
  refine grow_modP _ _ _ _ (fun x => ?_)
  split <;> simp [Poly.count] <;> omega

theorem grow_first (o : Outs K) (x : Option Nat) : Grow 0 0 o { o with oblFirst := x } := ⟨by simp, by simp, by simp [Outs.count]⟩

theorem grow_deleteObl (o : Outs K) (b : Nat) : Grow 0 0 o (o.deleteObl b) := by
  unfold Outs.deleteObl
  split
  · exact Grow.refl o
  · simp only
    split <;> split
    · exact (grow_modB _ _ _).trans (grow_modB _ _ _)
    · exact (grow_first _ _).trans (grow_modB _ _ _)
    · exact grow_modB _ _ _
    · exact grow_first _ _

variable [FTrans K]
attribute [local instance 10000] FTrans.toFNum

theorem grow_newOutput (o : Outs K) (a b : Edge K) : Grow 1 1 o (o.newOutput a b) := by
  refine ⟨by simp [Outs.newOutput], by simp [Outs.newOutput], ?_⟩
  simp only [Outs.newOutput, Outs.count, List.map_append, List.sum_append, List.map_cons, List.map_nil, List.sum_cons, List.sum_nil, Poly.count]
  split <;> simp <;> split <;> simp

theorem grow_updateBound (o o' : Outs K) (i : Nat) (e : Edge K) (h : o.updateBound i e = some o') : Grow 0 1 o o' := by
  unfold Outs.updateBound at h
  split at h
  · cases h
  · simp only [Option.some.injEq] at h
    subst h
    refine Grow.trans (a := 0) (b := 1) (a' := 0) (b' := 0) ?_ (grow_modB _ _ _)
    split
    · exact (Grow.refl o).mono (by omega) (by omega)
    · split <;> exact grow_push _ _ _

omit [FTrans K] in
theorem grow_merge (o o' : Outs K) (up : Bool) (d s : Nat) (hds : d ≠ s) (h : o.merge up d s = some o') : Grow 0 0 o o' := by
  have key : ∀ (ps : Poly K) (f clear : Poly K → Poly K) (u : Nat) (g : Bound K → Bound K), o.polys[s]? = some ps → (∀ x, (f x).count ≤ x.count + ps.count) →
      (∀ x, (clear x).count = 0) → Grow 0 0 o (((o.modP d f).modB u g).modP s clear) := by
    intro ps f clear u g hp hf hc
    refine ⟨by simp [Outs.modP, Outs.modB], by simp [Outs.modP, Outs.modB], ?_⟩
    have h1 := sum_modify_le Poly.count f ps.count hf o.polys d
    have h2 := sum_modify_clear Poly.count clear hc (o.polys.modify d f) s ps (by simpa [List.getElem?_modify, hds] using hp)
    simp only [Outs.modP, Outs.modB, Outs.count]
    omega
  unfold Outs.merge at h
  split at h
  · cases h
  · next ps hps =>
    simp only at h
    split at h
    · split at h
      · cases h
      · simp only [Option.some.injEq] at h
        subst h
        exact key ps _ _ _ _ hps (fun x => by simp [Poly.count]; omega) (fun x => by simp [Poly.count])
    · split at h
      · cases h
      · simp only [Option.some.injEq] at h
        subst h
        exact key ps _ _ _ _ hps (fun x => by simp [Poly.count]; omega) (fun x => by simp [Poly.count])

theorem grow_join (o o' : Outs K) (i j : Nat) (y : K) (h : o.join i j y = some o') : Grow 0 1 o o' := by
  unfold Outs.join at h
  simp only at h
  have h0 : Grow 0 0 o ((o.modB i (fun x => { x with currEdge := none })).modB j (fun x => { x with currEdge := none })) :=
    (grow_modB _ _ _).trans (grow_modB _ _ _)
  generalize (o.modB i (fun x => { x with currEdge := none })).modB j (fun x => { x with currEdge := none }) = o0 at h h0
  split at h
  · next a b _ _ =>
    have h1 : Grow 0 1 o0 (if a.stopX ==. b.stopX then o0
        else if a.isUp then o0.push a (Seg.line ⟨b.stopX, y⟩) else o0.push a (Seg.line ⟨a.stopX, y⟩)) := by
      split
      · exact (Grow.refl _).mono (by omega) (by omega)
      · split <;> exact grow_push _ _ _
    generalize (if a.stopX ==. b.stopX then o0
        else if a.isUp then o0.push a (Seg.line ⟨b.stopX, y⟩) else o0.push a (Seg.line ⟨a.stopX, y⟩)) = o1 at h h1
    split at h
    · simp only [Option.some.injEq] at h
      subst h
      exact (h0.trans h1).trans (((grow_modP _ _ _ 0 (fun x => by simp [Poly.count])).trans (grow_deleteObl _ _)).trans (grow_deleteObl _ _))
    · next hne =>
      obtain ⟨o2, h2, rfl⟩ := Option.map_eq_some_iff.1 h
      have h3 : Grow 0 0 o1 o2 := by
        split at h2
        · exact grow_merge _ _ _ _ _ (fun e => hne e.symm) h2
        · exact grow_merge _ _ _ _ _ hne h2
      exact (h0.trans h1).trans ((h3.trans (grow_deleteObl _ _)).trans (grow_deleteObl _ _))
  · cases h

/-! ## growth in one round -/

theorem grow_openPairs (l : List (Edge K)) (st : St K) : ∃ a, Grow a a st.out (openPairs st l).1.out ∧ 2 * a + (openPairs st l).2.length ≤ l.length := by
  induction l using List.twoStepInduction generalizing st with
  | nil => exact ⟨0, Grow.refl _, by simp [openPairs]⟩
  | singleton a => exact ⟨0, Grow.refl _, by simp [openPairs]⟩
  | cons_cons x y l ih _ =>
    rw [openPairs]
    split
    · obtain ⟨a, h1, h2⟩ := ih (st.newOutput x y)
      exact ⟨1 + a, (grow_newOutput st.out x y).trans h1, by simp; omega⟩
    · obtain ⟨a, h1, h2⟩ := ih st
      exact ⟨a, h1, by simp; omega⟩

theorem grow_connect (y : K) (st st' : St K) (p q : Item K) (h : connect y st p q = some st') :
    ∃ a, Grow a 1 st.out st'.out ∧ 2 * a ≤ [p, q].countP Item.isEdge := by
  cases p with
  | edge e =>
    cases q with
    | edge f => simp only [connect, Option.some.injEq] at h; subst h; exact ⟨1, grow_newOutput _ _ _, by simp [List.countP_cons, Item.isEdge]⟩
    | bound j x =>
      simp only [connect, St.updateBound] at h
      obtain ⟨o, h1, rfl⟩ := Option.map_eq_some_iff.1 h
      exact ⟨0, grow_updateBound _ _ _ _ h1, by omega⟩
  | bound i x =>
    cases q with
    | edge f =>
      simp only [connect, St.updateBound] at h
      obtain ⟨o, h1, rfl⟩ := Option.map_eq_some_iff.1 h
      exact ⟨0, grow_updateBound _ _ _ _ h1, by omega⟩
    | bound j x' =>
      simp only [connect, St.join] at h
      obtain ⟨o, h1, rfl⟩ := Option.map_eq_some_iff.1 h
      exact ⟨0, grow_join _ _ _ _ _ h1, by omega⟩

theorem grow_pairItems (y : K) (fuel : Nat) (st st' : St K) (l : List (Item K)) (h : pairItems y fuel st l = some st') :
    ∃ a b, Grow a b st.out st'.out ∧ 2 * a ≤ l.countP Item.isEdge ∧ 2 * b ≤ l.length := by
  induction fuel generalizing st l with
  | zero =>
    cases l with
    | nil => simp only [pairItems, Option.some.injEq] at h; subst h; exact ⟨0, 0, Grow.refl _, by omega, by omega⟩
    | cons it rest => simp [pairItems] at h
  | succ fuel ih =>
    cases l with
    | nil => simp only [pairItems, Option.some.injEq] at h; subst h; exact ⟨0, 0, Grow.refl _, by omega, by omega⟩
    | cons it rest =>
      have step : ∀ (n : Item K) (l' : List (Item K)), (connect y st it n).bind (fun st' => pairItems y fuel st' l') = some st' → (n :: l').Perm rest →
          ∃ a b, Grow a b st.out st'.out ∧ 2 * a ≤ (it :: rest).countP Item.isEdge ∧ 2 * b ≤ (it :: rest).length := by
        intro n l' hb hp
        obtain ⟨st1, h1, h2⟩ := Option.bind_eq_some_iff.1 hb
        obtain ⟨a, g1, g2⟩ := grow_connect y st st1 it n h1
        obtain ⟨a', b', k1, k2, k3⟩ := ih st1 l' h2
        refine ⟨a + a', 1 + b', g1.trans k1, ?_, ?_⟩
        · rw [List.countP_cons, ← hp.countP_eq, List.countP_cons]
          simp only [List.countP_cons, List.countP_nil] at g2
          omega
        · have := hp.length_eq
          simp only [List.length_cons] at this ⊢
          omega
      simp only [pairItems] at h
      split at h
      · next n tail' ht =>
        split at h
        · refine step n _ h ?_
          have := List.takeWhile_append_dropWhile (p := fun n : Item K => (n.x ==. it.x) && (n.isEdge == it.isEdge)) (l := rest)
          rw [ht] at this
          conv_rhs => rw [← this]
          exact List.perm_middle.symm
        · split at h
          · next m rest' => exact step m rest' h (List.Perm.refl _)
          · cases h
      · split at h
        · rename_i m rest' _; exact step m rest' h (List.Perm.refl _)
        · cases h

omit [FTrans K] in
theorem oblWalk_length (bounds : List (Bound K)) (fuel : Nat) (i : Option Nat) (l : List Nat) (h : oblWalk bounds fuel i = some l) : l.length ≤ fuel := by
  induction fuel generalizing i l with
  | zero =>
    cases i with
    | none => simp only [oblWalk, Option.some.injEq] at h; subst h; simp
    | some i => simp [oblWalk] at h
  | succ fuel ih =>
    cases i with
    | none => simp only [oblWalk, Option.some.injEq] at h; subst h; simp
    | some i =>
      rw [oblWalk] at h
      obtain ⟨b, _, h2⟩ := Option.bind_eq_some_iff.1 h
      obtain ⟨l', h3, rfl⟩ := Option.map_eq_some_iff.1 h2
      have := ih _ _ h3
      simp; omega

theorem boundEdges_length (rings : List (Ring K)) (ct : ClipType) (fr : FillRule) (ael : List (Edge K)) :
    (boundEdges rings ct fr ael).length ≤ ael.length := by
  unfold boundEdges
  rw [List.length_reverse]
  have : ∀ (f : List (Edge K) → Edge K → List (Edge K)), (∀ acc e, (f acc e).length ≤ acc.length + 1) → ∀ l acc : List (Edge K),
      (l.foldl f acc).length ≤ acc.length + l.length := by
    intro f hf l
    induction l with
    | nil => intro acc; simp
    | cons e l ih =>
      intro acc
      rw [List.foldl_cons]
      have h1 := ih (f acc e)
      have h2 := hf acc e
      simp only [List.length_cons]
      omega
  refine (this _ (fun acc e => ?_) ael []).trans (by simp)
  split
  · split
    · split <;> simp <;> omega
    · simp
  · simp

omit [FTrans K] in
theorem grow_linkObl (l : List Nat) (o : Outs K) (last : Nat) : Grow 0 0 o (linkObl o last l) := by
  induction l generalizing o last with
  | nil => exact Grow.refl _
  | cons i l ih => exact ((grow_modB _ _ _).trans (grow_modB _ _ _)).trans (ih _ _)

omit [FTrans K] in
theorem grow_rebuildObl (o : Outs K) (l : List Nat) : Grow 0 0 o (rebuildObl o l) := by
  cases l with
  | nil => exact grow_first _ _
  | cons i l => exact ((grow_first _ _).trans (grow_modB _ _ _)).trans (grow_linkObl _ _ _)

theorem sortItems_length (l : List (Item K)) : (sortItems l).length = l.length ∧ (sortItems l).countP Item.isEdge = l.countP Item.isEdge := by
  have ins : ∀ (it : Item K) (l : List (Item K)), (insertItem it l).Perm (it :: l) := by
    intro it l
    induction l with
    | nil => exact List.Perm.refl _
    | cons h t ih =>
      rw [insertItem]
      split
      · exact (List.Perm.cons _ ih).trans (List.Perm.swap _ _ _)
      · exact List.Perm.refl _
  have hp : (sortItems l).Perm l := by
    induction l with
    | nil => exact List.Perm.refl _
    | cons a l ih => exact (ins _ _).trans (List.Perm.cons _ ih)
  exact ⟨hp.length_eq, hp.countP_eq _⟩

theorem grow_updateOutput (rings : List (Ring K)) (ct : ClipType) (fr : FillRule) (y : K) (st st' : St K) (h : updateOutput rings ct fr y st = some st') (M : Nat)
    (hM : st.ael.length ≤ 2 * M) : Grow M (2 * M + st.out.bounds.length) st.out st'.out := by
  rw [updateOutput] at h
  split at h
  · simp only [Option.some.injEq] at h; subst h; exact (Grow.refl _).mono (by omega) (by omega)
  · simp only at h
    have hb := boundEdges_length rings ct fr st.ael
    generalize boundEdges rings ct fr st.ael = bes at h hb
    obtain ⟨a, h1, h2⟩ := grow_openPairs bes { st with changes := [] }
    generalize openPairs { st with changes := [] } bes = r at h h1 h2
    obtain ⟨obl, h3, h4⟩ := Option.bind_eq_some_iff.1 h
    obtain ⟨st1, h5, h6⟩ := Option.bind_eq_some_iff.1 h4
    obtain ⟨l, _, rfl⟩ := Option.map_eq_some_iff.1 h6
    have h7 := oblWalk_length _ _ _ _ h3
    obtain ⟨a', b', k1, k2, k3⟩ := grow_pairItems _ _ _ _ _ h5
    rw [(sortItems_length _).2, List.countP_append] at k2
    rw [(sortItems_length _).1, List.length_append, List.length_map] at k3
    have c1 : (r.2.map Item.edge).countP Item.isEdge ≤ r.2.length := by
      refine (List.countP_le_length).trans (by simp)
    have c2 : (obl.filterMap (fun i => (r.1.out.bounds[i]?).map (fun b => Item.bound i b.stopX))).countP Item.isEdge = 0 := by
      rw [List.countP_eq_zero]
      intro x hx
      obtain ⟨i, _, hi⟩ := List.mem_filterMap.1 hx
      obtain ⟨b, _, rfl⟩ := Option.map_eq_some_iff.1 hi
      simp [Item.isEdge]
    have c3 : (obl.filterMap (fun i => (r.1.out.bounds[i]?).map (fun b => Item.bound i b.stopX))).length ≤ obl.length := List.length_filterMap_le _ _
    have hB := h1.bounds
    have h1' : Grow a a st.out r.1.out := h1
    have hB' : r.1.out.bounds.length ≤ st.out.bounds.length + 2 * a := hB
    exact ((h1'.trans k1).trans (grow_rebuildObl _ _)).mono (by omega) (by omega)

omit [FTrans K] in
theorem grow_detach (o : Outs K) (e : Edge K) : Grow 0 0 o (detach o e) := by
  unfold detach
  split
  · exact grow_modB _ _ _
  · exact Grow.refl _

omit [FTrans K] in
theorem grow_detaches {α : Type} (l : List α) (f : Outs K → α → Outs K) (hf : ∀ o x, Grow 0 0 o (f o x)) (o : Outs K) : Grow 0 0 o (l.foldl f o) := by
  induction l generalizing o with
  | nil => exact Grow.refl _
  | cons a l ih => exact (hf o a).trans (ih _)

theorem grow_topEdge (rings : List (Ring K)) (y : K) (st : St K) (last : K) (e0 : Edge K) (r : Option (Edge K) × St K × K)
    (h : topEdge rings y st last e0 = some r) : Grow 0 1 st.out r.2.1.out ∧ r.2.1.mins = st.mins := by
  rw [topEdge] at h
  split at h
  · simp only at h
    obtain ⟨o, ho, h2⟩ := Option.bind_eq_some_iff.1 h
    have ho' : Grow 0 1 st.out o := by
      unfold appendSeg at ho
      split at ho
      · simp only [Option.some.injEq] at ho; subst ho; exact (Grow.refl _).mono (by omega) (by omega)
      · split at ho
        · simp only [Option.some.injEq] at ho
          subst ho
          exact (grow_push _ _ _).trans (grow_modB _ _ _)
        · cases ho
    obtain ⟨m, hm, h3⟩ := Option.bind_eq_some_iff.1 h2
    split at h3
    · simp only [Option.some.injEq] at h3
      subst h3
      exact ⟨ho'.trans (grow_detach _ _), rfl⟩
    · obtain ⟨e1, h4, h5⟩ := Option.bind_eq_some_iff.1 h3
      obtain ⟨⟨oe, ch⟩, h6, h7⟩ := Option.map_eq_some_iff.1 h5
      cases oe with
      | none => simp only at h7; subst h7; exact ⟨ho'.trans (grow_detach _ _), rfl⟩
      | some e2 => simp only at h7; subst h7; exact ⟨ho', rfl⟩
  · obtain ⟨s, _, h2⟩ := Option.map_eq_some_iff.1 h
    subst h2
    refine ⟨?_, rfl⟩
    simp only
    split
    · exact (grow_modB _ _ _).mono (by omega) (by omega)
    · exact (Grow.refl _).mono (by omega) (by omega)

theorem grow_topGo (rings : List (Ring K)) (y : K) (st st' : St K) (last : K) (done rest : List (Edge K)) (h : topGo rings y st last done rest = some st') :
    Grow 0 rest.length st.out st'.out ∧ st'.ael.length ≤ done.length + rest.length ∧ st'.mins = st.mins := by
  induction rest generalizing st last done with
  | nil => simp only [topGo, Option.some.injEq] at h; subst h; exact ⟨Grow.refl _, by simp, rfl⟩
  | cons e rest ih =>
    rw [topGo] at h
    obtain ⟨r, h1, h2⟩ := Option.bind_eq_some_iff.1 h
    obtain ⟨g1, g2⟩ := grow_topEdge rings y st last e r h1
    obtain ⟨k1, k2, k3⟩ := ih _ _ _ h2
    refine ⟨(g1.trans k1).mono (by omega) (by simp; omega), ?_, k3.trans g2⟩
    have : r.1.toList.length ≤ 1 := by cases r.1 <;> simp
    simp only [List.length_append, List.length_cons] at k2 ⊢
    omega

theorem grow_closeGo (y : K) (fuel : Nat) (st st' : St K) (c : Nat) (h : closeGo y fuel st c = some st') : Grow 0 fuel st.out st'.out := by
  induction fuel generalizing st c with
  | zero => simp [closeGo] at h
  | succ fuel ih =>
    rw [closeGo] at h
    obtain ⟨b, _, h2⟩ := Option.bind_eq_some_iff.1 h
    split at h2
    · simp only [Option.some.injEq] at h2; subst h2; exact (Grow.refl _).mono (by omega) (by omega)
    · obtain ⟨bn, _, h3⟩ := Option.bind_eq_some_iff.1 h2
      obtain ⟨st1, h4, h5⟩ := Option.bind_eq_some_iff.1 h3
      have g : Grow 0 1 st.out st1.out := by
        split at h4
        · rw [St.join] at h4
          obtain ⟨o, h6, rfl⟩ := Option.map_eq_some_iff.1 h4
          exact grow_join _ _ _ _ _ h6
        · simp only [Option.some.injEq] at h4; subst h4; exact (Grow.refl _).mono (by omega) (by omega)
      split at h5
      · simp only [Option.some.injEq] at h5; subst h5; exact g.mono (by omega) (by omega)
      · exact (g.trans (ih _ _ h5)).mono (by omega) (by omega)

theorem grow_closeOutput (y : K) (st st' : St K) (h : closeOutput y st = some st') : Grow 0 (st.out.bounds.length + 1) st.out st'.out := by
  rw [closeOutput] at h
  split at h
  · simp only [Option.some.injEq] at h; subst h; exact (Grow.refl _).mono (by omega) (by omega)
  · exact grow_closeGo _ _ _ _ _ h

/-- The active edges and those of the minima to come. -/
def St.load (st : St K) : Nat := st.ael.length + 2 * st.mins.length

theorem insertMins_load (rings : List (Ring K)) (y : K) (ms : List (LocMin K)) (st st' : St K) (h : insertMins rings y ms st = some st') :
    st'.load ≤ st.ael.length + 2 * ms.length ∧ st'.out = st.out := by
  induction ms generalizing st with
  | nil => simp only [insertMins, Option.some.injEq] at h; subst h; exact ⟨by simp [St.load], rfl⟩
  | cons m ms ih =>
    rw [insertMins] at h
    split at h
    · obtain ⟨st1, h1, h2⟩ := Option.bind_eq_some_iff.1 h
      rw [insertMin] at h1
      obtain ⟨ra, hra, h3⟩ := Option.bind_eq_some_iff.1 h1
      obtain ⟨rb, hrb, h4⟩ := Option.map_eq_some_iff.1 h3
      have hp : st1.ael.Perm (rb.1 :: ra.1 :: st.ael) := by
        rw [← h4]
        exact (insertAfterPrev_perm _ _ _ _).trans (List.Perm.cons _ (insertAel_perm _ _ _))
      obtain ⟨k1, k2⟩ := ih st1 h2
      have := hp.length_eq
      refine ⟨?_, by rw [k2, ← h4]⟩
      simp only [List.length_cons] at this ⊢
      omega
    · simp only [Option.some.injEq] at h; subst h; exact ⟨by simp [St.load], rfl⟩

omit [FTrans K] in
theorem Same.load {a b : St K} (h : Same a b) : b.load = a.load := by
  have := congrArg List.length h.ael
  simp only [List.length_map] at this
  rw [St.load, St.load, h.mins, this]

theorem grow_sweepA (rings : List (Ring K)) (ct : ClipType) (fr : FillRule) (y : K) (st st' : St K) (M : Nat) (hM : st.load ≤ 2 * M)
    (h : sweepA rings ct fr y st = some st') : Grow M (2 * M + st.out.bounds.length) st.out st'.out ∧ st'.load ≤ 2 * M := by
  rw [sweepA] at h
  obtain ⟨st1, h1, h2⟩ := Option.bind_eq_some_iff.1 h
  obtain ⟨g1, g2⟩ := insertMins_load rings y st.mins st st1 h1
  have hs := (recalcWind_same fr st1).load
  have hs2 := (updateOutput_same rings ct fr y _ _ h2).load
  have h3 : Grow 0 0 st1.out (recalcWind fr st1).out := grow_detaches _ _ (fun o x => by split <;> [exact grow_detach _ _; exact Grow.refl _]) _
  have h0 : st.ael.length + 2 * st.mins.length = st.load := rfl
  have h4 := grow_updateOutput rings ct fr y _ _ h2 M (by
    have : (recalcWind fr st1).ael.length ≤ (recalcWind fr st1).load := by simp [St.load]
    omega)
  rw [g2] at h3
  have := h3.bounds
  exact ⟨(h3.trans h4).mono (by omega) (by omega), by omega⟩

theorem grow_sweepB (rings : List (Ring K)) (y : K) (st st' : St K) (M : Nat) (hM : st.load ≤ 2 * M)
    (h : sweepB rings y st = some st') : Grow 0 (2 * M + st.out.bounds.length + 1) st.out st'.out ∧ st'.load ≤ 2 * M := by
  rw [sweepB] at h
  obtain ⟨st1, h1, h2⟩ := Option.bind_eq_some_iff.1 h
  obtain ⟨st2, h3, rfl⟩ := Option.map_eq_some_iff.1 h2
  rw [doTop] at h1
  obtain ⟨g1, g2, g3⟩ := grow_topGo _ _ _ _ _ _ _ h1
  have g4 := grow_closeOutput y st1 st2 h3
  have hs := (closeOutput_same y st1 st2 h3).load
  have hp := (resortAel_perm rings st2).length_eq
  simp only [List.length_map] at hp
  have g5 : Grow 0 0 st2.out (resortAel rings st2).out := grow_detaches _ _ (fun o x => grow_detach _ _) _
  have hb := g1.bounds
  have hl : st1.load ≤ st.load := by
    simp only [St.load, g3]
    simp at g2
    omega
  have ha : st.ael.length ≤ st.load := by simp [St.load]
  refine ⟨((g1.trans g4).trans g5).mono (by omega) (by simp only at hb; omega), ?_⟩
  have : (resortAel rings st2).load = st2.load := by
    simp only [St.load, hp]
    rfl
  omega

/-- The whole sweep: at most `n` rounds, each of which adds at most `M` polygons. -/
theorem grow_sweep (rings : List (Ring K)) (ct : ClipType) (fr : FillRule) (fuel : Nat) (y : K) (st st' : St K) (M n : Nat) (hn : LiveAll rings st)
    (hM : st.load ≤ 2 * M) (hp : potential rings st < n) (h : sweep rings ct fr fuel y st = some (some st')) :
    Grow (n * M) (n * (6 * M + 1 + 2 * st.out.bounds.length + 4 * M * n)) st.out st'.out := by
  induction fuel generalizing y st n with
  | zero => simp [sweep] at h
  | succ fuel ih =>
    rw [sweep] at h
    obtain ⟨st1, h1, h2⟩ := Option.bind_eq_some_iff.1 h
    obtain ⟨g1, g2⟩ := sweepA_potential_any rings ct fr y st st1 hn h1
    obtain ⟨k1, k2⟩ := grow_sweepA rings ct fr y st st1 M hM h1
    obtain ⟨m, rfl⟩ : ∃ m, n = m + 1 := ⟨n - 1, by omega⟩
    have hb := k1.bounds
    split at h2
    · simp only [Option.some.injEq] at h2
      subst h2
      refine k1.mono ?_ ?_
      · nlinarith
      · nlinarith [Nat.zero_le (m * (6 * M + 1 + 2 * st.out.bounds.length + 4 * M * (m + 1)))]
    · next y' scan' hq =>
      have hlt := popScan_shorter _ _ _ _ hq
      obtain ⟨st2, h3, h4⟩ := Option.bind_eq_some_iff.1 h2
      obtain ⟨q1, q2⟩ := sweepB_potential_any rings y' { st1 with scan := scan' } st2 ⟨g1.1, g1.2⟩ h3
      obtain ⟨k3, k4⟩ := grow_sweepB rings y' { st1 with scan := scan' } st2 M k2 h3
      have hpot : potential rings { st1 with scan := scan' } + 1 ≤ potential rings st1 := by
        unfold potential; simp only; omega
      have k5 := ih y' st2 m q1 k4 (by omega) h4
      have hb2 := k3.bounds
      have k6 : Grow M (2 * M + st.out.bounds.length + (2 * M + st1.out.bounds.length + 1)) st.out st2.out := (k1.trans k3).mono (by omega) (by simp)
      have hb3 : st2.out.bounds.length ≤ st.out.bounds.length + 2 * M := k6.bounds
      refine (k6.trans k5).mono ?_ ?_
      · nlinarith
      · have e1 : m * (6 * M + 1 + 2 * st2.out.bounds.length + 4 * M * m) ≤ m * (6 * M + 1 + 2 * (st.out.bounds.length + 2 * M) + 4 * M * m) :=
          Nat.mul_le_mul_left _ (by omega)
        nlinarith

end River
