import Verif.Lemmas.DcelWf
import Verif.Props.ScanLine
import Verif.Props.Line

/-! # `process_break` runs through -/

namespace River
variable {K : Type}

/-! ## Pairs of the broad phase, in any arithmetic -/

section pairs
variable [FNum K]

theorem insertAddr_sub (addr : Nat → Nat) (i : Nat) (l : List Nat) (c : Nat) (h : c ∈ insertAddr addr i l) : c = i ∨ c ∈ l := by
  induction l with
  | nil => simpa [insertAddr] using h
  | cons a l ih =>
    unfold insertAddr at h
    split at h
    · rcases List.mem_cons.1 h with h | h
      · exact .inr (by simp [h])
      · rcases ih h with h | h
        · exact .inl h
        · exact .inr (List.mem_cons_of_mem _ h)
    · split at h
      · simpa using h
      · exact .inr h

theorem scanIns_sub (addr : Nat → Nat) (boxes : Nat → Rect K) (is : List Nat) : ∀ (cur P : List Nat), (∀ c ∈ cur, c ∈ P) → (P ++ is).Nodup →
    (∀ c ∈ (scanIns addr boxes cur is).1, c ∈ P ++ is) ∧
      ∀ c j, (c, j) ∈ (scanIns addr boxes cur is).2 → c ∈ P ++ is ∧ j ∈ P ++ is ∧ c ≠ j := by
  induction is with
  | nil => intro cur P h _; simp [scanIns]; exact h
  | cons i is ih =>
    intro cur P h hnd
    have hiP : i ∉ P := fun hi => (List.nodup_append.1 hnd).2.2 i hi i List.mem_cons_self rfl
    obtain ⟨h1, h2⟩ := ih (insertAddr addr i cur) (P ++ [i]) (by
      intro c hc
      rcases insertAddr_sub addr i cur c hc with hc | hc
      · simp [hc]
      · exact List.mem_append_left _ (h c hc)) (by simpa using hnd)
    have happ : P ++ [i] ++ is = P ++ i :: is := by simp
    rw [happ] at h1 h2
    refine ⟨h1, ?_⟩
    intro c j hc
    unfold scanIns at hc
    dsimp only at hc
    rcases List.mem_append.1 hc with hc | hc
    · obtain ⟨c', hc', he⟩ := List.mem_map.1 hc
      obtain ⟨rfl, rfl⟩ := Prod.mk.inj he
      have hcP := h c' (List.mem_filter.1 hc').1
      exact ⟨List.mem_append_left _ hcP, by simp, fun hh => hiP (hh ▸ hcP)⟩
    · exact h2 c j hc

theorem scanPoints_sub (addr : Nat → Nat) (boxes : Nat → Rect K) (pts : List (ScanPoint K)) : ∀ (cur P : List Nat), (∀ c ∈ cur, c ∈ P) →
    (P ++ pts.flatMap ScanPoint.ins).Nodup → ∀ c j, (c, j) ∈ scanPoints addr boxes cur pts →
    c ∈ P ++ pts.flatMap ScanPoint.ins ∧ j ∈ P ++ pts.flatMap ScanPoint.ins ∧ c ≠ j := by
  induction pts with
  | nil => intro cur P _ _ c j h; simp [scanPoints] at h
  | cons p ps ih =>
    intro cur P h hnd c j hc
    rw [List.flatMap_cons, ← List.append_assoc] at hnd ⊢
    obtain ⟨h1, h2⟩ := scanIns_sub addr boxes p.ins cur P h (List.nodup_append.1 hnd).1
    unfold scanPoints at hc
    dsimp only at hc
    rcases List.mem_append.1 hc with hc | hc
    · obtain ⟨k1, k2, k3⟩ := h2 c j hc
      exact ⟨List.mem_append_left _ k1, List.mem_append_left _ k2, k3⟩
    · exact ih _ _ (fun c hc => h1 c (List.mem_filter.1 hc).1) hnd c j hc

theorem touch_ins' (x : K) (i : Nat) (pts : List (ScanPoint K)) :
    ((touch x (fun p => { p with ins := p.ins ++ [i] }) pts).flatMap ScanPoint.ins).Perm
      (pts.flatMap ScanPoint.ins ++ [i]) := by
  induction pts with
  | nil => simp [touch]
  | cons p ps ih =>
    unfold touch
    split
    · simp only [List.flatMap_cons, List.append_assoc]
      exact List.Perm.append_left _ ih
    · split
      · simp only [List.flatMap_cons]
        exact List.perm_append_comm
      · simp only [List.flatMap_cons, List.append_assoc]
        exact List.Perm.append_left _ List.perm_append_comm

theorem touch_outs_ins' (x : K) (i : Nat) (pts : List (ScanPoint K)) :
    (touch x (fun p => { p with outs := p.outs ++ [i] }) pts).flatMap ScanPoint.ins = pts.flatMap ScanPoint.ins := by
  induction pts with
  | nil => simp [touch]
  | cons p ps ih =>
    unfold touch
    split
    · simp only [List.flatMap_cons, ih]
    · split <;> simp

theorem addSegments_ins (bs : List (Rect K)) : ∀ (i : Nat) (pts : List (ScanPoint K)), (pts.flatMap ScanPoint.ins).Perm (List.range i) →
    ((addSegments pts i bs).flatMap ScanPoint.ins).Perm (List.range (i + bs.length)) := by
  induction bs with
  | nil => intro i pts h; exact h
  | cons b bs ih =>
    intro i pts h
    unfold addSegments
    have := ih (i + 1) (addSegment pts i b) (by
      unfold addSegment
      rw [touch_outs_ins', List.range_succ]
      exact (touch_ins' _ _ _).trans (h.append_right _))
    rw [List.length_cons]
    rwa [show i + (bs.length + 1) = i + 1 + bs.length by omega]

/-- Whatever the arithmetic: the broad phase only pairs two different segments that were added. -/
theorem scanProcess_sub (addr : Nat → Nat) (bs : List (Rect K)) (dflt : Rect K) (i j : Nat) (h : (i, j) ∈ scanProcess addr bs dflt) :
    i < bs.length ∧ j < bs.length ∧ i ≠ j := by
  have hp := addSegments_ins bs 0 [] (by simp)
  rw [Nat.zero_add] at hp
  obtain ⟨h1, h2, h3⟩ := scanPoints_sub addr _ (addSegments [] 0 bs) [] [] (by simp) (by simpa using hp.nodup_iff.2 List.nodup_range) i j h
  rw [List.nil_append, hp.mem_iff, List.mem_range] at h1 h2
  exact ⟨h1, h2, h3⟩

theorem pairs_sub (o : DOrder K) (d : Dcel K) (ids : List Nat) (hnd : ids.Nodup) (i j : Nat) (h : (i, j) ∈ d.pairs o ids) :
    i ∈ ids ∧ j ∈ ids ∧ i ≠ j := by
  unfold Dcel.pairs at h
  dsimp only at h
  obtain ⟨⟨a, b⟩, hc, he⟩ := List.mem_map.1 h
  obtain ⟨rfl, rfl⟩ := Prod.mk.inj he
  obtain ⟨h1, h2, h3⟩ := scanProcess_sub _ _ _ a b hc
  rw [List.length_map] at h1 h2
  dsimp only
  have g1 : ids.getD a 0 = ids[a] := by rw [List.getD_eq_getElem?_getD, List.getElem?_eq_getElem h1]; rfl
  have g2 : ids.getD b 0 = ids[b] := by rw [List.getD_eq_getElem?_getD, List.getElem?_eq_getElem h2]; rfl
  rw [g1, g2]
  exact ⟨List.getElem_mem _, List.getElem_mem _, fun hh => h3 ((List.Nodup.getElem_inj_iff hnd).1 hh)⟩

/-! ## Recording break points -/

theorem addBreaks_ends (d : Dcel K) (k : Nat) (bs : List (Vec2 K)) (i : Nat) : (d.addBreaks k bs).ends i = d.ends i := by
  unfold Dcel.ends Dcel.addBreaks
  dsimp only
  rw [getElem?_modify_map]
  split
  · cases h : d.edges[i]? with
    | none => rfl
    | some o => cases o <;> rfl
  · rfl

theorem addBreaks_live (d : Dcel K) (k : Nat) (bs : List (Vec2 K)) : (d.addBreaks k bs).live = d.live := by
  unfold Dcel.live Dcel.addBreaks
  dsimp only
  rw [List.length_modify]
  apply List.filter_congr
  intro i _
  rw [getElem?_modify_map]
  split
  · cases h : d.edges[i]? with
    | none => rfl
    | some o => cases o <;> rfl
  · rfl

/-- The two-element result of the line intersection holds the result for every pair of half edges. -/
def Dcel.Fits (d : Dcel K) : Prop := ∀ i j p0 p1 p2 p3, i ≠ j → d.ends i = some (p0, p1) → d.ends j = some (p2, p3) →
  (lineIntersect p0 p1 p2 p3).isSome = true

omit [FNum K] in
theorem ends_of_live {d : Dcel K} (h : d.Wf) {i : Nat} (hi : i ∈ d.live) : ∃ s f, d.ends i = some (s, f) := by
  unfold Dcel.live at hi
  obtain ⟨_, hi⟩ := List.mem_filter.1 hi
  rw [Option.isSome_iff_exists] at hi
  obtain ⟨e, he⟩ := hi
  have he := Option.join_eq_some_iff.1 he
  obtain ⟨h1, h2⟩ := h.ends i e he
  refine ⟨d.points[e.start].p, d.points[e.fin].p, ?_⟩
  unfold Dcel.ends
  rw [he]
  simp [List.getElem?_eq_getElem h1, List.getElem?_eq_getElem h2]

theorem meet_defined {d : Dcel K} (h : d.Wf) (hf : d.Fits) {i j : Nat} (hi : i ∈ d.live) (hj : j ∈ d.live) (hij : i ≠ j) :
    ∃ d', d.meet i j = some d' ∧ d'.live = d.live ∧ (∀ k, d'.ends k = d.ends k) := by
  obtain ⟨p0, p1, h1⟩ := ends_of_live h hi
  obtain ⟨p2, p3, h2⟩ := ends_of_live h hj
  obtain ⟨res, hr⟩ := Option.isSome_iff_exists.1 (hf i j p0 p1 p2 p3 hij h1 h2)
  have hd : ∃ bl br, dcelIntersect p0 p1 p2 p3 = some (bl, br) := by
    unfold dcelIntersect
    rw [hr]
    simp only [Option.bind_eq_bind, Option.bind_some]
    split
    · exact ⟨_, _, rfl⟩
    · split <;> exact ⟨_, _, rfl⟩
  obtain ⟨bl, br, hd⟩ := hd
  refine ⟨(d.addBreaks j br).addBreaks i bl, ?_, ?_, ?_⟩
  · unfold Dcel.meet
    rw [h1, h2]
    simp only [Option.bind_eq_bind, Option.bind_some, hd]
  · rw [addBreaks_live, addBreaks_live]
  · intro k; rw [addBreaks_ends, addBreaks_ends]

theorem meetAll_defined (cs : List (Nat × Nat)) : ∀ {d : Dcel K}, d.Wf → d.Fits → (∀ c ∈ cs, c.1 ∈ d.live ∧ c.2 ∈ d.live ∧ c.1 ≠ c.2) →
    ∃ d', d.meetAll cs = some d' ∧ d'.live = d.live := by
  induction cs with
  | nil => intro d _ _ _; exact ⟨d, rfl, rfl⟩
  | cons c cs ih =>
    intro d h hf hc
    obtain ⟨c1, c2, c3⟩ := hc c List.mem_cons_self
    obtain ⟨d1, h1, h2, h3⟩ := meet_defined h hf c1 c2 c3
    obtain ⟨d2, k1, k2⟩ := ih (h.meet _ _ h1) (by
      intro i j p0 p1 p2 p3 hij hi hj
      rw [h3] at hi hj
      exact hf i j p0 p1 p2 p3 hij hi hj) (by
      intro c' hc'
      rw [h2]
      exact hc c' (List.mem_cons_of_mem _ hc'))
    refine ⟨d2, ?_, k2.trans h2⟩
    rw [Dcel.meetAll, h1]
    exact k1

/-! ## Breaking -/

theorem breakOne_defined {sort : Vec2 K → Vec2 K → List (Vec2 K) → List (Vec2 K)} {d : Dcel K} (h : d.Wf) {id : Nat}
    (hid : ∃ e, d.edges[id]? = some (some e)) : ∃ d', d.breakOne sort id = some d' ∧
      ∀ j : Nat, j ≠ id → (∃ e, d.edges[j]? = some (some e)) → ∃ e, d'.edges[j]? = some (some e) := by
  obtain ⟨e, he⟩ := hid
  obtain ⟨h1, h2⟩ := h.ends id e he
  unfold Dcel.breakOne
  rw [he]
  simp only [Option.bind_eq_bind, Option.bind_some, List.getElem?_eq_getElem h1, List.getElem?_eq_getElem h2]
  unfold Dcel.breakEdge
  split
  · simp only [List.isEmpty_nil, if_true]
    exact ⟨d, rfl, fun _ _ hj => hj⟩
  · obtain ⟨_, _, c3⟩ := Dcel.Wf.chain (sort d.points[e.start].p d.points[e.fin].p e.breaks) h e.start e.fin h1 h2
    have hk : ∀ j : Nat, (∃ e, d.edges[j]? = some (some e)) →
        ∃ e', (d.chain e.start e.fin (sort d.points[e.start].p d.points[e.fin].p e.breaks)).1.edges[j]? = some (some e') := by
      rintro j ⟨ej, hj⟩
      obtain ⟨t, ht⟩ := c3
      refine ⟨ej, ?_⟩
      rw [← ht, List.getElem?_append_left (List.getElem?_eq_some_iff.1 hj).1]
      exact hj
    split
    · exact ⟨_, rfl, fun j _ hj => hk j hj⟩
    · refine ⟨_, rfl, ?_⟩
      intro j hne hj
      dsimp only
      rw [List.getElem?_set_ne (fun hh => hne hh.symm)]
      exact hk j hj

theorem breakAll_defined {sort : Vec2 K → Vec2 K → List (Vec2 K) → List (Vec2 K)} (ids : List Nat) : ∀ {d : Dcel K}, d.Wf → ids.Nodup →
    (∀ i ∈ ids, ∃ e, d.edges[i]? = some (some e)) → ∃ d', d.breakAll sort ids = some d' := by
  induction ids with
  | nil => intro d _ _ _; exact ⟨d, rfl⟩
  | cons id ids ih =>
    intro d h hnd hi
    obtain ⟨n1, n2⟩ := List.nodup_cons.1 hnd
    obtain ⟨d1, h1, h2⟩ := breakOne_defined (sort := sort) h (hi id List.mem_cons_self)
    obtain ⟨d2, k⟩ := ih (h.breakOne id h1) n2 (fun j hj => h2 j (fun hh => n1 (hh ▸ hj)) (hi j (List.mem_cons_of_mem _ hj)))
    refine ⟨d2, ?_⟩
    rw [Dcel.breakAll, h1]
    exact k

end pairs

end River
