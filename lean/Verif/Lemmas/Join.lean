import Verif.Lemmas.PolyInv2

/-! # `join_output` and `delete_obl_bound`: what they leave alone -/

namespace River
variable {K : Type}

/-- Two bounds that differ at most in their links. -/
structure SameB (b b' : Bound K) : Prop where
  owner : b'.owner = b.owner
  currEdge : b'.currEdge = b.currEdge
  stopX : b'.stopX = b.stopX
  windDx : b'.windDx = b.windDx

/-- Two output states that differ at most in the links. -/
structure SameO (o o' : Outs K) : Prop where
  polys : o'.polys = o.polys
  len : o'.bounds.length = o.bounds.length
  bounds : ∀ (a : Nat) (b : Bound K), o.bounds[a]? = some b → ∃ b', o'.bounds[a]? = some b' ∧ SameB b b'

theorem SameO.refl (o : Outs K) : SameO o o := ⟨rfl, rfl, fun _ b h => ⟨b, h, rfl, rfl, rfl, rfl⟩⟩

theorem SameO.trans {o o' o'' : Outs K} (h : SameO o o') (g : SameO o' o'') : SameO o o'' := by
  refine ⟨g.polys.trans h.polys, g.len.trans h.len, fun a b hb => ?_⟩
  obtain ⟨b', h1, h2⟩ := h.bounds a b hb
  obtain ⟨b'', g1, g2⟩ := g.bounds a b' h1
  exact ⟨b'', g1, g2.owner.trans h2.owner, g2.currEdge.trans h2.currEdge, g2.stopX.trans h2.stopX, g2.windDx.trans h2.windDx⟩

theorem sameO_modB (o : Outs K) (i : Nat) (f : Bound K → Bound K) (hf : ∀ b, SameB b (f b)) : SameO o (o.modB i f) := by
  refine ⟨rfl, River.Links.modB_length o i f, fun a b hb => ?_⟩
  rw [getB_modB, hb]
  by_cases h : i = a
  · rw [if_pos h]; exact ⟨f b, rfl, hf b⟩
  · rw [if_neg h]; exact ⟨b, rfl, rfl, rfl, rfl, rfl⟩

theorem deleteObl_sameO (o : Outs K) (b : Nat) : SameO o (o.deleteObl b) := by
  rw [Outs.deleteObl]
  cases hb : o.bounds[b]? with
  | none => exact SameO.refl o
  | some bb =>
    simp only
    have h1 : SameO o (match bb.prev with
        | some p => o.modB p (fun x => { x with next := bb.next })
        | none => { o with oblFirst := bb.next }) := by
      cases bb.prev with
      | none => exact ⟨rfl, rfl, fun _ b h => ⟨b, h, rfl, rfl, rfl, rfl⟩⟩
      | some p => exact sameO_modB o p _ (fun b => ⟨rfl, rfl, rfl, rfl⟩)
    cases hn : bb.next with
    | none => rw [hn] at h1; exact h1
    | some n =>
      rw [hn] at h1
      exact h1.trans (sameO_modB _ n (fun x => { x with prev := bb.prev }) (fun b => ⟨rfl, rfl, rfl, rfl⟩))

theorem PolyInv.sameO {o o' : Outs K} {act : Set Nat} {tip : Nat → Vec2 K} {em : Multiset (Piece K)} (h : PolyInv o act tip em)
    (g : SameO o o') : PolyInv o' act tip em :=
  h.congr g.polys (fun i _ b hb => by
    obtain ⟨b', h1, h2⟩ := g.bounds i b hb
    exact ⟨b', h1, h2.owner, h2.windDx⟩) (fun _ _ => rfl)

theorem links_congr {o o' : Outs K} (h1 : o'.oblFirst = o.oblFirst)
    (h2 : ∀ a : Nat, (o'.bounds[a]?).map (fun b => (b.prev, b.next)) = (o.bounds[a]?).map (fun b => (b.prev, b.next))) :
    o'.links = o.links := by
  have e1 : o'.links.prev = o.links.prev := by
    funext a
    have := h2 a
    simp only [Outs.links]
    cases hx : o'.bounds[a]? <;> cases hy : o.bounds[a]? <;> rw [hx, hy] at this <;> simp_all
  have e2 : o'.links.next = o.links.next := by
    funext a
    have := h2 a
    simp only [Outs.links]
    cases hx : o'.bounds[a]? <;> cases hy : o.bounds[a]? <;> rw [hx, hy] at this <;> simp_all
  have e3 : o'.links.head = o.links.head := h1
  cases hl : o'.links with
  | mk hd p n =>
    cases hl' : o.links with
    | mk hd' p' n' =>
      rw [hl, hl'] at e1 e2 e3
      simp only at e1 e2 e3
      rw [e1, e2, e3]

theorem links_modB_same (o : Outs K) (i : Nat) (f : Bound K → Bound K) (hf : ∀ b, (f b).prev = b.prev ∧ (f b).next = b.next) :
    (o.modB i f).links = o.links := by
  refine links_congr rfl (fun a => ?_)
  rw [getB_modB]
  by_cases h : i = a
  · rw [if_pos h, Option.map_map]
    cases o.bounds[a]? with
    | none => rfl
    | some b => simp [(hf b).1, (hf b).2]
  · rw [if_neg h]

/-- `delete_obl_bound` changes only the links of members of the list. -/
theorem deleteObl_next (o : Outs K) (p q : List Nat) (b : Nat) (hr : o.links.Represents (p ++ b :: q)) (a : Nat)
    (ha : a ∉ p ++ b :: q) : (o.deleteObl b).links.next a = o.links.next a := by
  obtain ⟨_, _, hc⟩ := (Links.represents_iff ..).1 hr
  obtain ⟨hnx, hpv⟩ := Links.chainE_next hc
  rw [Option.or_none] at hnx hpv
  rw [Outs.deleteObl]
  cases hb : o.bounds[b]? with
  | none => rfl
  | some bb =>
    simp only
    have hnx' : bb.next = q.head? := by rw [← hnx]; simp [Outs.links, hb]
    have hpv' : bb.prev = p.getLast? := by rw [← hpv]; simp [Outs.links, hb]
    have hmod : ∀ (o' : Outs K) (i : Nat) (f : Bound K → Bound K), i ≠ a → (o'.modB i f).links.next a = o'.links.next a := by
      intro o' i f hi
      rw [(Links.links_modB o' i f a).2, if_neg hi]
    have hq : ∀ n, bb.next = some n → n ≠ a := by
      rintro n hn rfl
      rw [hnx'] at hn
      exact ha (List.mem_append_right _ (List.mem_cons_of_mem _ (List.mem_of_mem_head? hn)))
    have hp : ∀ n, bb.prev = some n → n ≠ a := by
      rintro n hn rfl
      rw [hpv'] at hn
      exact ha (List.mem_append_left _ (List.mem_of_getLast? hn))
    have h1 : (match bb.prev with
        | some p => o.modB p (fun x => { x with next := bb.next })
        | none => { o with oblFirst := bb.next }).links.next a = o.links.next a := by
      cases hpp : bb.prev with
      | none => rfl
      | some z => exact hmod o z _ (hp z hpp)
    cases hnn : bb.next with
    | none => rw [hnn] at h1; exact h1
    | some n => rw [hnn] at h1; exact (hmod _ n _ (hq n hnn)).trans h1

/-- **`join_output`** for two neighbouring bounds: it is defined, connects them by a straight piece if they have not met, accounts for everything written, takes the
two bounds out of the list and out of the set of active bounds, and changes no other bound. -/
theorem Outs.join_spec [FNum K] [LinearOrder K] [LawfulOrd K] {o : Outs K} {act : Set Nat} {tip : Nat → Vec2 K} {em : Multiset (Piece K)}
    (h : PolyInv o act tip em) {i j : Nat} (hij : i ≠ j) (hi : i ∈ act) (hj : j ∈ act) {a b : Bound K} (ha : o.bounds[i]? = some a)
    (hb : o.bounds[j]? = some b) (hdir : a.isUp = !b.isUp) (y : K) (ht1 : a.stopX = b.stopX → tip i = tip j)
    (ht2 : a.stopX ≠ b.stopX → tip i = ⟨a.stopX, y⟩ ∧ tip j = ⟨b.stopX, y⟩) (p q : List Nat)
    (hr : o.links.Represents (p ++ i :: j :: q)) (hlt : ∀ k ∈ p ++ i :: j :: q, k < o.bounds.length) :
    ∃ o', o.join i j y = some o' ∧
      PolyInv o' (act \ {i, j}) tip (em + if a.isUp then conn (tip i) (tip j) else conn (tip j) (tip i)) ∧ o'.links.Represents (p ++ q) ∧
      o'.bounds.length = o.bounds.length ∧
      (∀ (k : Nat) c, o.bounds[k]? = some c → ∃ c', o'.bounds[k]? = some c' ∧ c'.windDx = c.windDx ∧ c'.stopX = c.stopX ∧
        c'.currEdge = if k = i ∨ k = j then none else c.currEdge) ∧
      (∀ k, k ∉ p ++ i :: j :: q → o'.links.next k = o.links.next k) := by
  -- the two current edges are forgotten
  obtain ⟨o0, ho0⟩ : ∃ o0, o0 = (o.modB i (fun x => { x with currEdge := none })).modB j (fun x => { x with currEdge := none }) := ⟨_, rfl⟩
  have hB0 : ∀ (k : Nat) c, o.bounds[k]? = some c → o0.bounds[k]? = some { c with currEdge := if k = i ∨ k = j then none else c.currEdge } := by
    intro k c hc
    rw [ho0, getB_modB, getB_modB, hc]
    by_cases h1 : i = k <;> by_cases h2 : j = k
    · exact absurd (h1.trans h2.symm) hij
    · simp [h1, h2]
    · simp [h1, h2]
    · have h1' : ¬ k = i := fun h => h1 h.symm
      have h2' : ¬ k = j := fun h => h2 h.symm
      simp [h1, h2, h1', h2']
  have hl0 : o0.links = o.links := by
    rw [ho0, links_modB_same _ j (fun x => { x with currEdge := none }) (fun b => ⟨rfl, rfl⟩),
      links_modB_same _ i (fun x => { x with currEdge := none }) (fun b => ⟨rfl, rfl⟩)]
  have hlen0 : o0.bounds.length = o.bounds.length := by rw [ho0, Links.modB_length, Links.modB_length]
  have hinv0 : PolyInv o0 act tip em :=
    h.congr (by rw [ho0]; rfl) (fun k _ c hc => ⟨_, hB0 k c hc, rfl, rfl⟩) (fun _ _ => rfl)
  have hai := hB0 i a ha
  have hbj := hB0 j b hb
  rw [if_pos (Or.inl rfl)] at hai
  rw [if_pos (Or.inr rfl)] at hbj
  -- the connecting piece
  obtain ⟨em', hem⟩ : ∃ em', em' = em + if a.isUp then conn (tip i) (tip j) else conn (tip j) (tip i) := ⟨_, rfl⟩
  rw [← hem]
  obtain ⟨o1, ho1, hob1, hof1, hinv1⟩ : ∃ o1 : Outs K, o1 = (if a.stopX ==. b.stopX then o0
      else if a.isUp then o0.push { a with currEdge := none } (Seg.line ⟨b.stopX, y⟩) else o0.push { a with currEdge := none } (Seg.line ⟨a.stopX, y⟩)) ∧
      o1.bounds = o0.bounds ∧ o1.oblFirst = o0.oblFirst ∧ PolyInv o1 act (Function.update tip i (tip j)) em' := by
    by_cases hx : a.stopX = b.stopX
    · refine ⟨o0, by rw [if_pos ((LawfulOrd.eq_iff _ _).2 hx)], rfl, rfl, ?_⟩
      have hz : em' = em := by
        rw [hem, ht1 hx, conn_self]; simp
      rw [hz, ← ht1 hx, Function.update_eq_self]; exact hinv0
    · obtain ⟨t1, t2⟩ := ht2 hx
      have hne : tip i ≠ tip j := by
        rw [t1, t2]; intro hc; exact hx (congrArg Vec2.x hc)
      have hxb : ¬ (a.stopX ==. b.stopX) = true := by rw [LawfulOrd.eq_iff]; exact hx
      rw [if_neg hxb]
      cases hu : a.isUp with
      | true =>
        refine ⟨_, rfl, rfl, rfl, ?_⟩
        rw [hu, if_pos rfl, conn_ne hne] at hem
        rw [if_pos rfl, hem]
        have := hinv0.push hi hai (tip i) (.line ⟨b.stopX, y⟩) (tip j) (fun _ => ⟨rfl, t2⟩) (fun hc => by
          rw [show Bound.isUp { a with currEdge := none } = a.isUp from rfl, hu] at hc; cases hc)
        rw [t2] at this ⊢; exact this
      | false =>
        refine ⟨_, rfl, rfl, rfl, ?_⟩
        rw [hu, if_neg (by simp), conn_ne (Ne.symm hne)] at hem
        rw [if_neg (by simp), hem]
        have := hinv0.push hi hai (tip j) (.line ⟨a.stopX, y⟩) (tip j) (fun hc => by
          rw [show Bound.isUp { a with currEdge := none } = a.isUp from rfl, hu] at hc; cases hc) (fun _ => ⟨t1.symm, rfl⟩)
        rw [t1]; exact this
  have ht : Function.update tip i (tip j) i = Function.update tip i (tip j) j := by
    rw [Function.update_self, Function.update_of_ne (Ne.symm hij)]
  have hback : ∀ o', PolyInv o' (act \ {i, j}) (Function.update tip i (tip j)) em' → PolyInv o' (act \ {i, j}) tip em' := by
    intro o' ho'
    refine ho'.congr rfl (fun k _ c hc => ⟨c, hc, rfl, rfl⟩) (fun k hk => ?_)
    rw [Function.update_of_ne (fun hc => hk.2 (Or.inl hc))]
  rw [← hob1] at hai hbj
  have hl1 : o1.links = o0.links := links_congr hof1 (fun k => by rw [hob1])
  -- completing or merging
  obtain ⟨o2, hst, hinv2, hB2, hl2, hlen2⟩ : ∃ o2,
      o.join i j y = some ((o2.deleteObl i).deleteObl j) ∧ PolyInv o2 (act \ {i, j}) tip em' ∧
      (∀ (k : Nat) c, o0.bounds[k]? = some c → ∃ c', o2.bounds[k]? = some c' ∧ c'.windDx = c.windDx ∧ c'.stopX = c.stopX ∧ c'.currEdge = c.currEdge) ∧
      o2.links = o0.links ∧ o2.bounds.length = o0.bounds.length := by
    have hjoin : o.join i j y = (if a.owner = b.owner then
        some (((o1.modP a.owner (fun p => { p with complete := true })).deleteObl i).deleteObl j)
      else
        (if b.owner < a.owner then o1.merge b.isUp b.owner a.owner else o1.merge a.isUp a.owner b.owner).map
          (fun o2 => (o2.deleteObl i).deleteObl j)) := by
      rw [Outs.join]
      simp only [← ho0]
      rw [← hob1, hai, hbj]
      simp only
      rw [show (Bound.isUp { a with currEdge := none }) = a.isUp from rfl, ← ho1]
      rfl
    have hmod : ∀ w : Nat, ∀ d, ∀ o' : Outs K, o'.bounds = o1.bounds.modify w (fun b' => { b' with owner := d }) → o'.oblFirst = o1.oblFirst →
        (∀ (k : Nat) c, o0.bounds[k]? = some c → ∃ c', o'.bounds[k]? = some c' ∧ c'.windDx = c.windDx ∧ c'.stopX = c.stopX ∧ c'.currEdge = c.currEdge) ∧
        o'.links = o0.links ∧ o'.bounds.length = o0.bounds.length := by
      intro w d o' h1 h2
      rw [hob1] at h1
      rw [hof1] at h2
      have hg : ∀ k : Nat, o'.bounds[k]? = if w = k then (o0.bounds[k]?).map (fun b' => { b' with owner := d }) else o0.bounds[k]? := by
        intro k; rw [h1]; exact getB_modB o0 w k _
      refine ⟨?_, ?_, by rw [h1]; simp⟩
      · intro k c hc
        rw [hg, hc]
        by_cases hw : w = k
        · rw [if_pos hw]; exact ⟨_, rfl, rfl, rfl, rfl⟩
        · rw [if_neg hw]; exact ⟨_, rfl, rfl, rfl, rfl⟩
      · refine links_congr h2 (fun k => ?_)
        rw [hg]
        by_cases hw : w = k
        · rw [if_pos hw]; cases o0.bounds[k]? <;> rfl
        · rw [if_neg hw]
    rw [hjoin]
    by_cases ho : a.owner = b.owner
    · rw [if_pos ho]
      have hc := hinv1.complete hi hj hai hbj hdir ho ht
      refine ⟨_, rfl, hback _ hc, fun k c hc => ⟨c, by rw [← hob1] at hc; exact hc, rfl, rfl, rfl⟩, hl1, by rw [← hob1]; rfl⟩
    · rw [if_neg ho]
      by_cases hlt' : b.owner < a.owner
      · rw [if_pos hlt']
        obtain ⟨o', m1, m2, ⟨w, _, m3⟩, m4⟩ := hinv1.merge hj hi hbj hai (by
          show b.isUp = !a.isUp
          rw [hdir]; simp) (Ne.symm ho) ht.symm
        obtain ⟨n1, n2, n3⟩ := hmod w _ o' m3 m4
        refine ⟨o', by rw [show Bound.isUp { b with currEdge := none } = b.isUp from rfl] at m1; rw [m1]; rfl, ?_, n1, n2, n3⟩
        rw [show ({i, j} : Set Nat) = {j, i} from Set.pair_comm i j] at hback ⊢; exact hback _ m2
      · rw [if_neg hlt']
        obtain ⟨o', m1, m2, ⟨w, _, m3⟩, m4⟩ := hinv1.merge hi hj hai hbj hdir ho ht
        obtain ⟨n1, n2, n3⟩ := hmod w _ o' m3 m4
        exact ⟨o', by rw [show Bound.isUp { a with currEdge := none } = a.isUp from rfl] at m1; rw [m1]; rfl, hback _ m2, n1, n2, n3⟩
  have hr2 : o2.links.Represents (p ++ i :: j :: q) := by rw [hl2, hl0]; exact hr
  have hlt2 : ∀ k ∈ p ++ i :: j :: q, k < o2.bounds.length := by rw [hlen2, hlen0]; exact hlt
  have s1 := deleteObl_sameO o2 i
  have s2 := deleteObl_sameO (o2.deleteObl i) j
  have hr3 := Links.deleteObl_spec o2 p (j :: q) i hr2 hlt2
  have hlt3 : ∀ k ∈ p ++ j :: q, k < (o2.deleteObl i).bounds.length := by
    rw [s1.len]
    intro k hk
    refine hlt2 k ?_
    simp only [List.mem_append, List.mem_cons] at hk ⊢
    tauto
  refine ⟨_, hst, (hinv2.sameO s1).sameO s2, Links.deleteObl_spec _ p q j hr3 hlt3, ?_, ?_, ?_⟩
  · rw [s2.len, s1.len, hlen2, hlen0]
  · intro k c hc
    obtain ⟨c2, t1, t2, t3, t4⟩ := hB2 k _ (hB0 k c hc)
    obtain ⟨c3, u1, u2⟩ := s1.bounds k c2 t1
    obtain ⟨c4, v1, v2⟩ := s2.bounds k c3 u1
    exact ⟨c4, v1, by rw [v2.windDx, u2.windDx, t2], by rw [v2.stopX, u2.stopX, t3], by rw [v2.currEdge, u2.currEdge, t4]⟩
  · intro k hk
    rw [deleteObl_next _ p q j hr3 k (by
      simp only [List.mem_append, List.mem_cons, not_or] at hk ⊢; tauto), deleteObl_next o2 p (j :: q) i hr2 k hk, hl2, hl0]

/-- **`update_bound`**: the bound continues along the edge, after a straight piece if it has not reached its lower end. -/
theorem Outs.updateBound_spec [FNum K] [LinearOrder K] [LawfulOrd K] {o : Outs K} {act : Set Nat} {tip : Nat → Vec2 K} {em : Multiset (Piece K)}
    (h : PolyInv o act tip em) {i : Nat} (hi : i ∈ act) {b : Bound K} (hb : o.bounds[i]? = some b) (e : Edge K)
    (ht1 : e.currX = b.stopX → tip i = e.bot) (ht2 : e.currX ≠ b.stopX → tip i = ⟨b.stopX, e.bot.y⟩ ∧ e.bot = ⟨e.currX, e.bot.y⟩) :
    ∃ o', o.updateBound i e = some o' ∧
      PolyInv o' act (Function.update tip i e.bot) (em + if b.isUp then conn (tip i) e.bot else conn e.bot (tip i)) ∧ o'.links = o.links ∧
      ∀ k : Nat, o'.bounds[k]? = if i = k then (o.bounds[k]?).map (fun x => { x with currEdge := some e.eid }) else o.bounds[k]? := by
  obtain ⟨em', hem⟩ : ∃ em', em' = em + if b.isUp then conn (tip i) e.bot else conn e.bot (tip i) := ⟨_, rfl⟩
  rw [← hem]
  obtain ⟨o1, ho1, hob1, hof1, hinv1⟩ : ∃ o1 : Outs K, o1 = (if e.currX ==. b.stopX then o
      else if b.isUp then o.push b (Seg.line e.bot) else o.push b (Seg.line ⟨b.stopX, e.bot.y⟩)) ∧
      o1.bounds = o.bounds ∧ o1.oblFirst = o.oblFirst ∧ PolyInv o1 act (Function.update tip i e.bot) em' := by
    by_cases hx : e.currX = b.stopX
    · refine ⟨o, by rw [if_pos ((LawfulOrd.eq_iff _ _).2 hx)], rfl, rfl, ?_⟩
      have hz : em' = em := by
        rw [hem, ht1 hx, conn_self]; simp
      rw [hz, ← ht1 hx, Function.update_eq_self]; exact h
    · obtain ⟨t1, t2⟩ := ht2 hx
      have hne : tip i ≠ e.bot := by
        rw [t1, t2]; intro hc; exact hx (congrArg Vec2.x hc).symm
      have hxb : ¬ (e.currX ==. b.stopX) = true := by rw [LawfulOrd.eq_iff]; exact hx
      rw [if_neg hxb]
      cases hu : b.isUp with
      | true =>
        refine ⟨_, rfl, rfl, rfl, ?_⟩
        rw [hu, if_pos rfl, conn_ne hne] at hem
        rw [if_pos rfl, hem]
        exact h.push hi hb (tip i) (.line e.bot) e.bot (fun _ => ⟨rfl, rfl⟩) (fun hc => by rw [hu] at hc; cases hc)
      | false =>
        refine ⟨_, rfl, rfl, rfl, ?_⟩
        rw [hu, if_neg (by simp), conn_ne (Ne.symm hne)] at hem
        rw [if_neg (by simp), hem]
        have := h.push hi hb e.bot (.line ⟨b.stopX, e.bot.y⟩) e.bot (fun hc => by rw [hu] at hc; cases hc) (fun _ => ⟨t1.symm, rfl⟩)
        rw [t1]; exact this
  refine ⟨o1.modB i (fun x => { x with currEdge := some e.eid }), ?_, ?_, ?_, ?_⟩
  · rw [Outs.updateBound, hb]
    simp only
    rw [← ho1]
  · refine hinv1.congr rfl (fun k _ c hc => ?_) (fun _ _ => rfl)
    rw [getB_modB, hc]
    by_cases hk : i = k
    · rw [if_pos hk]; exact ⟨_, rfl, rfl, rfl⟩
    · rw [if_neg hk]; exact ⟨_, rfl, rfl, rfl⟩
  · rw [links_modB_same o1 i (fun x => { x with currEdge := some e.eid }) (fun _ => ⟨rfl, rfl⟩)]
    exact links_congr hof1 (fun k => by rw [hob1])
  · intro k
    rw [getB_modB, hob1]

end River
