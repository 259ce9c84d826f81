import Verif.Lemmas.Orient

/-! # Consistent direction of the result, for the stored contours and after breaking them -/

namespace River
variable {K : Type}

attribute [local instance 10000] FTrans.toFNum

/-- The winding number of one contour. -/
theorem wnR_crossing [FTrans K] [LinearOrder K] [Absc K] (X y : K) {rings : List (Ring K)} {k : Nat} {r : Ring K} (hr : rings[k]? = some r) :
    wnR k ((sides rings).filter (fun s => decide (s.Above y ∧ s.x y < X))) = (r.nodes.map (crossing X y)).sum := by
  have e : ∀ l : List (Side K), wnR k (l.filter (fun s => decide (s.Above y ∧ s.x y < X))) =
      (l.map (fun s => if s.ring = k then crossing X y ⟨s.frm, s.seg, false, false⟩ else 0)).sum := by
    intro l
    induction l with
    | nil => rfl
    | cons s l ih =>
      rw [List.map_cons, List.sum_cons, ← ih]
      unfold wnR
      rw [List.filter_cons]
      have hc : crossing X y ⟨s.frm, s.seg, false, false⟩ = if s.Above y ∧ s.x y < X then s.dx else 0 := rfl
      rw [hc]
      by_cases hA : s.Above y ∧ s.x y < X
      · rw [if_pos (by simpa using hA), List.filter_cons]
        by_cases ht : s.ring = k <;> simp [ht, hA]
      · rw [if_neg (by simpa using hA)]
        by_cases ht : s.ring = k <;> simp [ht, hA]
  rw [e]
  have node : ∀ (m : Nat) (r : Ring K), ((r.nodes.zipIdx.map (fun v => (⟨m, v.2, v.1.pt, v.1.seg, r.ptype⟩ : Side K))).map
      (fun s => if s.ring = k then crossing X y ⟨s.frm, s.seg, false, false⟩ else 0)).sum = if m = k then (r.nodes.map (crossing X y)).sum else 0 := by
    intro m r
    rw [List.map_map]
    have : ∀ (l : List (Vtx K)) (n : Nat), ((l.zipIdx n).map ((fun s : Side K => if s.ring = k then crossing X y ⟨s.frm, s.seg, false, false⟩ else 0) ∘
        (fun v : Vtx K × Nat => (⟨m, v.2, v.1.pt, v.1.seg, r.ptype⟩ : Side K)))).sum = if m = k then (l.map (crossing X y)).sum else 0 := by
      intro l
      induction l with
      | nil => intro n; simp
      | cons v l ih =>
        intro n
        rw [List.zipIdx_cons, List.map_cons, List.sum_cons, ih, List.map_cons, List.sum_cons]
        simp only [Function.comp]
        have hc : crossing X y ⟨v.pt, v.seg, false, false⟩ = crossing X y v := rfl
        rw [hc]
        by_cases ht : m = k <;> simp [ht]
    exact this r.nodes 0
  have key : ∀ (rings : List (Ring K)) (n : Nat), (((rings.zipIdx n).flatMap (fun r => r.1.nodes.zipIdx.map
      (fun v => (⟨r.2, v.2, v.1.pt, v.1.seg, r.1.ptype⟩ : Side K)))).map
      (fun s => if s.ring = k then crossing X y ⟨s.frm, s.seg, false, false⟩ else 0)).sum =
      if n ≤ k then ((rings[k - n]?).map (fun r => (r.nodes.map (crossing X y)).sum)).getD 0 else 0 := by
    intro rings
    induction rings with
    | nil => intro n; simp
    | cons r rs ih =>
      intro n
      rw [List.zipIdx_cons, List.flatMap_cons, List.map_append, List.sum_append, ih, node]
      rcases lt_trichotomy n k with h | h | h
      · rw [if_neg h.ne, if_pos (by omega), if_pos h.le, show k - n = (k - (n + 1)) + 1 by omega, List.getElem?_cons_succ, zero_add]
      · subst h
        rw [if_pos rfl, if_neg (by omega), if_pos (le_refl _), Nat.sub_self, List.getElem?_cons_zero]
        simp
      · rw [if_neg h.ne', if_neg (by omega), if_neg (by omega), zero_add]
  have := key rings 0
  rw [if_pos (Nat.zero_le k), Nat.sub_zero, hr] at this
  exact this

variable [Field K] [LinearOrder K] [FTrans K]

/-- The contours of one type have winding numbers of the sign `ε` and no overlapping sides of their own. -/
def SignedRings (rings : List (Ring K)) (t : PathType) (ε : Int) : Prop :=
  ε = 0 ∨ ∀ k r, rings[k]? = some r → r.ptype = t → ApartIn rings k ∧ ∀ X y, 0 ≤ ε * (r.nodes.map (crossing X y)).sum

/-- The condition of `Oriented` for winding numbers. -/
def OrientedW (W : PathType → K → K → Int) (ct : ClipType) (fr : FillRule) (σ : Int) : Prop :=
  ∀ X y X' y', (W .subject X' y' = W .subject X y + 1 ∧ W .clip X' y' = W .clip X y) ∨
      (W .subject X' y' = W .subject X y ∧ W .clip X' y' = W .clip X y + 1) →
    (σ = 1 → ct.op (fr.inside (W .subject X y)) (fr.inside (W .clip X y)) → ct.op (fr.inside (W .subject X' y')) (fr.inside (W .clip X' y'))) ∧
    (σ = -1 → ct.op (fr.inside (W .subject X' y')) (fr.inside (W .clip X' y')) → ct.op (fr.inside (W .subject X y)) (fr.inside (W .clip X y)))

/-- The condition of `Consistent` for contours. -/
def ConsistentR (rings : List (Ring K)) (W : PathType → K → K → Int) (ct : ClipType) (fr : FillRule) (σ : Int) : Prop :=
  (Apart rings ∧ OrientedW W ct fr σ) ∨ ∃ εs εc, SignedRings rings .subject εs ∧ SignedRings rings .clip εc ∧ Monotone εs εc ct fr σ

variable [IsStrictOrderedRing K] [LawfulOrd K] [Exact K]

theorem BrokenInto.signed {rings rings' : List (Ring K)} (B : BrokenInto rings rings') (hN : NodesOk (allNodes rings)) {t : PathType} {ε : Int}
    (h : SignedRings rings t ε) : SignedRings rings' t ε := by
  rcases h with h | h
  · exact Or.inl h
  right
  intro k r' hr' ht
  have hget : ∀ X y, ∃ r, rings[k]? = some r ∧ r'.ptype = r.ptype ∧ (r'.nodes.map (crossing X y)).sum = (r.nodes.map (crossing X y)).sum := by
    intro X y
    obtain ⟨h1, h2⟩ := List.forall₂_iff_get.1 (B.ring hN X y)
    obtain ⟨hk, e⟩ := List.getElem?_eq_some_iff.1 hr'
    have := h2 k (h1 ▸ hk) hk
    rw [List.get_eq_getElem, List.get_eq_getElem, e] at this
    exact ⟨_, List.getElem?_eq_getElem (h1 ▸ hk), this⟩
  obtain ⟨r, hr, hp, _⟩ := hget 0 0
  obtain ⟨a, b⟩ := h k r hr (hp ▸ ht)
  refine ⟨B.apartIn k a, fun X y => ?_⟩
  obtain ⟨r1, hr1, _, e⟩ := hget X y
  rw [hr] at hr1
  cases Option.some.inj hr1
  rw [e]
  exact b X y

theorem BrokenInto.consistent {rings rings' : List (Ring K)} (B : BrokenInto rings rings') (hN : NodesOk (allNodes rings)) {W : PathType → K → K → Int}
    {ct : ClipType} {fr : FillRule} {σ : Int} (h : ConsistentR rings W ct fr σ) : ConsistentR rings' W ct fr σ := by
  rcases h with ⟨h1, h2⟩ | ⟨εs, εc, h1, h2, h3⟩
  · exact Or.inl ⟨B.apart h1, h2⟩
  · exact Or.inr ⟨εs, εc, B.signed hN h1, B.signed hN h2, h3⟩

theorem ConsistentR.directed {rings : List (Ring K)} (A : Arranged rings) (hst : ∀ s ∈ sides rings, s.Straight) {W : PathType → K → K → Int}
    (hW : ∀ t X y, wnS t ((sides rings).filter (fun s => decide (s.Above y ∧ s.x y < X))) = W t X y)
    {ct : ClipType} {fr : FillRule} {σ : Int} (hσ : σ = 1 ∨ σ = -1) (h : ConsistentR rings W ct fr σ) : Directed rings ct fr σ := by
  rcases h with ⟨h1, h2⟩ | ⟨εs, εc, h1, h2, h3⟩
  · exact directed_of_points A (fun s hs t ht ls lt hne => h1.noTwin hst hs ht ls lt hne) hσ W hW h2
  · have key : ∀ {t : PathType} {ε : Int}, SignedRings rings t ε → ε = 0 ∨ ∀ k r, rings[k]? = some r → r.ptype = t →
        (∀ s ∈ sides rings, ∀ t ∈ sides rings, s.ring = k → t.ring = k → ¬ s.Flat → ¬ t.Flat → s ≠ t → ¬ Twin s t) ∧
        ∀ X y, 0 ≤ ε * wnR k ((sides rings).filter (fun u => decide (u.Above y ∧ u.x y < X))) := by
      intro t ε h
      rcases h with h | h
      · exact Or.inl h
      right
      intro k r hr ht
      obtain ⟨a, b⟩ := h k r hr ht
      refine ⟨fun s hs u hu ks ku ls lu hne htw => a s hs u hu ks ku ls hne (htw.overlap hst hs hu ls lu), fun X y => ?_⟩
      rw [wnR_crossing X y hr]
      exact b X y
    exact directed_of_signs A hσ (key h1) (key h2) h3

/-- Polygons with signs are stored as contours with signs. -/
theorem StoresAll.signed {L : List (PathType × List (Vec2 K))} {rings : List (Ring K)} (h : StoresAll L rings) {t : PathType} {ε : Int}
    (hs : ∀ p ∈ L, p.1 = t → Signed ε p.2) : SignedRings rings t ε := by
  by_cases h0 : ε = 0
  · exact Or.inl h0
  right
  intro k r hr ht
  obtain ⟨p, hp, hS⟩ := h.get hr
  obtain ⟨h1, h2⟩ := (hs p (List.mem_of_getElem? hp) (by rw [← hS.ptype]; exact ht)).resolve_left h0
  refine ⟨?_, fun X y => ?_⟩
  · have hone : StoresAll [p] [r] := List.Forall₂.cons hS .nil
    have ha : Apart [r] := hone.apart h1
    have conv : ∀ s ∈ sides rings, s.ring = k → ({ s with ring := 0 } : Side K) ∈ sides [r] := by
      intro s hs ks
      obtain ⟨r', w, g1, g2, g3, g4, g5⟩ := (mem_sides rings s).1 hs
      rw [ks, hr] at g1
      cases Option.some.inj g1
      exact (mem_sides [r] _).2 ⟨r, w, rfl, g2, g3, g4, g5⟩
    intro s hs u hu ks ku ls hne ho
    refine ha _ (conv s hs ks) _ (conv u hu ku) ls ?_ ho
    intro e
    refine hne (side_ext rings s u hs hu (ks.trans ku.symm) ?_)
    exact (Side.mk.inj e).2.1
  · rw [sum_crossing X y r.nodes (polySides p.2) hS.geo]
    have := h2 X y
    rw [polyWinding, List.flatMap_singleton] at this
    exact this

end River
