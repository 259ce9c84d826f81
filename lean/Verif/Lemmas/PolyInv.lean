import Verif.Model.Output
import Mathlib.Algebra.BigOperators.Group.Finset.Basic
import Mathlib.Algebra.Order.Group.Multiset
import Mathlib.Data.Set.Basic

/-! # The invariant of unfinished and finished output polygons

Every unfinished polygon has two active bounds; its two partial paths lead from its origin to the points reached by the
bounds (the down path backwards). Everything written so far is accounted for. -/

namespace River
variable {K : Type}

/-- A directed piece: start point and segment. -/
abbrev Piece (K : Type) := Vec2 K × Seg K

/-- The pieces follow each other from `p` to `q`. -/
def PChain : Vec2 K → List (Piece K) → Vec2 K → Prop
  | p, [], q => p = q
  | p, a :: l, q => a.1 = p ∧ PChain a.2.target l q

theorem pchain_append (p q : Vec2 K) (a b : List (Piece K)) : PChain p (a ++ b) q ↔ ∃ r, PChain p a r ∧ PChain r b q := by
  induction a generalizing p with
  | nil => simp [PChain]
  | cons c a ih =>
    simp only [List.cons_append, PChain, ih]
    constructor
    · rintro ⟨h1, r, h2, h3⟩; exact ⟨r, ⟨h1, h2⟩, h3⟩
    · rintro ⟨r, ⟨h1, h2⟩, h3⟩; exact ⟨h1, r, h2, h3⟩

/-- The pieces of the two paths of a polygon. -/
abbrev Ghost (K : Type) := List (Piece K) × List (Piece K)

/-- All pieces of a polygon. -/
def Ghost.all (g : Ghost K) : Multiset (Piece K) := ((g.1 ++ g.2 : List (Piece K)) : Multiset (Piece K))

/-- Polygon number `k`. -/
structure PolyOk (o : Outs K) (act : Set Nat) (tip : Nat → Vec2 K) (g : Ghost K) (k : Nat) (p : Poly K) : Prop where
  up : p.upPath = g.1.map Prod.snd
  down : p.downPath = g.2.map Prod.snd
  done : p.complete = true → PChain p.origin (g.1 ++ g.2.reverse) p.origin
  bounds : p.complete = false → ∃ u d bu bd, p.upBound = some u ∧ p.downBound = some d ∧ u ∈ act ∧ d ∈ act ∧
    o.bounds[u]? = some bu ∧ bu.owner = k ∧ bu.isUp = true ∧ o.bounds[d]? = some bd ∧ bd.owner = k ∧ bd.isUp = false ∧
    PChain p.origin g.1 (tip u) ∧ PChain (tip d) g.2.reverse p.origin

/-- An active bound. -/
def ActOk (o : Outs K) (i : Nat) : Prop :=
  ∃ b p, o.bounds[i]? = some b ∧ o.polys[b.owner]? = some p ∧ p.complete = false ∧
    (b.isUp = true → p.upBound = some i) ∧ (b.isUp = false → p.downBound = some i)

/-- The invariant: `act` are the active bounds, `tip` the points they have reached, `em` all pieces written. -/
structure PolyInv (o : Outs K) (act : Set Nat) (tip : Nat → Vec2 K) (em : Multiset (Piece K)) : Prop where
  ex : ∃ G : Nat → Ghost K, (∀ k p, o.polys[k]? = some p → PolyOk o act tip (G k) k p) ∧
    (∑ k ∈ Finset.range o.polys.length, (G k).all) = em
  act : ∀ i ∈ act, ActOk o i

/-! ## helpers -/

theorem getB_modB (o : Outs K) (i a : Nat) (f : Bound K → Bound K) :
    (o.modB i f).bounds[a]? = if i = a then (o.bounds[a]?).map f else o.bounds[a]? := by
  rw [Outs.modB]
  show (o.bounds.modify i f)[a]? = _
  rw [List.getElem?_modify]
  split <;> cases o.bounds[a]? <;> simp

theorem getP_modP (o : Outs K) (i a : Nat) (f : Poly K → Poly K) :
    (o.modP i f).polys[a]? = if i = a then (o.polys[a]?).map f else o.polys[a]? := by
  rw [Outs.modP]
  show (o.polys.modify i f)[a]? = _
  rw [List.getElem?_modify]
  split <;> cases o.polys[a]? <;> simp

theorem modP_length (o : Outs K) (i : Nat) (f : Poly K → Poly K) : (o.modP i f).polys.length = o.polys.length := by
  simp [Outs.modP]

theorem sum_upd (G : Nat → Ghost K) (n k : Nat) (hk : k < n) (v : Ghost K) (c : Multiset (Piece K)) (hv : v.all = (G k).all + c) :
    (∑ i ∈ Finset.range n, (Function.update G k v i).all) = (∑ i ∈ Finset.range n, (G i).all) + c := by
  have hm : k ∈ Finset.range n := Finset.mem_range.2 hk
  rw [← Finset.add_sum_erase _ _ hm, ← Finset.add_sum_erase _ (fun i => (G i).all) hm, Function.update_self, hv]
  have : ∑ x ∈ (Finset.range n).erase k, (Function.update G k v x).all = ∑ x ∈ (Finset.range n).erase k, (G x).all := by
    refine Finset.sum_congr rfl (fun x hx => ?_)
    rw [Function.update_of_ne (Finset.ne_of_mem_erase hx)]
  rw [this, add_right_comm]

theorem sum_move (G : Nat → Ghost K) (n d s : Nat) (hd : d < n) (hs : s < n) (hne : d ≠ s) (v : Ghost K)
    (hv : v.all = (G d).all + (G s).all) :
    (∑ i ∈ Finset.range n, (Function.update (Function.update G s ([], [])) d v i).all) = ∑ i ∈ Finset.range n, (G i).all := by
  have h1 := sum_upd (Function.update G s ([], [])) n s hs (G s) (G s).all (by
    rw [Function.update_self]; show _ = (0 : Multiset (Piece K)) + _; rw [zero_add])
  have h2 := sum_upd (Function.update G s ([], [])) n d hd v (G s).all (by rw [Function.update_of_ne hne]; exact hv)
  rw [h2, ← h1]
  congr 1
  funext i
  by_cases hi : i = s
  · subst hi; rw [Function.update_self]
  · rw [Function.update_of_ne hi, Function.update_of_ne hi]

/-- Only owners and directions of the bounds matter. -/
theorem PolyInv.congr {o o' : Outs K} {act : Set Nat} {tip tip' : Nat → Vec2 K} {em : Multiset (Piece K)} (h : PolyInv o act tip em)
    (hp : o'.polys = o.polys)
    (hb : ∀ i ∈ act, ∀ b, o.bounds[i]? = some b → ∃ b', o'.bounds[i]? = some b' ∧ b'.owner = b.owner ∧ b'.windDx = b.windDx)
    (ht : ∀ i ∈ act, tip' i = tip i) : PolyInv o' act tip' em := by
  obtain ⟨G, h1, h2⟩ := h.ex
  refine ⟨⟨G, ?_, by rw [hp]; exact h2⟩, ?_⟩
  · intro k p hk
    rw [hp] at hk
    obtain ⟨q1, q2, q3, q4⟩ := h1 k p hk
    refine ⟨q1, q2, q3, fun hc => ?_⟩
    obtain ⟨u, d, bu, bd, a1, a2, a3, a4, a5, a6, a7, a8, a9, a10, a11, a12⟩ := q4 hc
    obtain ⟨bu', r1, r2, r3⟩ := hb u a3 bu a5
    obtain ⟨bd', s1, s2, s3⟩ := hb d a4 bd a8
    refine ⟨u, d, bu', bd', a1, a2, a3, a4, r1, by rw [r2, a6], by rw [Bound.isUp, r3]; exact a7, s1, by rw [s2, a9],
      by rw [Bound.isUp, s3]; exact a10, by rw [ht u a3]; exact a11, by rw [ht d a4]; exact a12⟩
  · intro i hi
    obtain ⟨b, p, c1, c2, c3, c4, c5⟩ := h.act i hi
    obtain ⟨b', r1, r2, r3⟩ := hb i hi b c1
    refine ⟨b', p, r1, by rw [hp, r2]; exact c2, c3, ?_, ?_⟩
    · intro hu; exact c4 (by rw [Bound.isUp, ← r3]; exact hu)
    · intro hu; exact c5 (by rw [Bound.isUp, ← r3]; exact hu)

/-! ## appending a segment -/

theorem PolyInv.push {o : Outs K} {act : Set Nat} {tip : Nat → Vec2 K} {em : Multiset (Piece K)} (h : PolyInv o act tip em)
    {i : Nat} (hi : i ∈ act) {b : Bound K} (hb : o.bounds[i]? = some b) (f : Vec2 K) (s : Seg K) (q : Vec2 K)
    (hup : b.isUp = true → f = tip i ∧ q = s.target) (hdn : b.isUp = false → s.target = tip i ∧ q = f) :
    PolyInv (o.push b s) act (Function.update tip i q) (em + {(f, s)}) := by
  obtain ⟨G, h1, h2⟩ := h.ex
  obtain ⟨b', p, c1, c2, c3, c4, c5⟩ := h.act i hi
  rw [hb] at c1; cases c1
  have hk : b.owner < o.polys.length := by
    rw [List.getElem?_eq_some_iff] at c2; exact c2.1
  obtain ⟨q1, q2, q3, q4⟩ := h1 _ p c2
  obtain ⟨u, d, bu, bd, a1, a2, a3, a4, a5, a6, a7, a8, a9, a10, a11, a12⟩ := q4 c3
  -- other polygons
  have hoth : ∀ k p', k ≠ b.owner → PolyOk o act tip (G k) k p' → ∀ g', g' = G k →
      PolyOk (o.push b s) act (Function.update tip i q) g' k p' := by
    rintro k p' hk' ⟨e1, e2, e3, e4⟩ g' rfl
    refine ⟨e1, e2, e3, fun hc => ?_⟩
    obtain ⟨u', d', bu', bd', z1, z2, z3, z4, z5, z6, z7, z8, z9, z10, z11, z12⟩ := e4 hc
    have n1 : u' ≠ i := by rintro rfl; rw [hb] at z5; cases z5; exact hk' z6.symm
    have n2 : d' ≠ i := by rintro rfl; rw [hb] at z8; cases z8; exact hk' z9.symm
    exact ⟨u', d', bu', bd', z1, z2, z3, z4, z5, z6, z7, z8, z9, z10, by rw [Function.update_of_ne n1]; exact z11,
      by rw [Function.update_of_ne n2]; exact z12⟩
  cases hu : b.isUp with
  | true =>
    obtain ⟨rfl, rfl⟩ := hup hu
    have hui : u = i := by have := c4 hu; rw [a1] at this; exact Option.some.inj this
    have hdi : d ≠ i := by rintro rfl; rw [hb] at a8; cases a8; rw [hu] at a10; cases a10
    subst hui
    refine ⟨⟨Function.update G b.owner ((G b.owner).1 ++ [(tip u, s)], (G b.owner).2), ?_, ?_⟩, ?_⟩
    · intro k p' hk'
      rw [Outs.push, getP_modP] at hk'
      by_cases hkk : b.owner = k
      · subst hkk
        rw [if_pos rfl, c2] at hk'
        simp only [hu, if_true, Option.map_some, Option.some.injEq] at hk'
        subst hk'
        rw [Function.update_self]
        refine ⟨by simp [q1], by simp [q2], fun hc => ?_, fun hc => ?_⟩
        · rw [show (Poly.complete _) = p.complete from rfl, c3] at hc; cases hc
        · refine ⟨u, d, bu, bd, a1, a2, a3, a4, a5, a6, a7, a8, a9, a10, ?_, ?_⟩
          · rw [Function.update_self, pchain_append]; exact ⟨_, a11, rfl, rfl⟩
          · rw [Function.update_of_ne hdi]; exact a12
      · rw [if_neg hkk] at hk'
        exact hoth k p' (Ne.symm hkk) (h1 k p' hk') _ (by rw [Function.update_of_ne (Ne.symm hkk)])
    · rw [Outs.push, modP_length, sum_upd G _ _ hk _ {(tip u, s)}, h2]
      simp only [Ghost.all]
      rw [← Multiset.coe_singleton, Multiset.coe_add, Multiset.coe_eq_coe]
      simp only [List.append_assoc]
      exact List.Perm.append_left _ List.perm_append_comm
    · intro j hj
      obtain ⟨b2, p2, r1, r2, r3, r4, r5⟩ := h.act j hj
      by_cases hkk : b.owner = b2.owner
      · refine ⟨b2, _, r1, by rw [Outs.push, getP_modP, if_pos hkk, r2]; rfl, ?_, ?_, ?_⟩ <;> simp only [hu, if_true] <;> assumption
      · exact ⟨b2, p2, r1, by rw [Outs.push, getP_modP, if_neg hkk]; exact r2, r3, r4, r5⟩
  | false =>
    obtain ⟨hs, rfl⟩ := hdn hu
    have hdi : d = i := by have := c5 hu; rw [a2] at this; exact Option.some.inj this
    have hui : u ≠ i := by rintro rfl; rw [hb] at a5; cases a5; rw [hu] at a7; cases a7
    subst hdi
    refine ⟨⟨Function.update G b.owner ((G b.owner).1, (G b.owner).2 ++ [(q, s)]), ?_, ?_⟩, ?_⟩
    · intro k p' hk'
      rw [Outs.push, getP_modP] at hk'
      by_cases hkk : b.owner = k
      · subst hkk
        rw [if_pos rfl, c2] at hk'
        simp only [hu, Bool.false_eq_true, if_false, Option.map_some, Option.some.injEq] at hk'
        subst hk'
        rw [Function.update_self]
        refine ⟨by simp [q1], by simp [q2], fun hc => ?_, fun hc => ?_⟩
        · rw [show (Poly.complete _) = p.complete from rfl, c3] at hc; cases hc
        · refine ⟨u, d, bu, bd, a1, a2, a3, a4, a5, a6, a7, a8, a9, a10, ?_, ?_⟩
          · rw [Function.update_of_ne hui]; exact a11
          · rw [Function.update_self, List.reverse_append]
            exact ⟨rfl, by rw [hs]; exact a12⟩
      · rw [if_neg hkk] at hk'
        exact hoth k p' (Ne.symm hkk) (h1 k p' hk') _ (by rw [Function.update_of_ne (Ne.symm hkk)])
    · rw [Outs.push, modP_length, sum_upd G _ _ hk _ {(q, s)}, h2]
      simp only [Ghost.all]
      rw [← Multiset.coe_singleton, Multiset.coe_add, Multiset.coe_eq_coe]
      simp only [List.append_assoc]
      exact List.Perm.refl _
    · intro j hj
      obtain ⟨b2, p2, r1, r2, r3, r4, r5⟩ := h.act j hj
      by_cases hkk : b.owner = b2.owner
      · refine ⟨b2, _, r1, by rw [Outs.push, getP_modP, if_pos hkk, r2]; rfl, ?_, ?_, ?_⟩ <;>
          simp only [hu, Bool.false_eq_true, if_false] <;> assumption
      · exact ⟨b2, p2, r1, by rw [Outs.push, getP_modP, if_neg hkk]; exact r2, r3, r4, r5⟩

open Classical in
/-- A straight piece from `p` to `q`; nothing if they coincide. -/
noncomputable def conn (p q : Vec2 K) : Multiset (Piece K) := if p = q then 0 else {(p, .line q)}

theorem conn_self (p : Vec2 K) : conn p p = 0 := if_pos rfl

theorem conn_ne {p q : Vec2 K} (h : p ≠ q) : conn p q = {(p, .line q)} := if_neg h

end River
