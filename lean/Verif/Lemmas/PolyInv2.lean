import Verif.Lemmas.PolyInv
import Verif.Props.Linked

/-! # Opening, joining and merging output polygons -/

namespace River
variable {K : Type}

theorem PolyInv.lt {o : Outs K} {act : Set Nat} {tip : Nat → Vec2 K} {em : Multiset (Piece K)} (h : PolyInv o act tip em) {i : Nat}
    (hi : i ∈ act) : i < o.bounds.length := by
  obtain ⟨b, _, h1, _⟩ := h.act i hi
  rw [List.getElem?_eq_some_iff] at h1
  exact h1.1

theorem PolyInv.owner_lt {o : Outs K} {act : Set Nat} {tip : Nat → Vec2 K} {em : Multiset (Piece K)} (h : PolyInv o act tip em) {i : Nat}
    (hi : i ∈ act) {b : Bound K} (hb : o.bounds[i]? = some b) : b.owner < o.polys.length := by
  obtain ⟨b', p, h1, h2, _⟩ := h.act i hi
  rw [hb] at h1; cases h1
  rw [List.getElem?_eq_some_iff] at h2
  exact h2.1

/-- The two active bounds of one polygon. -/
theorem PolyInv.same_owner {o : Outs K} {act : Set Nat} {tip : Nat → Vec2 K} {em : Multiset (Piece K)} (h : PolyInv o act tip em) {i j : Nat}
    (hi : i ∈ act) (hj : j ∈ act) {a b : Bound K} (ha : o.bounds[i]? = some a) (hb : o.bounds[j]? = some b) (ho : a.owner = b.owner)
    (hu : a.isUp = b.isUp) : i = j := by
  obtain ⟨a', p, h1, h2, _, h4, h5⟩ := h.act i hi
  obtain ⟨b', q, g1, g2, _, g4, g5⟩ := h.act j hj
  rw [ha] at h1; cases h1
  rw [hb] at g1; cases g1
  rw [ho, g2] at h2; cases h2
  cases hx : a.isUp with
  | true =>
    have := h4 hx
    rw [g4 (by rw [← hu]; exact hx)] at this
    exact (Option.some.inj this).symm
  | false =>
    have := h5 hx
    rw [g5 (by rw [← hu]; exact hx)] at this
    exact (Option.some.inj this).symm

theorem PolyInv.newOutput [FNum K] [LinearOrder K] [LawfulOrd K] {o : Outs K} {act : Set Nat} {tip tip' : Nat → Vec2 K}
    {em : Multiset (Piece K)} (h : PolyInv o act tip em) (a b : Edge K)
    (hdir : decide (a.windDx < 0) = !decide (b.windDx < 0))
    (ht : ∀ i ∈ act, tip' i = tip i) (hta : tip' o.bounds.length = a.bot) (htb : tip' (o.bounds.length + 1) = b.bot) :
    PolyInv (o.newOutput a b) (act ∪ {o.bounds.length, o.bounds.length + 1}) tip'
      (em + if decide (a.windDx < 0) then conn b.bot a.bot else conn a.bot b.bot) := by
  obtain ⟨G, h1, h2⟩ := h.ex
  have hbne : ∀ v : Vec2 K, Vec2.bne v v = false := by
    intro v; rw [Vec2.bne, (Vec2.beq_iff v v).2 rfl]; rfl
  have hold : ∀ i, i < o.bounds.length → (o.newOutput a b).bounds[i]? = o.bounds[i]? := by
    intro i hi
    rw [Outs.newOutput]
    simp only
    rw [List.getElem?_append_left hi]
  have hn0 : (o.newOutput a b).bounds[o.bounds.length]? =
      some { owner := o.polys.length, currEdge := some a.eid, stopX := a.currX, windDx := a.windDx } := by
    rw [Outs.newOutput]; simp
  have hn1 : (o.newOutput a b).bounds[o.bounds.length + 1]? =
      some { owner := o.polys.length, currEdge := some b.eid, stopX := b.currX, windDx := b.windDx } := by
    rw [Outs.newOutput]; simp
  have hpold : ∀ k, k < o.polys.length → (o.newOutput a b).polys[k]? = o.polys[k]? := by
    intro k hk
    rw [Outs.newOutput]
    simp only
    rw [List.getElem?_append_left hk]
  have hplen : (o.newOutput a b).polys.length = o.polys.length + 1 := by rw [Outs.newOutput]; simp
  obtain ⟨dn, hdn⟩ : ∃ dn, dn = (if decide (a.windDx < 0) then b else a).bot := ⟨_, rfl⟩
  obtain ⟨up, hup⟩ : ∃ up, up = (if decide (a.windDx < 0) then a else b).bot := ⟨_, rfl⟩
  obtain ⟨pn, hpn, hp1, hp2, hp3, hp4, hp5, hp6⟩ : ∃ pn, (o.newOutput a b).polys[o.polys.length]? = some pn ∧ pn.origin = dn ∧
      pn.upPath = (if Vec2.bne up dn then [Seg.line up] else []) ∧ pn.downPath = [] ∧ pn.complete = false ∧
      pn.upBound = some (if decide (a.windDx < 0) then o.bounds.length else o.bounds.length + 1) ∧
      pn.downBound = some (if decide (a.windDx < 0) then o.bounds.length + 1 else o.bounds.length) := by
    have hg : (o.newOutput a b).polys[o.polys.length]? = some
        { origin := (if decide (a.windDx < 0) then b else a).bot
          upBound := some (if decide (a.windDx < 0) then o.bounds.length else o.bounds.length + 1)
          downBound := some (if decide (a.windDx < 0) then o.bounds.length + 1 else o.bounds.length)
          upPath := if Vec2.bne (if decide (a.windDx < 0) then a else b).bot (if decide (a.windDx < 0) then b else a).bot then
            [Seg.line (if decide (a.windDx < 0) then a else b).bot] else []
          downPath := [] } := by
      rw [Outs.newOutput]; simp only
      rw [List.getElem?_append_right (le_refl _), Nat.sub_self]; rfl
    exact ⟨_, hg, hdn.symm, by rw [hup, hdn], rfl, rfl, rfl, rfl⟩
  obtain ⟨ps, hps, hps2, hps3⟩ : ∃ ps : List (Piece K), pn.upPath = ps.map Prod.snd ∧ PChain dn ps up ∧
      (ps : Multiset (Piece K)) = conn dn up := by
    rw [hp2]
    by_cases hud : up = dn
    · refine ⟨[], ?_, ?_, ?_⟩
      · rw [hud, hbne]; rfl
      · exact hud.symm
      · rw [hud, conn_self]; rfl
    · refine ⟨[(dn, .line up)], ?_, ⟨rfl, rfl⟩, ?_⟩
      · have : Vec2.bne up dn = true := by
          rw [Vec2.bne]
          cases hc : Vec2.beq up dn with
          | false => rfl
          | true => exact absurd ((Vec2.beq_iff _ _).1 hc) hud
        rw [this]; rfl
      · rw [conn_ne (Ne.symm hud)]; rfl
  refine ⟨⟨Function.update G o.polys.length (ps, []), ?_, ?_⟩, ?_⟩
  · intro k p hk
    have hkl : k < o.polys.length + 1 := by
      rw [List.getElem?_eq_some_iff] at hk; rw [← hplen]; exact hk.1
    rcases Nat.lt_succ_iff_lt_or_eq.1 hkl with hlt | rfl
    · rw [hpold k hlt] at hk
      rw [Function.update_of_ne hlt.ne]
      obtain ⟨q1, q2, q3, q4⟩ := h1 k p hk
      refine ⟨q1, q2, q3, fun hc => ?_⟩
      obtain ⟨u, d, bu, bd, a1, a2, a3, a4, a5, a6, a7, a8, a9, a10, a11, a12⟩ := q4 hc
      exact ⟨u, d, bu, bd, a1, a2, Or.inl a3, Or.inl a4, by rw [hold u (h.lt a3)]; exact a5, a6, a7, by rw [hold d (h.lt a4)]; exact a8, a9, a10,
        by rw [ht u a3]; exact a11, by rw [ht d a4]; exact a12⟩
    · rw [hpn] at hk; cases hk
      rw [Function.update_self]
      refine ⟨hps, by rw [hp3]; rfl, fun hc => (by rw [hp4] at hc; cases hc), fun _ => ?_⟩
      cases hd : decide (a.windDx < 0) with
      | true =>
        rw [hd] at hp5 hp6 hdir hdn hup
        simp only [if_true] at hdn hup
        refine ⟨_, _, _, _, hp5, hp6, ?_, ?_, hn0, rfl, hd, hn1, rfl, ?_, ?_, ?_⟩
        · simp
        · simp
        · cases hx : decide (b.windDx < 0) with
          | true => rw [hx] at hdir; cases hdir
          | false => exact hx
        · simp only [if_true]; rw [hta, hp1, ← hup]; exact hps2
        · simp only [List.reverse_nil, PChain, if_true]; rw [htb, hp1, hdn]
      | false =>
        rw [hd] at hp5 hp6 hdir hdn hup
        simp only [Bool.false_eq_true, if_false] at hdn hup
        refine ⟨_, _, _, _, hp5, hp6, ?_, ?_, hn1, rfl, ?_, hn0, rfl, hd, ?_, ?_⟩
        · simp
        · simp
        · cases hx : decide (b.windDx < 0) with
          | false => rw [hx] at hdir; cases hdir
          | true => exact hx
        · simp only [Bool.false_eq_true, if_false]; rw [htb, hp1, ← hup]; exact hps2
        · simp only [List.reverse_nil, PChain, Bool.false_eq_true, if_false]; rw [hta, hp1, hdn]
  · rw [hplen, Finset.sum_range_succ, Function.update_self]
    have hall : Ghost.all (ps, []) = (if decide (a.windDx < 0) then conn b.bot a.bot else conn a.bot b.bot) := by
      rw [Ghost.all, List.append_nil, hps3, hdn, hup]
      cases decide (a.windDx < 0) <;> rfl
    rw [hall, ← h2]
    congr 1
    refine Finset.sum_congr rfl (fun k hk => ?_)
    rw [Function.update_of_ne (Finset.mem_range.1 hk).ne]
  · rintro i (hi | rfl | rfl)
    · obtain ⟨b', p, r1, r2, r3, r4, r5⟩ := h.act i hi
      exact ⟨b', p, by rw [hold i (h.lt hi)]; exact r1, by rw [hpold _ (h.owner_lt hi r1)]; exact r2, r3, r4, r5⟩
    · refine ⟨_, pn, hn0, hpn, hp4, ?_, ?_⟩
      · intro hu; rw [Bound.isUp] at hu; simp only at hu; rw [hp5, if_pos hu]
      · intro hu; rw [hp6, if_neg]; rw [Bound.isUp] at hu; simp only at hu; rw [hu]; simp
    · refine ⟨_, pn, hn1, hpn, hp4, ?_, ?_⟩
      · intro hu
        rw [Bound.isUp] at hu; simp only at hu
        rw [hu] at hdir
        rw [hp5, hdir]; rfl
      · intro hu
        rw [Bound.isUp] at hu; simp only at hu
        rw [hu] at hdir
        rw [hp6, hdir]; rfl

/-- Completing a polygon whose two bounds have met. -/
theorem PolyInv.complete {o : Outs K} {act : Set Nat} {tip : Nat → Vec2 K} {em : Multiset (Piece K)} (h : PolyInv o act tip em) {i j : Nat}
    (hi : i ∈ act) (hj : j ∈ act) {a b : Bound K} (ha : o.bounds[i]? = some a) (hb : o.bounds[j]? = some b)
    (hdir : a.isUp = !b.isUp) (ho : a.owner = b.owner) (ht : tip i = tip j) :
    PolyInv (o.modP a.owner (fun p => { p with complete := true })) (act \ {i, j}) tip em := by
  obtain ⟨G, h1, h2⟩ := h.ex
  have hout : ∀ k ≠ a.owner, ∀ x b', o.bounds[x]? = some b' → b'.owner = k → x ∉ ({i, j} : Set Nat) := by
    rintro k hk x b' hx hx' (rfl | rfl)
    · rw [ha] at hx; cases hx; exact hk hx'.symm
    · rw [hb] at hx; cases hx; exact hk (by rw [ho, hx'])
  refine ⟨⟨G, ?_, by rw [modP_length]; exact h2⟩, ?_⟩
  · intro k p hk
    rw [getP_modP] at hk
    by_cases hkk : a.owner = k
    · rw [if_pos hkk] at hk
      obtain ⟨p0, hp0, rfl⟩ := Option.map_eq_some_iff.1 hk
      obtain ⟨q1, q2, q3, q4⟩ := h1 k p0 hp0
      refine ⟨q1, q2, fun _ => ?_, fun hc => by cases hc⟩
      cases hc : p0.complete with
      | true => exact q3 hc
      | false =>
        obtain ⟨u, d, bu, bd, a1, a2, a3, a4, a5, a6, a7, a8, a9, a10, a11, a12⟩ := q4 hc
        have htt : tip u = tip d := by
          cases hu : a.isUp with
          | true =>
            have e1 := h.same_owner hi a3 ha a5 (by rw [hkk, a6]) (by rw [hu, a7])
            have e2 := h.same_owner hj a4 hb a8 (by rw [← ho, hkk, a9]) (by
              rw [a10]; rw [hu] at hdir; revert hdir; cases b.isUp <;> simp)
            rw [← e1, ← e2, ht]
          | false =>
            have e1 := h.same_owner hi a4 ha a8 (by rw [hkk, a9]) (by rw [hu, a10])
            have e2 := h.same_owner hj a3 hb a5 (by rw [← ho, hkk, a6]) (by
              rw [a7]; rw [hu] at hdir; revert hdir; cases b.isUp <;> simp)
            rw [← e1, ← e2, ht]
        rw [pchain_append]
        exact ⟨tip u, a11, by rw [htt]; exact a12⟩
    · rw [if_neg hkk] at hk
      obtain ⟨q1, q2, q3, q4⟩ := h1 k p hk
      refine ⟨q1, q2, q3, fun hc => ?_⟩
      obtain ⟨u, d, bu, bd, a1, a2, a3, a4, a5, a6, a7, a8, a9, a10, a11, a12⟩ := q4 hc
      exact ⟨u, d, bu, bd, a1, a2, ⟨a3, hout k (Ne.symm hkk) u bu a5 a6⟩, ⟨a4, hout k (Ne.symm hkk) d bd a8 a9⟩, a5, a6, a7, a8, a9, a10, a11, a12⟩
  · rintro x ⟨hx, hxn⟩
    obtain ⟨b', p, r1, r2, r3, r4, r5⟩ := h.act x hx
    have hne : a.owner ≠ b'.owner := by
      intro he
      apply hxn
      by_cases hu : b'.isUp = a.isUp
      · exact Or.inl (h.same_owner hx hi r1 ha he.symm hu)
      · refine Or.inr (h.same_owner hx hj r1 hb (by rw [← he, ho]) ?_)
        revert hu hdir; cases b'.isUp <;> cases a.isUp <;> cases b.isUp <;> simp
    exact ⟨b', p, r1, by rw [getP_modP, if_neg hne]; exact r2, r3, r4, r5⟩

/-- Merging the polygon of bound `z` into that of bound `x`. -/
theorem PolyInv.merge {o : Outs K} {act : Set Nat} {tip : Nat → Vec2 K} {em : Multiset (Piece K)} (h : PolyInv o act tip em) {x z : Nat}
    (hx : x ∈ act) (hz : z ∈ act) {a b : Bound K} (ha : o.bounds[x]? = some a) (hb : o.bounds[z]? = some b)
    (hdir : a.isUp = !b.isUp) (ho : a.owner ≠ b.owner) (ht : tip x = tip z) :
    ∃ o', o.merge a.isUp a.owner b.owner = some o' ∧ PolyInv o' (act \ {x, z}) tip em ∧
      (∃ w, w < o.bounds.length ∧ o'.bounds = o.bounds.modify w (fun b' => { b' with owner := a.owner })) ∧ o'.oblFirst = o.oblFirst := by
  obtain ⟨G, h1, h2⟩ := h.ex
  obtain ⟨b0, ps, s1, s2, s3, s4, s5⟩ := h.act z hz
  rw [hb] at s1; cases s1
  obtain ⟨a0, pd, t1, t2, t3, t4, t5⟩ := h.act x hx
  rw [ha] at t1; cases t1
  obtain ⟨q1, q2, q3, q4⟩ := h1 _ ps s2
  obtain ⟨u, d, bu, bd, a1, a2, a3, a4, a5, a6, a7, a8, a9, a10, a11, a12⟩ := q4 s3
  obtain ⟨p1, p2, p3, p4⟩ := h1 _ pd t2
  obtain ⟨u', d', bu', bd', c1, c2, c3, c4, c5, c6, c7, c8, c9, c10, c11, c12⟩ := p4 t3
  have hdl := h.owner_lt hx ha
  have hsl := h.owner_lt hz hb
  -- the bounds of the other polygons
  have hoth : ∀ k, k ≠ a.owner → k ≠ b.owner → ∀ y b', o.bounds[y]? = some b' → b'.owner = k → y ≠ x ∧ y ≠ z := by
    intro k k1 k2 y b' hy hk
    constructor
    · rintro rfl; rw [ha] at hy; cases hy; exact k1 hk.symm
    · rintro rfl; rw [hb] at hy; cases hy; exact k2 hk.symm
  have hsum : ∀ n : Ghost K, n.all = (G a.owner).all + (G b.owner).all →
      (∑ i ∈ Finset.range o.polys.length, (Function.update (Function.update G b.owner ([], [])) a.owner n i).all) = em := fun n hn => by
    rw [sum_move G _ _ _ hdl hsl ho n hn, h2]
  cases hu : a.isUp with
  | true =>
    have hbu : b.isUp = false := by rw [hu] at hdir; revert hdir; cases b.isUp <;> simp
    have hdz : d = z := by have := s5 hbu; rw [a2] at this; exact Option.some.inj this
    have hux : u' = x := by have := t4 hu; rw [c1] at this; exact Option.some.inj this
    subst hdz hux
    rw [ha] at c5; cases c5
    rw [hb] at a8; cases a8
    have hud : u ≠ d := by rintro rfl; rw [hb] at a5; cases a5; rw [a7] at a10; cases a10
    have huu : u ≠ u' := by rintro rfl; rw [ha] at a5; cases a5; exact ho a6
    have hdu : d' ≠ u' := by rintro rfl; rw [ha] at c8; cases c8; rw [c7] at c10; cases c10
    have hdd : d' ≠ d := by rintro rfl; rw [hb] at c8; cases c8; exact ho c9.symm
    have hdiu : u ≠ d' := by rintro rfl; rw [a5] at c8; cases c8; rw [a7] at c10; cases c10
    have hm : o.merge true a.owner b.owner = some (((o.modP a.owner (fun x => { x with
          upPath := x.upPath ++ ps.downPath.reverse ++ ps.upPath, upBound := some u })).modB u
            (fun x => { x with owner := a.owner })).modP b.owner (fun (x : Poly K) =>
      ({ x with upPath := [], downPath := [], upBound := none, downBound := none, complete := true } : Poly K))) := by
      rw [Outs.merge, s2]; simp only [if_true, a1]
    refine ⟨_, hm, ?_, ⟨u, h.lt a3, rfl⟩, rfl⟩
    generalize hoo : (((o.modP a.owner (fun x => { x with
          upPath := x.upPath ++ ps.downPath.reverse ++ ps.upPath, upBound := some u })).modB u
            (fun x => { x with owner := a.owner })).modP b.owner (fun (x : Poly K) =>
      ({ x with upPath := [], downPath := [], upBound := none, downBound := none, complete := true } : Poly K))) = o'
    have hB : ∀ y, o'.bounds[y]? = if u = y then (o.bounds[y]?).map (fun x => { x with owner := a.owner }) else o.bounds[y]? := by
      intro y; rw [← hoo]; exact getB_modB (o.modP a.owner _) u y _
    have hP : ∀ k, o'.polys[k]? = if b.owner = k then (o.polys[k]?).map (fun (x : Poly K) =>
        ({ x with upPath := [], downPath := [], upBound := none, downBound := none, complete := true } : Poly K))
        else if a.owner = k then (o.polys[k]?).map (fun x => { x with
          upPath := x.upPath ++ ps.downPath.reverse ++ ps.upPath, upBound := some u }) else o.polys[k]? := by
      intro k; rw [← hoo, getP_modP]
      by_cases hk : b.owner = k
      · rw [if_pos hk, if_pos hk]
        show ((o.modP a.owner _).polys[k]?).map _ = _
        rw [getP_modP, if_neg (by rw [← hk]; exact ho)]
      · rw [if_neg hk, if_neg hk]
        exact getP_modP o a.owner k _
    have hPd : o'.polys[a.owner]? = some { pd with upPath := pd.upPath ++ ps.downPath.reverse ++ ps.upPath, upBound := some u } := by
      rw [hP, if_neg (Ne.symm ho), if_pos rfl, t2]; rfl
    have hL : o'.polys.length = o.polys.length := by rw [← hoo]; simp [Outs.modP, Outs.modB]
    refine ⟨⟨Function.update (Function.update G b.owner ([], [])) a.owner
      ((G a.owner).1 ++ (G b.owner).2.reverse ++ (G b.owner).1, (G a.owner).2), ?_, ?_⟩, ?_⟩
    · intro k p hk
      rw [hP] at hk
      by_cases hkb : b.owner = k
      · subst hkb
        rw [if_pos rfl, s2] at hk
        cases hk
        rw [Function.update_of_ne (Ne.symm ho), Function.update_self]
        exact ⟨rfl, rfl, fun _ => rfl, fun hc => by cases hc⟩
      · rw [if_neg hkb] at hk
        by_cases hka : a.owner = k
        · subst hka
          rw [if_pos rfl, t2] at hk
          cases hk
          rw [Function.update_self]
          refine ⟨by simp [p1, q1, q2], by simp [p2], fun hc => ?_, fun _ => ?_⟩
          · rw [show (Poly.complete _) = pd.complete from rfl, t3] at hc; cases hc
          · refine ⟨u, d', { bu with owner := a.owner }, bd', rfl, c2, ⟨a3, ?_⟩, ⟨c4, ?_⟩, by rw [hB, if_pos rfl, a5]; rfl, rfl, a7,
              by rw [hB, if_neg hdiu]; exact c8, c9, c10, ?_, c12⟩
            · rintro (hh | hh)
              · exact huu hh
              · exact hud hh
            · rintro (hh | hh)
              · exact hdu hh
              · exact hdd hh
            · rw [pchain_append, ]
              refine ⟨ps.origin, ?_, a11⟩
              rw [pchain_append]
              exact ⟨tip u', c11, by rw [ht]; exact a12⟩
        · rw [if_neg hka] at hk
          rw [Function.update_of_ne (Ne.symm hka), Function.update_of_ne (Ne.symm hkb)]
          obtain ⟨e1, e2, e3, e4⟩ := h1 k p hk
          refine ⟨e1, e2, e3, fun hc => ?_⟩
          obtain ⟨y, w, by', bw, z1, z2, z3, z4, z5, z6, z7, z8, z9, z10, z11, z12⟩ := e4 hc
          have n1 := hoth k (Ne.symm hka) (Ne.symm hkb) y by' z5 z6
          have n2 := hoth k (Ne.symm hka) (Ne.symm hkb) w bw z8 z9
          have n3 : u ≠ y := by rintro rfl; rw [a5] at z5; cases z5; exact hkb (by rw [← a6, z6])
          have n4 : u ≠ w := by rintro rfl; rw [a5] at z8; cases z8; exact hkb (by rw [← a6, z9])
          refine ⟨y, w, by', bw, z1, z2, ⟨z3, ?_⟩, ⟨z4, ?_⟩, by rw [hB, if_neg n3]; exact z5, z6, z7, by rw [hB, if_neg n4]; exact z8, z9, z10,
            z11, z12⟩
          · rintro (hh | hh)
            · exact n1.1 hh
            · exact n1.2 hh
          · rintro (hh | hh)
            · exact n2.1 hh
            · exact n2.2 hh
    · rw [hL]
      refine hsum _ ?_
      simp only [Ghost.all]
      rw [Multiset.coe_add, Multiset.coe_eq_coe]
      have e1 : ((G b.owner).2.reverse ++ (G b.owner).1).Perm ((G b.owner).1 ++ (G b.owner).2) :=
        List.perm_append_comm.trans (List.Perm.append_left _ (List.reverse_perm _))
      have e2 := (List.Perm.append_left (G a.owner).1 (e1.append_right (G a.owner).2))
      refine (List.Perm.of_eq (by simp)).trans (e2.trans ?_)
      rw [List.append_assoc (G a.owner).1]
      exact List.Perm.append_left _ List.perm_append_comm
    · rintro y ⟨hy, hyn⟩
      have hyx : y ≠ u' := fun hh => hyn (Or.inl hh)
      have hyz : y ≠ d := fun hh => hyn (Or.inr hh)
      obtain ⟨b', p, r1, r2, r3, r4, r5⟩ := h.act y hy
      by_cases hyu : u = y
      · subst hyu
        rw [a5] at r1; cases r1
        refine ⟨{ bu with owner := a.owner }, _, by rw [hB, if_pos rfl, a5]; rfl,
          hPd, t3, fun _ => rfl, fun hc => ?_⟩
        rw [show Bound.isUp { bu with owner := a.owner } = bu.isUp from rfl, a7] at hc; cases hc
      · have hnb : b.owner ≠ b'.owner := by
          intro he
          cases hy' : b'.isUp with
          | true => exact hyu (h.same_owner a3 hy a5 r1 (by rw [a6, he]) (by rw [a7, hy']))
          | false => exact hyz (h.same_owner hy hz r1 hb he.symm (by rw [hy', hbu]))
        by_cases hna : a.owner = b'.owner
        · have hy' : b'.isUp = false := by
            by_contra hc
            exact hyx (h.same_owner hy hx r1 ha hna.symm (by rw [hu]; simpa using hc))
          rw [← hna, t2] at r2; cases r2
          refine ⟨b', _, by rw [hB, if_neg hyu]; exact r1, (congrArg (fun k => o'.polys[k]?) hna.symm).trans hPd, t3, fun hc => ?_, fun hc => r5 hc⟩
          rw [hy'] at hc; cases hc
        · exact ⟨b', p, by rw [hB, if_neg hyu]; exact r1, by rw [hP, if_neg hnb, if_neg hna]; exact r2, r3, r4, r5⟩
  | false =>
    have hbu : b.isUp = true := by rw [hu] at hdir; revert hdir; cases b.isUp <;> simp
    have hdz : u = z := by have := s4 hbu; rw [a1] at this; exact Option.some.inj this
    have hux : d' = x := by have := t5 hu; rw [c2] at this; exact Option.some.inj this
    subst hdz hux
    rw [ha] at c8; cases c8
    rw [hb] at a5; cases a5
    have hud : d ≠ u := by rintro rfl; rw [hb] at a8; cases a8; rw [a7] at a10; cases a10
    have huu : d ≠ d' := by rintro rfl; rw [ha] at a8; cases a8; exact ho a9
    have hdu : u' ≠ d' := by rintro rfl; rw [ha] at c5; cases c5; rw [c7] at c10; cases c10
    have hdd : u' ≠ u := by rintro rfl; rw [hb] at c5; cases c5; exact ho c6.symm
    have hdiu : d ≠ u' := by rintro rfl; rw [a8] at c5; cases c5; rw [c7] at a10; cases a10
    have hm : o.merge false a.owner b.owner = some (((o.modP a.owner (fun x => { x with
          downPath := x.downPath ++ ps.upPath.reverse ++ ps.downPath, downBound := some d })).modB d
            (fun x => { x with owner := a.owner })).modP b.owner (fun (x : Poly K) =>
      ({ x with upPath := [], downPath := [], upBound := none, downBound := none, complete := true } : Poly K))) := by
      rw [Outs.merge, s2]; simp only [Bool.false_eq_true, if_false, a2]
    refine ⟨_, hm, ?_, ⟨d, h.lt a4, rfl⟩, rfl⟩
    generalize hoo : (((o.modP a.owner (fun x => { x with
          downPath := x.downPath ++ ps.upPath.reverse ++ ps.downPath, downBound := some d })).modB d
            (fun x => { x with owner := a.owner })).modP b.owner (fun (x : Poly K) =>
      ({ x with upPath := [], downPath := [], upBound := none, downBound := none, complete := true } : Poly K))) = o'
    have hB : ∀ y, o'.bounds[y]? = if d = y then (o.bounds[y]?).map (fun x => { x with owner := a.owner }) else o.bounds[y]? := by
      intro y; rw [← hoo]; exact getB_modB (o.modP a.owner _) d y _
    have hP : ∀ k, o'.polys[k]? = if b.owner = k then (o.polys[k]?).map (fun (x : Poly K) =>
        ({ x with upPath := [], downPath := [], upBound := none, downBound := none, complete := true } : Poly K))
        else if a.owner = k then (o.polys[k]?).map (fun x => { x with
          downPath := x.downPath ++ ps.upPath.reverse ++ ps.downPath, downBound := some d }) else o.polys[k]? := by
      intro k; rw [← hoo, getP_modP]
      by_cases hk : b.owner = k
      · rw [if_pos hk, if_pos hk]
        show ((o.modP a.owner _).polys[k]?).map _ = _
        rw [getP_modP, if_neg (by rw [← hk]; exact ho)]
      · rw [if_neg hk, if_neg hk]
        exact getP_modP o a.owner k _
    have hPd : o'.polys[a.owner]? = some { pd with downPath := pd.downPath ++ ps.upPath.reverse ++ ps.downPath, downBound := some d } := by
      rw [hP, if_neg (Ne.symm ho), if_pos rfl, t2]; rfl
    have hL : o'.polys.length = o.polys.length := by rw [← hoo]; simp [Outs.modP, Outs.modB]
    refine ⟨⟨Function.update (Function.update G b.owner ([], [])) a.owner
      ((G a.owner).1, (G a.owner).2 ++ (G b.owner).1.reverse ++ (G b.owner).2), ?_, ?_⟩, ?_⟩
    · intro k p hk
      rw [hP] at hk
      by_cases hkb : b.owner = k
      · subst hkb
        rw [if_pos rfl, s2] at hk
        cases hk
        rw [Function.update_of_ne (Ne.symm ho), Function.update_self]
        exact ⟨rfl, rfl, fun _ => rfl, fun hc => by cases hc⟩
      · rw [if_neg hkb] at hk
        by_cases hka : a.owner = k
        · subst hka
          rw [if_pos rfl, t2] at hk
          cases hk
          rw [Function.update_self]
          refine ⟨by simp [p1], by simp [p2, q1, q2], fun hc => ?_, fun _ => ?_⟩
          · rw [show (Poly.complete _) = pd.complete from rfl, t3] at hc; cases hc
          · refine ⟨u', d, bu', { bd with owner := a.owner }, c1, rfl, ⟨c3, ?_⟩, ⟨a4, ?_⟩, by rw [hB, if_neg hdiu]; exact c5, c6, c7,
              by rw [hB, if_pos rfl, a8]; rfl, rfl, a10, c11, ?_⟩
            · rintro (hh | hh)
              · exact hdu hh
              · exact hdd hh
            · rintro (hh | hh)
              · exact huu hh
              · exact hud hh
            · simp only [List.reverse_append, List.reverse_reverse]
              rw [pchain_append]
              refine ⟨ps.origin, a12, ?_⟩
              rw [pchain_append]
              exact ⟨tip u, a11, by rw [← ht]; exact c12⟩
        · rw [if_neg hka] at hk
          rw [Function.update_of_ne (Ne.symm hka), Function.update_of_ne (Ne.symm hkb)]
          obtain ⟨e1, e2, e3, e4⟩ := h1 k p hk
          refine ⟨e1, e2, e3, fun hc => ?_⟩
          obtain ⟨y, w, by', bw, z1, z2, z3, z4, z5, z6, z7, z8, z9, z10, z11, z12⟩ := e4 hc
          have n1 := hoth k (Ne.symm hka) (Ne.symm hkb) y by' z5 z6
          have n2 := hoth k (Ne.symm hka) (Ne.symm hkb) w bw z8 z9
          have n3 : d ≠ y := by rintro rfl; rw [a8] at z5; cases z5; exact hkb (by rw [← a9, z6])
          have n4 : d ≠ w := by rintro rfl; rw [a8] at z8; cases z8; exact hkb (by rw [← a9, z9])
          refine ⟨y, w, by', bw, z1, z2, ⟨z3, ?_⟩, ⟨z4, ?_⟩, by rw [hB, if_neg n3]; exact z5, z6, z7, by rw [hB, if_neg n4]; exact z8, z9, z10,
            z11, z12⟩
          · rintro (hh | hh)
            · exact n1.1 hh
            · exact n1.2 hh
          · rintro (hh | hh)
            · exact n2.1 hh
            · exact n2.2 hh
    · rw [hL]
      refine hsum _ ?_
      simp only [Ghost.all]
      rw [Multiset.coe_add, Multiset.coe_eq_coe]
      refine (List.Perm.of_eq (by simp)).trans (List.Perm.append_left (G a.owner).1 (List.Perm.append_left (G a.owner).2
        ((List.reverse_perm (G b.owner).1).append_right (G b.owner).2))) |>.trans (List.Perm.of_eq (by simp))
    · rintro y ⟨hy, hyn⟩
      have hyx : y ≠ d' := fun hh => hyn (Or.inl hh)
      have hyz : y ≠ u := fun hh => hyn (Or.inr hh)
      obtain ⟨b', p, r1, r2, r3, r4, r5⟩ := h.act y hy
      by_cases hyu : d = y
      · subst hyu
        rw [a8] at r1; cases r1
        refine ⟨{ bd with owner := a.owner }, _, by rw [hB, if_pos rfl, a8]; rfl,
          hPd, t3, fun hc => ?_, fun _ => rfl⟩
        rw [show Bound.isUp { bd with owner := a.owner } = bd.isUp from rfl, a10] at hc; cases hc
      · have hnb : b.owner ≠ b'.owner := by
          intro he
          cases hy' : b'.isUp with
          | false => exact hyu (h.same_owner a4 hy a8 r1 (by rw [a9, he]) (by rw [a10, hy']))
          | true => exact hyz (h.same_owner hy hz r1 hb he.symm (by rw [hy', hbu]))
        by_cases hna : a.owner = b'.owner
        · have hy' : b'.isUp = true := by
            by_contra hc
            exact hyx (h.same_owner hy hx r1 ha hna.symm (by rw [hu]; simpa using hc))
          rw [← hna, t2] at r2; cases r2
          refine ⟨b', _, by rw [hB, if_neg hyu]; exact r1, (congrArg (fun k => o'.polys[k]?) hna.symm).trans hPd, t3, fun hc => r4 hc, fun hc => ?_⟩
          rw [hy'] at hc; cases hc
        · exact ⟨b', p, by rw [hB, if_neg hyu]; exact r1, by rw [hP, if_neg hnb, if_neg hna]; exact r2, r3, r4, r5⟩

end River
