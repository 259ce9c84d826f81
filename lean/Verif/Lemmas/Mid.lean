import Verif.Lemmas.BeamGeo
import Verif.Lemmas.UpdateOut

/-! # The output from one scan line to the next -/

namespace River
variable {K : Type}

/-! ## removing the pairs that have met -/

/-- Positions `2k`, `2k + 1` with equal abscissas are removed. -/
def keepPairs {α : Type} [LinearOrder K] (x : α → K) : List α → List α
  | a :: b :: l => if x a = x b then keepPairs x l else a :: b :: keepPairs x l
  | l => l

section
variable {α : Type} [LinearOrder K] (x : α → K)

theorem keepPairs_spec (d : α → Int) (n : Nat) : ∀ (l : List α) (τ : Int), l.length ≤ n → l.Pairwise (fun a b => x a ≤ x b) → AltDir d τ l →
    (keepPairs x l).Sublist l ∧ AltDir d τ (keepPairs x l) ∧
      (∀ X, ∃ m, l.countP (fun a => decide (x a < X)) = (keepPairs x l).countP (fun a => decide (x a < X)) + 2 * m) ∧
      ∃ m, l.length = (keepPairs x l).length + 2 * m := by
  induction n using Nat.strong_induction_on with
  | _ n ih =>
    intro l τ hn hs ha
    match l, hn, hs, ha with
    | [], _, _, ha => exact ⟨List.Sublist.refl _, ha, fun X => ⟨0, rfl⟩, 0, rfl⟩
    | [a], _, _, ha => exact ⟨List.Sublist.refl _, ha, fun X => ⟨0, rfl⟩, 0, rfl⟩
    | a :: b :: r, hn, hs, ha =>
      obtain ⟨a1, a2, a3⟩ := ha
      rw [neg_neg] at a3
      rw [List.pairwise_cons, List.pairwise_cons] at hs
      simp only [List.length_cons] at hn
      obtain ⟨g1, g2, g4, m0, g5⟩ := ih r.length (by omega) r τ (le_refl _) hs.2.2 a3
      by_cases hx : x a = x b
      · rw [keepPairs, if_pos hx]
        refine ⟨g1.trans ((List.sublist_cons_self _ _).trans (List.sublist_cons_self _ _)), g2, fun X => ?_, m0 + 1, ?_⟩
        · obtain ⟨m, hm⟩ := g4 X
          rw [countP_lt_cons x a (b :: r) X, countP_lt_cons x b r X, hm, ← hx]
          by_cases hX : x a < X
          · exact ⟨m + 1, by rw [if_pos hX]; ring⟩
          · exact ⟨m, by rw [if_neg hX]; ring⟩
        · simp only [List.length_cons]; rw [g5]; ring
      · rw [keepPairs, if_neg hx]
        refine ⟨g1.cons_cons b |>.cons_cons a, ⟨a1, a2, by rw [neg_neg]; exact g2⟩, fun X => ?_, m0, ?_⟩
        · obtain ⟨m, hm⟩ := g4 X
          refine ⟨m, ?_⟩
          simp only [countP_lt_cons x]
          rw [hm]; ring
        · simp only [List.length_cons]; rw [g5]; ring

theorem keepPairs_gone (n : Nat) : ∀ l : List α, l.length ≤ n → l.Nodup → ∀ a ∈ l, a ∉ keepPairs x l → ∃ b ∈ l, b ≠ a ∧ x b = x a := by
  induction n using Nat.strong_induction_on with
  | _ n ih =>
    intro l hn hnd
    match l, hn, hnd with
    | [], _, _ => intro a ha; cases ha
    | [c], _, _ => intro a ha hk; exact (hk ha).elim
    | c :: d :: r, hn, hnd =>
      intro a ha hk
      rw [List.nodup_cons, List.nodup_cons] at hnd
      simp only [List.length_cons] at hn
      have hcd : d ≠ c := by rintro rfl; exact hnd.1 (by simp)
      have hrec : a ∈ r → a ∉ keepPairs x r → ∃ b ∈ c :: d :: r, b ≠ a ∧ x b = x a := by
        intro h1 h2
        obtain ⟨b, hb, h⟩ := ih r.length (by omega) r (le_refl _) hnd.2.2 a h1 h2
        exact ⟨b, by simp [hb], h⟩
      by_cases hx : x c = x d
      · rw [keepPairs, if_pos hx] at hk
        rcases List.mem_cons.1 ha with rfl | ha
        · exact ⟨d, by simp, hcd, hx.symm⟩
        · rcases List.mem_cons.1 ha with rfl | ha
          · exact ⟨c, by simp, hcd.symm, hx⟩
          · exact hrec ha hk
      · rw [keepPairs, if_neg hx] at hk
        simp only [List.mem_cons, not_or] at hk ha
        rcases ha with h | h | h
        · exact (hk.1 h).elim
        · exact (hk.2.1 h).elim
        · exact hrec h hk.2.2

end

theorem altDir_map {α : Type} (d : α → Int) (τ : Int) (l : List α) : AltDir d τ l ↔ AltDir id τ (l.map d) := by
  induction l generalizing τ with
  | nil => exact Iff.rfl
  | cons a l ih => simp only [List.map_cons, AltDir, id, ih]

/-! ## the top of a scan beam -/

section
variable [FTrans K] [LinearOrder K] [Absc K] [LawfulOrd K] {rings : List (Ring K)}

/-- The pieces completed at height `y` by the edges that have an output bound. -/
def endPieces (rings : List (Ring K)) (y : K) (l : List (Edge K)) : Multiset (Piece K) :=
  (((l.filter (fun e => e.bound.isSome && decide (e.top.y = y))).map (fun e => ((sideOf rings e).frm, (sideOf rings e).seg)) : List (Piece K)) :
    Multiset (Piece K))

/-- The point reached by the output along an edge. -/
def tipAt (y : K) (e : Edge K) : Vec2 K := if e.top.y = y then e.top else e.bot

theorem push_links (o : Outs K) (b : Bound K) (s : Seg K) : (o.push b s).links = o.links := rfl

omit [FTrans K] [LinearOrder K] [Absc K] [LawfulOrd K] in
theorem push_bounds (o : Outs K) (b : Bound K) (s : Seg K) : (o.push b s).bounds = o.bounds := rfl

theorem topO_none {y : K} {e : Edge K} (h : e.bound = none) (o : Outs K) : topO rings y o e = some o := by
  rw [topO]
  split
  · rw [appendSeg, h]
    simp only [Option.map_some, detach, h, ite_self]
  · rw [h]

theorem topO_some (A : Arranged rings) {y : K} {e : Edge K} (hok : EOk rings e) (hb : (sideOf rings e).Below y) {i : Nat} (h : e.bound = some i)
    {o : Outs K} {act : Set Nat} {tip : Nat → Vec2 K} {em : Multiset (Piece K)} (P : PolyInv o act tip em) (hi : i ∈ act) {b : Bound K}
    (hB : o.bounds[i]? = some b) (hw : b.windDx = e.windDx) (ht : tip i = e.bot) :
    ∃ o', topO rings y o e = some o' ∧ o'.links = o.links ∧ PolyInv o' act (Function.update tip i (tipAt y e)) (em + endPieces rings y [e]) ∧
      ∀ (k : Nat), o'.bounds[k]? = if i = k then some { b with
        stopX := (sideOf rings e).x y
        currEdge := if e.top.y = y ∧ (topN rings e).1 = none then none else b.currEdge } else o.bounds[k]? := by
  obtain ⟨m1, g1, u1, b1, t1, d1, p1⟩ := hok.facts A.linked
  have x1 := hok.x_end A hb
  have hup : b.isUp = e.isUp := by rw [Bound.isUp, Edge.isUp, hw]
  by_cases hy : e.top.y = y
  · have hP : PolyInv (o.push b (sideOf rings e).seg) act (Function.update tip i e.top) (em + {((sideOf rings e).frm, (sideOf rings e).seg)}) := by
      refine P.push hi hB _ _ _ ?_ ?_
      · intro hu
        rw [hup, ← u1] at hu
        rw [ht, ← b1, ← t1, Side.bot, Side.top, hu]
        exact ⟨rfl, rfl⟩
      · intro hu
        rw [hup, ← u1] at hu
        rw [ht, ← b1, ← t1, Side.bot, Side.top, hu]
        exact ⟨rfl, rfl⟩
    have hem : endPieces rings y [e] = {((sideOf rings e).frm, (sideOf rings e).seg)} := by simp [endPieces, h, hy]
    have ha : appendSeg rings o e e.top.x = some ((o.push b (sideOf rings e).seg).modB i (fun z => { z with stopX := e.top.x })) := by
      rw [appendSeg, h]
      simp only [hB, g1, hup, bne_self_eq_false, Bool.false_eq_true, if_false]
    rw [topO, if_pos hy, ha, tipAt, if_pos hy, hem, x1 hy]
    simp only [Option.map_some, hy, true_and]
    have hl1 : ((o.push b (sideOf rings e).seg).modB i (fun z => { z with stopX := e.top.x })).links = o.links := by
      rw [links_modB_same _ i (fun z => { z with stopX := e.top.x }) (fun b => ⟨rfl, rfl⟩), push_links]
    have hB1 : ∀ k : Nat, ((o.push b (sideOf rings e).seg).modB i (fun z => { z with stopX := e.top.x })).bounds[k]? =
        if i = k then some { b with stopX := e.top.x } else o.bounds[k]? := by
      intro k
      rw [getB_modB, push_bounds]
      by_cases hk : i = k
      · subst hk; rw [if_pos rfl, if_pos rfl, hB]; rfl
      · rw [if_neg hk, if_neg hk]
    generalize hO : (o.push b (sideOf rings e).seg).modB i (fun z => { z with stopX := e.top.x }) = O at hl1 hB1
    have hPO : PolyInv O act (Function.update tip i e.top) (em + {((sideOf rings e).frm, (sideOf rings e).seg)}) := by
      refine hP.congr (by rw [← hO]; rfl) (fun k _ c hc => ?_) (fun _ _ => rfl)
      rw [push_bounds] at hc
      rw [hB1]
      by_cases hk : i = k
      · subst hk
        rw [hB] at hc; cases hc
        rw [if_pos rfl]; exact ⟨_, rfl, rfl, rfl⟩
      · rw [if_neg hk]; exact ⟨c, hc, rfl, rfl⟩
    by_cases hm : (topN rings e).1 = none
    · rw [hm]
      simp only [Option.isNone_none, if_true]
      have hd : detach O e = O.modB i (fun x => { x with currEdge := none }) := by rw [detach, h]
      have hB2 : ∀ k : Nat, (detach O e).bounds[k]? = if i = k then some { b with
          stopX := e.top.x
          currEdge := none } else o.bounds[k]? := by
        intro k
        rw [hd, getB_modB, hB1]
        by_cases hk : i = k
        · rw [if_pos hk, if_pos hk, if_pos hk]; rfl
        · rw [if_neg hk, if_neg hk]
          split
          · next hh => exact absurd hh hk
          · rfl
      refine ⟨_, rfl, ?_, ?_, hB2⟩
      · rw [hd, links_modB_same _ i (fun x => { x with currEdge := none }) (fun b => ⟨rfl, rfl⟩), hl1]
      · refine hPO.congr (by rw [hd]; rfl) (fun k _ c hc => ?_) (fun _ _ => rfl)
        rw [hB1] at hc
        rw [hB2]
        by_cases hk : i = k
        · rw [if_pos hk] at hc ⊢
          cases hc
          exact ⟨_, rfl, rfl, rfl⟩
        · rw [if_neg hk] at hc ⊢
          exact ⟨c, hc, rfl, rfl⟩
    · rw [if_neg (by simpa using hm), if_neg hm]
      exact ⟨_, rfl, hl1, hPO, hB1⟩
  · have hem : endPieces rings y [e] = 0 := by simp [endPieces, h, hy]
    rw [topO, if_neg hy, h, tipAt, if_neg hy, hem, add_zero]
    simp only [hy, false_and, if_false]
    have hB1 : ∀ k : Nat, (o.modB i (fun z => { z with stopX := (sideOf rings e).x y })).bounds[k]? =
        if i = k then some { b with stopX := (sideOf rings e).x y } else o.bounds[k]? := by
      intro k
      rw [getB_modB]
      by_cases hk : i = k
      · subst hk; rw [if_pos rfl, if_pos rfl, hB]; rfl
      · rw [if_neg hk, if_neg hk]
    refine ⟨_, rfl, links_modB_same _ i (fun z => { z with stopX := (sideOf rings e).x y }) (fun b => ⟨rfl, rfl⟩), ?_, hB1⟩
    refine P.congr rfl (fun k _ c hc => ?_) (fun k _ => ?_)
    · rw [hB1]
      by_cases hk : i = k
      · subst hk
        rw [hB] at hc; cases hc
        rw [if_pos rfl]; exact ⟨_, rfl, rfl, rfl⟩
      · rw [if_neg hk]; exact ⟨c, hc, rfl, rfl⟩
    · by_cases hk : k = i
      · subst hk; rw [Function.update_self, ht]
      · rw [Function.update_of_ne hk]

theorem top_fold (A : Arranged rings) (y : K) (act : Set Nat) (l : List (Edge K)) : ∀ (o : Outs K) (tip : Nat → Vec2 K) (em : Multiset (Piece K)),
    PolyInv o act tip em → (∀ e ∈ l, EOk rings e) → (∀ e ∈ l, (sideOf rings e).Below y) → (l.filterMap Edge.bound).Nodup →
    (∀ e ∈ l, ∀ i, e.bound = some i → i ∈ act ∧ ∃ b, o.bounds[i]? = some b ∧ b.windDx = e.windDx ∧ tip i = e.bot) →
    ∃ o' tip', l.foldlM (topO rings y) o = some o' ∧ o'.links = o.links ∧ PolyInv o' act tip' (em + endPieces rings y l) ∧
      (∀ i : Nat, i ∉ l.filterMap Edge.bound → tip' i = tip i ∧ o'.bounds[i]? = o.bounds[i]?) ∧
      (∀ e ∈ l, ∀ i b, e.bound = some i → o.bounds[i]? = some b → tip' i = tipAt y e ∧ o'.bounds[i]? = some { b with
        stopX := (sideOf rings e).x y
        currEdge := if e.top.y = y ∧ (topN rings e).1 = none then none else b.currEdge }) := by
  induction l with
  | nil =>
    intro o tip em P _ _ _ _
    exact ⟨o, tip, rfl, rfl, by simpa [endPieces] using P, fun _ _ => ⟨rfl, rfl⟩, by simp⟩
  | cons e l ih =>
    intro o tip em P hok hbel hnd hb
    have hsplit : endPieces rings y (e :: l) = endPieces rings y [e] + endPieces rings y l := by
      unfold endPieces
      rw [Multiset.coe_add, ← List.map_append, ← List.filter_append]
      rfl
    cases he : e.bound with
    | none =>
      rw [List.filterMap_cons_none he] at hnd
      obtain ⟨o', tip', h1, h2, h3, h4, h5⟩ := ih o tip em P (fun e he => hok e (List.mem_cons_of_mem _ he))
        (fun e he => hbel e (List.mem_cons_of_mem _ he)) hnd (fun e he => hb e (List.mem_cons_of_mem _ he))
      refine ⟨o', tip', ?_, h2, ?_, ?_, ?_⟩
      · rw [List.foldlM_cons, topO_none he]; exact h1
      · rw [hsplit, show endPieces rings y [e] = 0 by simp [endPieces, he], zero_add]; exact h3
      · rw [List.filterMap_cons_none he]; exact h4
      · intro f hf i b hfb
        rcases List.mem_cons.1 hf with rfl | hf
        · rw [he] at hfb; cases hfb
        · exact h5 f hf i b hfb
    | some i =>
      rw [List.filterMap_cons_some he, List.nodup_cons] at hnd
      obtain ⟨hi, b, hB, hw, ht⟩ := hb e List.mem_cons_self i he
      obtain ⟨o1, q1, q2, q3, q4⟩ := topO_some A (hok e List.mem_cons_self) (hbel e List.mem_cons_self) he P hi hB hw ht
      obtain ⟨o', tip', h1, h2, h3, h4, h5⟩ := ih o1 _ _ q3 (fun e he => hok e (List.mem_cons_of_mem _ he))
        (fun e he => hbel e (List.mem_cons_of_mem _ he)) hnd.2 (fun f hf j hj => by
          have hij : i ≠ j := by rintro rfl; exact hnd.1 (List.mem_filterMap.2 ⟨f, hf, hj⟩)
          obtain ⟨r1, c, r2, r3, r4⟩ := hb f (List.mem_cons_of_mem _ hf) j hj
          refine ⟨r1, c, ?_, r3, ?_⟩
          · rw [q4, if_neg hij]; exact r2
          · rw [Function.update_of_ne (Ne.symm hij)]; exact r4)
      refine ⟨o', tip', ?_, h2.trans q2, ?_, ?_, ?_⟩
      · rw [List.foldlM_cons, q1]; exact h1
      · rw [hsplit, ← add_assoc]; exact h3
      · intro k hk
        rw [List.filterMap_cons_some he, List.mem_cons, not_or] at hk
        obtain ⟨s1, s2⟩ := h4 k hk.2
        rw [s1, s2, Function.update_of_ne hk.1, q4, if_neg (Ne.symm hk.1)]
        exact ⟨rfl, rfl⟩
      · intro f hf k c hk hc
        rcases List.mem_cons.1 hf with rfl | hf
        · rw [he] at hk; cases hk
          rw [hB] at hc; cases hc
          obtain ⟨s1, s2⟩ := h4 i hnd.1
          rw [s1, s2, Function.update_self, q4, if_pos rfl]
          exact ⟨rfl, rfl⟩
        · have hik : i ≠ k := by rintro rfl; exact hnd.1 (List.mem_filterMap.2 ⟨f, hf, hk⟩)
          exact h5 f hf k c hk (by rw [q4, if_neg hik]; exact hc)

end

/-! ## bounds and edges between the top of a beam and the next update of the output -/

/-- `obl` are the bounds in order, `sx`, `wd`, `tip` where they stopped, their directions and the points they have reached;
`xs` are the abscissas at which something happens. -/
structure Mid (p : Edge K → Bool) (xs : List K) (ael : List (Edge K)) (o : Outs K) (obl : List Nat) (sx : Nat → K) (wd : Nat → Int)
    (tip : Nat → Vec2 K) (em : Multiset (Piece K)) : Prop where
  ids : (ael.map Edge.eid).Nodup
  rep : o.links.Represents obl
  poly : PolyInv o {i | i ∈ obl} tip em
  bnd : ∀ i ∈ obl, ∃ b, o.bounds[i]? = some b ∧ b.stopX = sx i ∧ b.windDx = wd i ∧
    ∀ id, b.currEdge = some id → ∃ e ∈ ael, e.eid = id ∧ e.bound = some i ∧ (e.currX = sx i ∨ e.currX ∈ xs)
  own : ∀ e ∈ ael, ∀ i, e.bound = some i → i ∈ obl ∧ ∃ b, o.bounds[i]? = some b ∧ b.currEdge = some e.eid
  iff : ∀ e ∈ ael, e.currX ∉ xs → (p e = true ↔ e.bound.isSome)

theorem ids_eq {ael : List (Edge K)} (h : (ael.map Edge.eid).Nodup) {a b : Edge K} (ha : a ∈ ael) (hb : b ∈ ael) (he : a.eid = b.eid) : a = b :=
  List.inj_on_of_nodup_map h ha hb he

/-- Some edges lose their bounds, those bounds their edges. -/
theorem Mid.clear {p : Edge K → Bool} {xs xs' : List K} {ael ael' : List (Edge K)} {o o' : Outs K} {obl : List Nat} {sx : Nat → K} {wd : Nat → Int}
    {tip : Nat → Vec2 K} {em : Multiset (Piece K)} (h : Mid p xs ael o obl sx wd tip em) (hids : (ael'.map Edge.eid).Nodup)
    (hxs : ∀ x ∈ xs, x ∈ xs') (T : Edge K → Prop) (h1 : ∀ e ∈ ael', (e ∈ ael ∧ ¬ T e) ∨ (e.bound = none ∧ e.currX ∈ xs'))
    (h3 : ∀ e ∈ ael, ¬ T e → e ∈ ael') (hl : o'.links = o.links) (hp : o'.polys = o.polys)
    (hb : ∀ (i : Nat) b, o.bounds[i]? = some b → ∃ b', o'.bounds[i]? = some b' ∧ b'.owner = b.owner ∧ b'.stopX = b.stopX ∧ b'.windDx = b.windDx ∧
      ((∃ e ∈ ael, e.bound = some i ∧ T e) → b'.currEdge = none) ∧
      ((¬ ∃ e ∈ ael, e.bound = some i ∧ T e) → b'.currEdge = b.currEdge)) :
    Mid p xs' ael' o' obl sx wd tip em := by
  refine ⟨hids, by rw [hl]; exact h.rep, h.poly.congr hp (fun i _ b hi => ?_) (fun _ _ => rfl), ?_, ?_, ?_⟩
  · obtain ⟨b', g1, g2, _, g4, _⟩ := hb i b hi
    exact ⟨b', g1, g2, g4⟩
  · intro i hi
    obtain ⟨b, g1, g2, g3, g4⟩ := h.bnd i hi
    obtain ⟨b', r1, _, r3, r4, r5, r6⟩ := hb i b g1
    refine ⟨b', r1, by rw [r3, g2], by rw [r4, g3], fun id hid => ?_⟩
    by_cases hex : ∃ e ∈ ael, e.bound = some i ∧ T e
    · rw [r5 hex] at hid; cases hid
    · rw [r6 hex] at hid
      obtain ⟨e, he, s1, s2, s3⟩ := g4 id hid
      exact ⟨e, h3 e he (fun hc => hex ⟨e, he, s2, hc⟩), s1, s2, s3.imp_right (hxs _)⟩
  · intro e he i hi
    rcases h1 e he with ⟨he0, hT⟩ | ⟨hn, _⟩
    · obtain ⟨g1, b, g2, g3⟩ := h.own e he0 i hi
      obtain ⟨b', r1, _, _, _, _, r6⟩ := hb i b g2
      refine ⟨g1, b', r1, ?_⟩
      rw [r6, g3]
      rintro ⟨f, hf, hfb, hfx⟩
      obtain ⟨_, c, c1, c2⟩ := h.own f hf i hfb
      rw [g2] at c1; cases c1
      rw [g3] at c2
      have : e = f := ids_eq h.ids he0 hf (Option.some.inj c2)
      rw [this] at hT
      exact hT hfx
    · rw [hn] at hi; cases hi
  · intro e he hx
    rcases h1 e he with ⟨he0, _⟩ | ⟨_, hn⟩
    · exact h.iff e he0 (fun hc => hx (hxs _ hc))
    · exact (hx hn).elim

section
variable [FTrans K] [LinearOrder K] [Absc K] [LawfulOrd K]

omit [FTrans K] [LinearOrder K] [Absc K] [LawfulOrd K] in
theorem clearEdge_mem (st : St K) (i : Nat) (e : Edge K) : e ∈ clearEdge st i →
    ∃ f ∈ st.ael, e.eid = f.eid ∧ e.currX = f.currX ∧ (e = f ∨ e.bound = none ∧ ∃ b, st.out.bounds[i]? = some b ∧ b.currEdge = some f.eid) ∧
      ((∃ b, st.out.bounds[i]? = some b ∧ b.currEdge = some f.eid) → e.bound = none) := by
  rw [clearEdge]
  cases hb : st.out.bounds[i]? with
  | none => intro he; exact ⟨e, by simpa using he, rfl, rfl, Or.inl rfl, by simp⟩
  | some b =>
    simp only [Option.bind_some]
    cases hc : b.currEdge with
    | none =>
      intro he
      exact ⟨e, by simpa using he, rfl, rfl, Or.inl rfl, by rintro ⟨b', h1, h2⟩; cases h1; rw [hc] at h2; cases h2⟩
    | some id =>
      simp only [setBound]
      intro he
      obtain ⟨f, hf, rfl⟩ := List.mem_map.1 he
      refine ⟨f, hf, ?_, ?_, ?_, ?_⟩
      · split <;> rfl
      · split <;> rfl
      · by_cases hi : f.eid = id
        · rw [if_pos hi]; exact Or.inr ⟨rfl, b, rfl, by rw [hc, hi]⟩
        · rw [if_neg hi]; exact Or.inl rfl
      · rintro ⟨b', h1, h2⟩
        cases h1
        rw [hc] at h2
        rw [if_pos (Option.some.inj h2).symm]

omit [FTrans K] [LinearOrder K] [Absc K] [LawfulOrd K] in
theorem clearEdge_eid (st : St K) (i : Nat) : (clearEdge st i).map Edge.eid = st.ael.map Edge.eid := by
  rw [clearEdge]
  split
  · rw [setBound, List.map_map]
    refine List.map_congr_left (fun e _ => ?_)
    simp only [Function.comp_apply]
    split <;> rfl
  · rfl

omit [FTrans K] [LinearOrder K] [Absc K] [LawfulOrd K] in
theorem clearEdge_keep (st : St K) (i : Nat) (e : Edge K) (he : e ∈ st.ael)
    (h : ¬ ∃ b, st.out.bounds[i]? = some b ∧ b.currEdge = some e.eid) : e ∈ clearEdge st i := by
  rw [clearEdge]
  cases hb : st.out.bounds[i]? with
  | none => exact he
  | some b =>
    simp only [Option.bind_some]
    cases hc : b.currEdge with
    | none => exact he
    | some id =>
      refine List.mem_map.2 ⟨e, he, ?_⟩
      rw [if_neg]
      intro hid
      exact h ⟨b, hb, by rw [hc, hid]⟩

/-- Joining two neighbouring bounds that have met. -/
theorem Mid.join {p : Edge K → Bool} (hp : ∀ e b, p { e with bound := b } = p e) {xs : List K} {st : St K} {l q : List Nat} {i j : Nat} {sx : Nat → K} {wd : Nat → Int}
    {tip : Nat → Vec2 K} {em : Multiset (Piece K)} (h : Mid p xs st.ael st.out (l ++ i :: j :: q) sx wd tip em) (hx : sx i = sx j)
    (hw : wd i = 1 ∨ wd i = -1) (hd : wd j = - wd i) (ht : tip i = tip j) (hm : sx i ∈ xs) (y : K) :
    ∃ st', st.join i j y = some st' ∧ Mid p xs st'.ael st'.out (l ++ q) sx wd tip em := by
  have hnd : (l ++ i :: j :: q).Nodup := h.rep.2.1
  have hij : i ≠ j := by
    rintro rfl
    rw [List.nodup_append] at hnd
    have := (List.nodup_cons.1 hnd.2.1).1
    simp at this
  obtain ⟨a, a1, a2, a3, a4⟩ := h.bnd i (by simp)
  obtain ⟨b, b1, b2, b3, b4⟩ := h.bnd j (by simp)
  obtain ⟨o', j1, j2, j3, j4, j5, _⟩ := Outs.join_spec h.poly hij (by simp) (by simp) a1 b1
    (by
      rw [Bound.isUp, Bound.isUp, a3, b3, hd]
      rcases hw with hw | hw <;> rw [hw] <;> rfl) y (fun _ => ht) (fun hc => (hc (by rw [a2, b2, hx])).elim) l q h.rep
    (fun k hk => h.poly.lt hk)
  rw [ht, conn_self, ite_self, add_zero] at j2
  have hmem : ∀ k, k ∈ l ++ q → k ∈ l ++ i :: j :: q ∧ k ≠ i ∧ k ≠ j := by
    intro k hk
    rw [List.nodup_append] at hnd
    obtain ⟨n1, n2, n3⟩ := hnd
    rw [List.nodup_cons, List.nodup_cons] at n2
    rcases List.mem_append.1 hk with hk | hk
    · exact ⟨by simp [hk], fun e => n3 k hk i (by simp) e, fun e => n3 k hk j (by simp) e⟩
    · refine ⟨by simp [hk], ?_, ?_⟩
      · rintro rfl; exact n2.1 (by simp [hk])
      · rintro rfl; exact n2.2.1 hk
  have hset : {k | k ∈ l ++ q} = {k | k ∈ l ++ i :: j :: q} \ {i, j} := by
    ext k
    simp only [Set.mem_setOf_eq, Set.mem_diff, Set.mem_insert_iff, Set.mem_singleton_iff, not_or]
    constructor
    · intro hk; exact hmem k hk
    · rintro ⟨hk, h1, h2⟩
      simp only [List.mem_append, List.mem_cons] at hk ⊢
      tauto
  refine ⟨_, by rw [St.join, j1]; rfl, ?_⟩
  -- the edges
  have hE : ∀ e ∈ clearEdge { st with ael := clearEdge st i } j, ∃ f ∈ st.ael, e.eid = f.eid ∧ e.currX = f.currX ∧
      (e = f ∨ e.bound = none ∧ (a.currEdge = some f.eid ∨ b.currEdge = some f.eid)) ∧
      (a.currEdge = some f.eid ∨ b.currEdge = some f.eid → e.bound = none) := by
    intro e he
    obtain ⟨f, hf, f1, f2, f3, f4⟩ := clearEdge_mem _ j e he
    obtain ⟨g, hg, g1, g2, g3, g4⟩ := clearEdge_mem st i f hf
    refine ⟨g, hg, f1.trans g1, f2.trans g2, ?_, ?_⟩
    · rcases f3 with rfl | ⟨f3, c, c1, c2⟩
      · rcases g3 with rfl | ⟨g3, c, c1, c2⟩
        · exact Or.inl rfl
        · rw [a1] at c1; cases c1; exact Or.inr ⟨g3, Or.inl c2⟩
      · simp only at c1; rw [b1] at c1; cases c1; exact Or.inr ⟨f3, Or.inr (by rw [← g1]; exact c2)⟩
    · rintro (hc | hc)
      · have := g4 ⟨a, a1, hc⟩
        rcases f3 with rfl | ⟨f3, _⟩
        · exact this
        · exact f3
      · exact f4 ⟨b, b1, by rw [g1]; exact hc⟩
  have hids : ((clearEdge { st with ael := clearEdge st i } j).map Edge.eid).Nodup := by
    rw [clearEdge_eid, clearEdge_eid]; exact h.ids
  refine ⟨hids, j3, by rw [hset]; exact j2, ?_, ?_, ?_⟩
  · intro k hk
    obtain ⟨k1, k2, k3⟩ := hmem k hk
    obtain ⟨c, c1, c2, c3, c4⟩ := h.bnd k k1
    obtain ⟨c', d1, d2, d3, d4⟩ := j5 k c c1
    rw [if_neg (by tauto)] at d4
    refine ⟨c', d1, by rw [d3, c2], by rw [d2, c3], fun id hid => ?_⟩
    rw [d4] at hid
    obtain ⟨e, he, e1, e2, e3⟩ := c4 id hid
    refine ⟨e, ?_, e1, e2, e3⟩
    have hne : ∀ (m : Nat) (bm : Bound K), m ∈ l ++ i :: j :: q → st.out.bounds[m]? = some bm → k ≠ m → bm.currEdge ≠ some e.eid := by
      intro m bm hmm hbm hkm hc
      obtain ⟨z, z1, _, _, z4⟩ := h.bnd m hmm
      rw [hbm] at z1; cases z1
      obtain ⟨f, hf, f1, f2, _⟩ := z4 _ hc
      have := ids_eq h.ids hf he f1
      rw [this, e2] at f2
      exact hkm (Option.some.inj f2)
    refine clearEdge_keep _ j e (clearEdge_keep st i e he ?_) ?_
    · rintro ⟨z, z1, z2⟩
      exact hne i z (by simp) z1 k2 z2
    · rintro ⟨z, z1, z2⟩
      exact hne j z (by simp) z1 k3 z2
  · intro e he k hk
    obtain ⟨f, hf, f1, f2, f3, f4⟩ := hE e he
    rcases f3 with rfl | ⟨f3, _⟩
    · obtain ⟨g1, c, g2, g3⟩ := h.own e hf k hk
      have k2 : k ≠ i := by
        rintro rfl
        rw [a1] at g2; cases g2
        rw [f4 (Or.inl g3)] at hk; cases hk
      have k3 : k ≠ j := by
        rintro rfl
        rw [b1] at g2; cases g2
        rw [f4 (Or.inr g3)] at hk; cases hk
      obtain ⟨c', d1, _, _, d4⟩ := j5 k c g2
      rw [if_neg (by tauto)] at d4
      refine ⟨?_, c', d1, by rw [d4, g3]⟩
      simp only [List.mem_append, List.mem_cons] at g1 ⊢
      tauto
    · rw [f3] at hk; cases hk
  · intro e he hxe
    obtain ⟨f, hf, f1, f2, f3, f4⟩ := hE e he
    rcases f3 with rfl | ⟨f3, hc⟩
    · exact h.iff e hf hxe
    · exfalso
      apply hxe
      rw [f2]
      rcases hc with hc | hc
      · obtain ⟨g, hg, g1, _, g3⟩ := a4 _ hc
        rw [← ids_eq h.ids hg hf g1]
        rcases g3 with g3 | g3
        · rw [g3]; exact hm
        · exact g3
      · obtain ⟨g, hg, g1, _, g3⟩ := b4 _ hc
        rw [← ids_eq h.ids hg hf g1]
        rcases g3 with g3 | g3
        · rw [g3, ← hx]; exact hm
        · exact g3

/-- `close_output`. -/
theorem Mid.closeGo {p : Edge K → Bool} (hp : ∀ e b, p { e with bound := b } = p e) {xs : List K} {sx : Nat → K} {wd : Nat → Int}
    {tip : Nat → Vec2 K} {em : Multiset (Piece K)} (y : K) (O : List Nat) (ht : ∀ i ∈ O, ∀ j ∈ O, sx i = sx j → tip i = tip j)
    (hm : ∀ i ∈ O, ∀ j ∈ O, i ≠ j → sx i = sx j → sx i ∈ xs) (n : Nat) : ∀ (fuel : Nat) (l q : List Nat) (c : Nat) (st : St K) (τ : Int),
    (c :: q).length ≤ n → (c :: q).length ≤ fuel → Mid p xs st.ael st.out (l ++ c :: q) sx wd tip em → (∀ i ∈ l ++ c :: q, i ∈ O) →
    (τ = 1 ∨ τ = -1) → AltDir wd τ (c :: q) →
    ∃ st', River.closeGo y fuel st c = some st' ∧ Mid p xs st'.ael st'.out (l ++ keepPairs sx (c :: q)) sx wd tip em ∧
      ((∀ i ∈ O, ∀ j ∈ O, i ≠ j → sx i ≠ sx j) → st' = st) := by
  induction n using Nat.strong_induction_on with
  | _ n ih =>
    intro fuel l q c st τ hn hf h hO hτ ha
    have hr := ((Links.represents_iff ..).1 h.rep)
    obtain ⟨fuel, rfl⟩ : ∃ f, fuel = f + 1 := ⟨fuel - 1, by simp only [List.length_cons] at hf; omega⟩
    obtain ⟨b, b1, b2, b3, _⟩ := h.bnd c (by simp)
    have hnext : b.next = q.head? := by
      have := (Links.chainE_next hr.2.2).1
      simp only [Outs.links, b1, Option.bind_some, Option.or_none] at this
      exact this
    rw [River.closeGo, b1, Option.bind_some]
    simp only [hnext]
    match q, hn, hf, h, hO, ha with
    | [], _, _, h, _, _ =>
      simp only [List.head?_nil]
      exact ⟨st, rfl, h, fun _ => rfl⟩
    | m :: q, hn, hf, h, hO, ha =>
      have hr := ((Links.represents_iff ..).1 h.rep)
      obtain ⟨bm, m1, m2, m3, _⟩ := h.bnd m (by simp)
      have hnext2 : bm.next = q.head? := by
        have h4 := hr.2.2
        rw [show l ++ c :: m :: q = (l ++ [c]) ++ m :: q by simp] at h4
        have := (Links.chainE_next h4).1
        simp only [Outs.links, m1, Option.bind_some, Option.or_none] at this
        exact this
      obtain ⟨d1, d2, d3⟩ := ha
      rw [neg_neg] at d3
      simp only [List.head?_cons, m1, Option.bind_some]
      have hcm : c ≠ m := by
        rintro rfl
        have := hr.2.1
        rw [List.nodup_append] at this
        have := (List.nodup_cons.1 this.2.1).1
        simp at this
      simp only [List.length_cons] at hn hf
      have hcond : (b.stopX ==. bm.stopX) = decide (sx c = sx m) := by rw [eq_eq_decide, b2, m2]
      rw [hcond]
      by_cases hx : sx c = sx m
      · obtain ⟨st1, q1, q2⟩ := h.join hp hx (by rw [d1]; exact hτ) (by rw [d1, d2]) (ht c (hO c (by simp)) m (hO m (by simp)) hx)
          (hm c (hO c (by simp)) m (hO m (by simp)) hcm hx) y
        rw [if_pos (by simpa using hx), q1, Option.bind_some, hnext2, keepPairs, if_pos hx]
        cases q with
        | nil =>
          refine ⟨st1, rfl, by simpa [keepPairs] using q2, fun hc => absurd hx (hc c (hO c (by simp)) m (hO m (by simp)) hcm)⟩
        | cons c' q =>
          simp only [List.length_cons] at hn hf
          simp only [List.head?_cons]
          obtain ⟨st2, r1, r2, _⟩ := ih (q.length + 1) (by omega) fuel l q c' st1 τ (le_refl _) (by simp only [List.length_cons]; omega) q2 (fun i hi => hO i (by
            rcases List.mem_append.1 hi with h | h
            · simp [h]
            · rcases List.mem_cons.1 h with h | h <;> simp [h])) hτ d3
          exact ⟨st2, r1, r2, fun hc => absurd hx (hc c (hO c (by simp)) m (hO m (by simp)) hcm)⟩
      · rw [if_neg (by simpa using hx), Option.bind_some, hnext2, keepPairs, if_neg hx]
        cases q with
        | nil => exact ⟨st, rfl, by simpa [keepPairs] using h, fun _ => rfl⟩
        | cons c' q =>
          simp only [List.length_cons] at hn hf
          simp only [List.head?_cons]
          obtain ⟨st2, r1, r2, r3⟩ := ih (q.length + 1) (by omega) fuel (l ++ [c, m]) q c' st τ (le_refl _) (by simp only [List.length_cons]; omega) (by simpa using h)
            (fun i hi => hO i (by simpa using hi)) hτ d3
          exact ⟨st2, r1, by simpa using r2, r3⟩

theorem Mid.closeOutput {p : Edge K → Bool} (hp : ∀ e b, p { e with bound := b } = p e) {xs : List K} {sx : Nat → K} {wd : Nat → Int}
    {tip : Nat → Vec2 K} {em : Multiset (Piece K)} (y : K) {st : St K} {obl : List Nat} {σ : Int} (h : Mid p xs st.ael st.out obl sx wd tip em)
    (ht : ∀ i ∈ obl, ∀ j ∈ obl, sx i = sx j → tip i = tip j) (hm : ∀ i ∈ obl, ∀ j ∈ obl, i ≠ j → sx i = sx j → sx i ∈ xs)
    (hσ : σ = 1 ∨ σ = -1) (ha : AltDir wd σ obl) :
    ∃ st', River.closeOutput y st = some st' ∧ Mid p xs st'.ael st'.out (keepPairs sx obl) sx wd tip em ∧
      ((∀ i ∈ obl, ∀ j ∈ obl, i ≠ j → sx i ≠ sx j) → st' = st) := by
  have hr := ((Links.represents_iff ..).1 h.rep)
  have hfirst : st.out.oblFirst = obl.head? := hr.1
  rw [River.closeOutput, hfirst]
  cases obl with
  | nil => exact ⟨st, rfl, h, fun _ => rfl⟩
  | cons c q =>
    simp only [List.head?_cons]
    refine Mid.closeGo hp y (c :: q) ht hm (c :: q).length (st.out.bounds.length + 1) [] q c st σ (le_refl _) ?_ h (fun i hi => hi) hσ ha
    have hsub : (c :: q) ⊆ List.range st.out.bounds.length := fun i hi => List.mem_range.2 (h.poly.lt hi)
    have := (List.subperm_of_subset hr.2.1 hsub).length_le
    rw [List.length_range] at this
    omega

end

end River
