import Verif.Lemmas.Mid

/-! # One round of the sweep -/

namespace River
variable {K : Type}

section lists

theorem keepPairs_id {α : Type} [LinearOrder K] (x : α → K) (n : Nat) : ∀ l : List α, l.length ≤ n → l.Pairwise (fun a b => x a ≠ x b) → keepPairs x l = l := by
  induction n using Nat.strong_induction_on with
  | _ n ih =>
    intro l hn h
    match l, hn, h with
    | [], _, _ => rfl
    | [a], _, _ => rfl
    | a :: b :: r, hn, h =>
      rw [List.pairwise_cons, List.pairwise_cons] at h
      simp only [List.length_cons] at hn
      rw [keepPairs, if_neg (h.1 b (by simp)), ih r.length (by omega) r (le_refl _) h.2.2]

theorem forall2_right {α β : Type} {R : α → β → Prop} {l : List α} {m : List β} (h : List.Forall₂ R l m) {b : β} (hb : b ∈ m) : ∃ a ∈ l, R a b := by
  induction h with
  | nil => simp at hb
  | cons h _ ih =>
    rcases List.mem_cons.1 hb with rfl | hb
    · exact ⟨_, List.mem_cons_self, h⟩
    · obtain ⟨a, ha, h⟩ := ih hb
      exact ⟨a, List.mem_cons_of_mem _ ha, h⟩

theorem forall2_left {α β : Type} {R : α → β → Prop} {l : List α} {m : List β} (h : List.Forall₂ R l m) {a : α} (ha : a ∈ l) :
    ∃ b ∈ m, R a b ∧ (a, b) ∈ l.zip m := by
  induction h with
  | nil => simp at ha
  | cons h _ ih =>
    rcases List.mem_cons.1 ha with rfl | ha
    · exact ⟨_, List.mem_cons_self, h, by simp⟩
    · obtain ⟨b, hb, h, hz⟩ := ih ha
      exact ⟨b, List.mem_cons_of_mem _ hb, h, by simp [hz]⟩

theorem forall2_zip {α β : Type} {R : α → β → Prop} {l : List α} {m : List β} (h : List.Forall₂ R l m) {q : α × β} (hq : q ∈ l.zip m) :
    q.1 ∈ l ∧ q.2 ∈ m ∧ R q.1 q.2 := by
  induction h with
  | nil => simp at hq
  | cons h _ ih =>
    rw [List.zip_cons_cons, List.mem_cons] at hq
    rcases hq with rfl | hq
    · exact ⟨List.mem_cons_self, List.mem_cons_self, h⟩
    · obtain ⟨h1, h2, h3⟩ := ih hq
      exact ⟨List.mem_cons_of_mem _ h1, List.mem_cons_of_mem _ h2, h3⟩

end lists

/-- Detaching a list of edges. -/
theorem foldl_detach (l : List (Edge K)) (o : Outs K) : (l.foldl detach o).links = o.links ∧ (l.foldl detach o).polys = o.polys ∧
    ∀ (i : Nat) b, o.bounds[i]? = some b → ∃ b', (l.foldl detach o).bounds[i]? = some b' ∧ b'.owner = b.owner ∧ b'.stopX = b.stopX ∧
      b'.windDx = b.windDx ∧ ((∃ e ∈ l, e.bound = some i) → b'.currEdge = none) ∧ ((¬ ∃ e ∈ l, e.bound = some i) → b'.currEdge = b.currEdge) := by
  induction l generalizing o with
  | nil => exact ⟨rfl, rfl, fun i b h => ⟨b, h, rfl, rfl, rfl, by simp, fun _ => rfl⟩⟩
  | cons e l ih =>
    rw [List.foldl_cons]
    obtain ⟨h1, h2, h3⟩ := ih (detach o e)
    cases he : e.bound with
    | none =>
      have hd : detach o e = o := by rw [detach, he]
      rw [hd] at h1 h2 h3 ⊢
      refine ⟨h1, h2, fun i b hb => ?_⟩
      obtain ⟨b', g1, g2, g3, g4, g5, g6⟩ := h3 i b hb
      have hiff : (∃ f ∈ e :: l, f.bound = some i) ↔ ∃ f ∈ l, f.bound = some i := by
        constructor
        · rintro ⟨f, hf, hfb⟩
          rcases List.mem_cons.1 hf with rfl | hf
          · rw [he] at hfb; cases hfb
          · exact ⟨f, hf, hfb⟩
        · rintro ⟨f, hf, hfb⟩; exact ⟨f, List.mem_cons_of_mem _ hf, hfb⟩
      rw [hiff]
      exact ⟨b', g1, g2, g3, g4, g5, g6⟩
    | some k =>
      have hd : detach o e = o.modB k (fun x => { x with currEdge := none }) := by rw [detach, he]
      rw [hd] at h1 h2 h3 ⊢
      refine ⟨h1.trans (links_modB_same _ k (fun x => { x with currEdge := none }) (fun b => ⟨rfl, rfl⟩)), h2, fun i b hb => ?_⟩
      by_cases hk : k = i
      · subst hk
        obtain ⟨b', g1, g2, g3, g4, g5, g6⟩ := h3 k { b with currEdge := none } (by rw [getB_modB, if_pos rfl, hb]; rfl)
        have hnone : b'.currEdge = none := by
          by_cases hex : ∃ f ∈ l, f.bound = some k
          · exact g5 hex
          · exact g6 hex
        exact ⟨b', g1, g2, g3, g4, fun _ => hnone, fun hn => absurd ⟨e, List.mem_cons_self, he⟩ hn⟩
      · obtain ⟨b', g1, g2, g3, g4, g5, g6⟩ := h3 i b (by rw [getB_modB, if_neg hk]; exact hb)
        have hiff : (∃ f ∈ e :: l, f.bound = some i) ↔ ∃ f ∈ l, f.bound = some i := by
          constructor
          · rintro ⟨f, hf, hfb⟩
            rcases List.mem_cons.1 hf with rfl | hf
            · rw [he] at hfb; exact absurd (Option.some.inj hfb) hk
            · exact ⟨f, hf, hfb⟩
          · rintro ⟨f, hf, hfb⟩; exact ⟨f, List.mem_cons_of_mem _ hf, hfb⟩
        rw [hiff]
        exact ⟨b', g1, g2, g3, g4, g5, g6⟩

theorem foldl_cond {α β : Type} (c : α → Bool) (g : α → β) (F : Outs K → β → Outs K) (l : List α) (o : Outs K) :
    l.foldl (fun o a => if c a then F o (g a) else o) o = ((l.filter c).map g).foldl F o := by
  induction l generalizing o with
  | nil => rfl
  | cons a l ih =>
    rw [List.foldl_cons, ih]
    cases hc : c a with
    | true => rw [List.filter_cons_of_pos hc]; simp
    | false => rw [List.filter_cons_of_neg (by rw [hc]; simp)]; simp

variable [FTrans K] [LinearOrder K] [Absc K] [LawfulOrd K] {rings : List (Ring K)}

/-! ## what is recorded at the top of a beam -/

omit [LawfulOrd K] in
theorem Beam.xsorted {fr : FillRule} {y y' : K} {ael : List (Edge K)} (b : Beam rings fr y ael) (hbel : ∀ e ∈ ael, (sideOf rings e).Below y') :
    ael.Pairwise (fun e f => (sideOf rings e).x y' ≤ (sideOf rings f).x y') := by
  refine b.sorted.imp_of_mem ?_
  intro e f he hf h
  exact h.below (hbel e he) (hbel f hf)

/-- The abscissas recorded at the top of a beam. -/
def marksAt (rings : List (Ring K)) (y' : K) (last : K) (ael : List (Edge K)) (ch : List K) : List K :=
  topCh last (ael.map (fun e => ((sideOf rings e).x y', topX rings y' e))) ch

omit [LawfulOrd K] in
theorem marks_extra {y' last : K} {ael : List (Edge K)} {ch : List K} {e : Edge K} (he : e ∈ ael) {z : K} (hz : z ∈ topX rings y' e) :
    z ∈ marksAt rings y' last ael ch :=
  topCh_extra last _ ch ((sideOf rings e).x y', topX rings y' e) (List.mem_map_of_mem (f := fun e => ((sideOf rings e).x y', topX rings y' e)) he) z hz

theorem Beam.marks {fr : FillRule} {y y' : K} {ael : List (Edge K)} (b : Beam rings fr y ael) (hbel : ∀ e ∈ ael, (sideOf rings e).Below y')
    (last : K) (ch : List K) : ∀ e ∈ ael, ∀ f ∈ ael, e ≠ f → (sideOf rings e).x y' = (sideOf rings f).x y' →
      (sideOf rings e).x y' ∈ marksAt rings y' last ael ch := by
  have hxle := b.xsorted hbel
  have key : ∀ xs : List (K × List K), (xs.map Prod.fst).Pairwise (· ≤ ·) → (xs.map Prod.fst).Pairwise (fun a b => a = b → a ∈ topCh last xs ch) := by
    intro xs hxs
    cases xs with
    | nil => exact List.Pairwise.nil
    | cons x xs => exact topCh_marks x.1 xs _ hxs
  have hmf : (ael.map (fun e => ((sideOf rings e).x y', topX rings y' e))).map Prod.fst = ael.map (fun e => (sideOf rings e).x y') := by
    rw [List.map_map]; rfl
  have hm := key (ael.map (fun e => ((sideOf rings e).x y', topX rings y' e))) (by rw [hmf]; exact List.pairwise_map.2 hxle)
  rw [hmf] at hm
  have hm := List.pairwise_map.1 hm
  intro e he f hf hne hx
  have hR : Std.Symm (fun e f : Edge K => (sideOf rings e).x y' = (sideOf rings f).x y' →
      (sideOf rings e).x y' ∈ topCh last (ael.map (fun e => ((sideOf rings e).x y', topX rings y' e))) ch) :=
    ⟨fun a b h1 h2 => by rw [h2]; exact h1 h2.symm⟩
  exact hm.forall he hf hne hx

/-- Where an edge ends something is recorded. -/
theorem Beam.max_mark (A : Arranged rings) {fr : FillRule} {y y' : K} {ael : List (Edge K)} (b : Beam rings fr y ael)
    (hgap : ∀ s ∈ sides rings, s.Above y ↔ s.Below y') {e : Edge K} (he : e ∈ ael) (hy : e.top.y = y') (hm : (topN rings e).1 = none)
    (last : K) (ch : List K) : marksAt rings y' last ael ch ≠ [] := by
  have hbel : ∀ e ∈ ael, (sideOf rings e).Below y' := fun e he => (hgap _ ((b.good e he).mem A)).1 (b.good e he).above
  have ge := b.good e he
  obtain ⟨m1, _, u1, _, t1, _, _⟩ := ge.ok.facts A.linked
  obtain ⟨fl, t, hw, ht, h1 | h1⟩ := ge.ok.next A
  swap
  · obtain ⟨_, _, e1, e', _, _, h2, _⟩ := h1
    rw [h2] at hm; cases hm
  obtain ⟨htu, htn, _⟩ := h1
  have hti : t.inn e.isUp = t.top := by
    rw [← Side.inn_top, htu, Bool.not_not]
  have heo : (sideOf rings e).out e.isUp = (sideOf rings e).top := by rw [← u1, Side.out_top]
  have hty : t.top.y = y' := by
    have := (hw.height A.linked m1).1
    rw [hti, heo, t1, hy] at this; exact this
  have hbt : t.Below y' := ⟨by rw [← hty]; exact Side.ht ht, hty.ge⟩
  obtain ⟨f, hf, hfs⟩ := b.complete t hw.mem.1 ((hgap t hw.mem.1).2 hbt)
  have gf := b.good f hf
  obtain ⟨m2, _, u2, _, t2, _, _⟩ := gf.ok.facts A.linked
  have hne : e ≠ f := by
    rintro rfl
    rw [hfs] at u1
    rw [u1] at htu
    cases hu : e.isUp <;> rw [hu] at htu <;> cases htu
  have hfu : f.isUp = !e.isUp := by rw [← u2, hfs, htu]
  have hfy : f.top.y = y' := by rw [← t2, hfs, hty]
  cases fl with
  | nil =>
    have hpt := (hw.near A.linked m1).2
    rw [hti, heo] at hpt
    have hpt : t.top = (sideOf rings e).top := by
      rcases hpt with h | h
      · exact h.2
      · cases h
    have hx : (sideOf rings e).x y' = (sideOf rings f).x y' := by
      have e1 : (sideOf rings e).x y' = (sideOf rings e).top.x := by rw [← hy, ← t1]; exact Side.x_top (Side.ht ge.above.steep)
      have e2 : t.x y' = t.top.x := by rw [← hty]; exact Side.x_top (Side.ht ht)
      rw [e1, hfs, e2, hpt]
    exact List.ne_nil_of_mem (b.marks hbel last ch e he f hf hne hx)
  | cons g fl =>
    cases hu : e.isUp with
    | true =>
      rw [hu, if_pos rfl] at htn
      refine List.ne_nil_of_mem (marks_extra (z := (g.out true).x) he ?_)
      rw [topX, if_pos hy, htn]
      simp
    | false =>
      rw [hu] at hw hfu htu
      have hrev := hw.rev m1
      obtain ⟨fl', t', hw', ht', h2⟩ := gf.ok.next A
      rw [hfu, hfs] at hw'
      obtain ⟨q1, q2⟩ := hw'.unique hrev ht' ge.above.steep
      have htn' : topN rings f = (none, fl'.map (fun g => (g.out f.isUp).x)) := by
        rcases h2 with ⟨_, h3, _⟩ | ⟨h3, _⟩
        · rw [hfu, Bool.not_false, if_pos rfl] at h3
          rw [hfu]; exact h3
        · rw [q2, u1, hu, hfu] at h3; cases h3
      refine List.ne_nil_of_mem (marks_extra (z := (g.out f.isUp).x) hf ?_)
      rw [topX, if_pos hfy, htn', q1]
      simp

/-! ## at a scan line -/

/-- The output at the scan line `y`, before its local minima are inserted. `S` are the sides the bounds have been drawn along. -/
structure HighOut (rings : List (Ring K)) (ct : ClipType) (fr : FillRule) (σ : Int) (y : K) (st : St K) (obl : List Nat) (sx : Nat → K)
    (wd : Nat → Int) (tip : Nat → Vec2 K) (S : Nat → Side K) (em : Multiset (Piece K)) : Prop where
  mid : Mid (isContributing ct fr) st.changes st.ael st.out obl sx wd tip em
  sortedB : obl.Pairwise (fun a b => sx a ≤ sx b)
  altB : AltDir wd σ obl
  dirB : ∀ i ∈ obl, wd i = 1 ∨ wd i = -1
  parity : ∀ X, Odd (obl.countP (fun i => decide (sx i < X))) ↔ InBelow rings ct fr y X
  even : Even obl.length
  srcMem : ∀ i ∈ obl, S i ∈ sides rings ∧ (S i).Below y ∧ sx i = (S i).x y ∧ tip i = (if (S i).top.y = y then (S i).top else (S i).bot)
  srcBd : ∀ i ∈ obl, Boundary rings ct fr (S i) (S i).bot.y
  srcInj : ∀ i ∈ obl, ∀ j ∈ obl, Twin (S i) (S j) → i = j
  srcAll : ∀ s ∈ sides rings, s.Below y → y < s.top.y → Boundary rings ct fr s s.bot.y → ∃ i ∈ obl, Twin (S i) s
  mark : ∀ i ∈ obl, ∀ j ∈ obl, i ≠ j → sx i = sx j → sx i ∈ st.changes
  same : st.changes = [] → st.ael.filterMap Edge.bound = obl ∧ ∀ e ∈ st.ael, ∀ i, e.bound = some i → wd i = e.windDx ∧ tip i = e.bot

theorem altDir_cases {α : Type} {d : α → Int} {τ : Int} (hτ : τ = 1 ∨ τ = -1) {l : List α} (h : AltDir d τ l) : ∀ a ∈ l, d a = 1 ∨ d a = -1 := by
  induction l generalizing τ with
  | nil => simp
  | cons a l ih =>
    intro b hb
    rcases List.mem_cons.1 hb with rfl | hb
    · rw [h.1]; exact hτ
    · exact ih (by rcases hτ with h | h <;> rw [h] <;> simp) h.2 b hb

theorem marks_iff (ch : List K) (x : K) : x ∈ uniqNum (sortNum ch) ↔ x ∈ ch := by
  obtain ⟨u1, _⟩ := uniqNum_spec _ (sortNum_sorted ch)
  exact (u1 x).trans (sortNum_perm _).mem_iff

/-- The second half of a round. -/
theorem Low.down (A : Arranged rings) {ct : ClipType} {fr : FillRule} {σ : Int} (hσ : σ = 1 ∨ σ = -1) (D : Directed rings ct fr σ) {y y' : K}
    {st : St K} {sc : List K} (L : Low rings fr y st) (hp : popScan y st.scan = some (y', sc)) {NL : List Nat} {tip : Nat → Vec2 K}
    {em : Multiset (Piece K)} (OL : OutLow (boundEdges rings ct fr st.ael) st.ael st.out NL tip em) :
    ∃ st1 obl sx wd tip' S, sweepB rings y' { st with scan := sc } = some st1 ∧ High rings fr y' st1 ∧
      HighOut rings ct fr σ y' st1 obl sx wd tip' S (em + endPieces rings y' st.ael) := by
  have hg := L.gap A hp
  have hbel : ∀ e ∈ st.ael, (sideOf rings e).Below y' := fun e he => (hg _ ((L.beam.good e he).mem A)).1 (L.beam.good e he).above
  obtain ⟨_, hps⟩ := popScan_spec y st.scan L.scanSorted (fun z hz => (L.scanGt z hz).le)
  obtain ⟨_, hlt, hmin, _, _⟩ := hps y' sc hp
  have hNLnd : NL.Nodup := OL.rep.2.1
  have BB := L.beam.bounding A ct hσ D
  obtain ⟨C, hC⟩ : ∃ C, C = boundEdges rings ct fr st.ael := ⟨_, rfl⟩
  rw [← hC] at BB OL
  have hmemNL : ∀ e ∈ st.ael, ∀ i, e.bound = some i → i ∈ NL := by
    intro e he i hi; rw [← OL.list]; exact List.mem_filterMap.2 ⟨e, he, hi⟩
  have hcov : ∀ i ∈ NL, ∃ e ∈ st.ael, e.bound = some i := by
    intro i hi; rw [← OL.list] at hi; exact List.mem_filterMap.1 hi
  -- the loop over the edges
  obtain ⟨o1, tip1, f1, f2, f3, f4, f5⟩ := top_fold A y' {i | i ∈ NL} st.ael st.out tip em OL.poly (fun e he => (L.beam.good e he).ok) hbel
    (by rw [OL.list]; exact hNLnd) (fun e he i hi => by
      obtain ⟨b, h1, _, h3, h4⟩ := OL.bound e he i hi
      exact ⟨hmemNL e he i hi, b, h1, h3, h4⟩)
  obtain ⟨sx, hsx⟩ : ∃ sx : Nat → K, sx = fun i => ((o1.bounds[i]?).map Bound.stopX).getD (FNum.lit 0) := ⟨_, rfl⟩
  obtain ⟨wd, hwd⟩ : ∃ wd : Nat → Int, wd = fun i => ((o1.bounds[i]?).map Bound.windDx).getD 0 := ⟨_, rfl⟩
  have hfact : ∀ e ∈ st.ael, ∀ i, e.bound = some i → sx i = (sideOf rings e).x y' ∧ wd i = e.windDx ∧ tip1 i = tipAt y' e ∧
      ∃ b1, o1.bounds[i]? = some b1 ∧ b1.stopX = sx i ∧ b1.windDx = wd i ∧
        b1.currEdge = if e.top.y = y' ∧ (topN rings e).1 = none then none else some e.eid := by
    intro e he i hi
    obtain ⟨b, h1, h2, h3, _⟩ := OL.bound e he i hi
    obtain ⟨g1, g2⟩ := f5 e he i b hi h1
    have s1 : sx i = (sideOf rings e).x y' := by rw [hsx]; simp only [g2]; rfl
    have s2 : wd i = e.windDx := by rw [hwd]; simp only [g2]; exact h3
    refine ⟨s1, s2, g1, _, g2, s1.symm, ?_, ?_⟩
    · rw [s2]; exact h3
    · simp only [h2]
  obtain ⟨c0, s0⟩ := L.beam.top A hlt hg st.mins
    (fun m hm => ⟨((L.mins m).1 hm).1, hmin _ (L.minsScan m hm) ((L.mins m).1 hm).2⟩)
    (fun m hm hy => (L.mins m).2 ⟨hm, by rw [hy]; exact hlt⟩) (FNum.neg FNum.maxNum) []
  have hspec : ∀ e ∈ st.ael, ∀ e', topE rings y' e = some e' → ∃ fl, TopRel rings y' e e' fl := fun e he e' h => topE_spec A (L.beam.good e he) (hbel e he) h
  have hpc : ∀ e ∈ st.ael, ∀ e', topE rings y' e = some e' → isContributing ct fr e' = isContributing ct fr e := by
    intro e he e' h
    obtain ⟨_, c⟩ := hspec e he e' h
    unfold isContributing
    rw [c.ptype, c.cnt, c.cnt2]
  obtain ⟨T, hT⟩ : ∃ T, T = topSt rings y' sc st o1 := ⟨_, rfl⟩
  have hTael : T.ael = st.ael.filterMap (topE rings y') := by rw [hT]; rfl
  have hTout : T.out = o1 := by rw [hT]; rfl
  have hTch : T.changes = marksAt rings y' (FNum.neg FNum.maxNum) st.ael [] := by rw [hT]; rfl
  have hmax : ∀ e ∈ st.ael, topE rings y' e = none → e.top.y = y' ∧ (topN rings e).1 = none := by
    intro e he h
    rw [topE] at h
    split at h
    · next hy => exact ⟨hy, h⟩
    · cases h
  have hmaxn : ∀ e ∈ st.ael, ∀ e', topE rings y' e = some e' → ¬ (e.top.y = y' ∧ (topN rings e).1 = none) := by
    rintro e he e' h ⟨h1, h2⟩
    rw [topE, if_pos h1, h2] at h; cases h
  have M1 : Mid (isContributing ct fr) T.changes T.ael T.out NL sx wd tip1 (em + endPieces rings y' st.ael) := by
    rw [hTael, hTout, hTch]
    refine ⟨c0.ids, by rw [f2]; exact OL.rep, f3, ?_, ?_, ?_⟩
    · intro i hi
      obtain ⟨e, he, heb⟩ := hcov i hi
      obtain ⟨h1, h2, h3, b1, h4, h5, h6, h7⟩ := hfact e he i heb
      refine ⟨b1, h4, h5, h6, fun id hid => ?_⟩
      rw [h7] at hid
      split at hid
      · cases hid
      · next hn =>
        cases hid
        cases ht : topE rings y' e with
        | none => exact absurd (hmax e he ht) hn
        | some e' =>
          obtain ⟨fl, c⟩ := hspec e he e' ht
          refine ⟨e', List.mem_filterMap.2 ⟨e, he, ht⟩, c.eid, by rw [c.bound, heb], ?_⟩
          by_cases hfl : fl = []
          · left; rw [c.x0 hfl, h1]
          · exact Or.inr (marks_extra he (c.x1 hfl).1)
    · intro e' he' i hi
      obtain ⟨e, he, ht⟩ := List.mem_filterMap.1 he'
      obtain ⟨_, c⟩ := hspec e he e' ht
      rw [c.bound] at hi
      obtain ⟨h1, h2, h3, b1, h4, h5, h6, h7⟩ := hfact e he i hi
      refine ⟨hmemNL e he i hi, b1, h4, ?_⟩
      rw [h7, if_neg (hmaxn e he e' ht), c.eid]
    · intro e' he' hx
      obtain ⟨e, he, ht⟩ := List.mem_filterMap.1 he'
      obtain ⟨fl, c⟩ := hspec e he e' ht
      rw [hpc e he e' ht, c.bound, ← OL.iff e he]
      refine ⟨fun hc => ?_, fun h => (BB.mem h).2⟩
      have hfl : fl = [] := by
        by_contra hfl
        exact hx (marks_extra he (c.x1 hfl).1)
      refine Beam.bound_alone BB L.beam.diff he hc (fun f hf htw => ?_)
      by_contra hne
      refine hx ?_
      rw [c.x0 hfl]
      exact L.beam.marks hbel _ _ e he f hf (Ne.symm hne) (htw.x_below (hbel f hf)).symm
  -- the list of bounds against the edges
  have hCs : C.Sublist st.ael := BB.sub.trans List.filter_sublist
  have hCm : ∀ e ∈ C, e ∈ st.ael := fun e he => hCs.subset he
  have hCb : ∀ e ∈ C, e.bound = some (e.bound.getD 0) := by
    intro e he
    obtain ⟨i, hi⟩ := Option.isSome_iff_exists.1 ((OL.iff e (hCm e he)).1 he)
    rw [hi]; rfl
  have hNL : NL = C.map (fun e => e.bound.getD 0) := by
    rw [← OL.list, filterMap_sublist _ hCs (List.Nodup.of_map _ L.beam.ids) (fun e he h => ?_), ← List.filterMap_eq_map]
    · exact List.filterMap_congr (fun e he => hCb e he)
    · cases hb : e.bound with
      | none => rfl
      | some i => exact absurd ((OL.iff e he).2 (by rw [hb]; rfl)) h
  have hsxm : NL.map sx = C.map (fun e => (sideOf rings e).x y') := by
    rw [hNL, List.map_map]
    exact List.map_congr_left (fun e he => (hfact e (hCm e he) _ (hCb e he)).1)
  have hwdm : NL.map wd = C.map Edge.windDx := by
    rw [hNL, List.map_map]
    exact List.map_congr_left (fun e he => (hfact e (hCm e he) _ (hCb e he)).2.1)
  have hsorted : NL.Pairwise (fun a b => sx a ≤ sx b) := by
    rw [← List.pairwise_map (f := sx) (R := fun a b => a ≤ b), hsxm, List.pairwise_map]
    exact (L.beam.xsorted hbel).sublist hCs
  have halt : AltDir wd σ NL := by
    rw [altDir_map, hwdm, ← altDir_map]
    exact BB.alt
  have hcount : ∀ X, NL.countP (fun i => decide (sx i < X)) = C.countP (fun e => decide ((sideOf rings e).x y' < X)) := by
    intro X
    have e1 := List.countP_map (p := fun z : K => decide (z < X)) (f := sx) (l := NL)
    have e2 := List.countP_map (p := fun z : K => decide (z < X)) (f := fun e => (sideOf rings e).x y') (l := C)
    rw [hsxm, e2] at e1
    exact e1.symm
  have htop : ∀ e ∈ st.ael, (sideOf rings e).top = e.top := fun e he => ((L.beam.good e he).ok.facts A.linked).2.2.2.2.1
  have hbot : ∀ e ∈ st.ael, (sideOf rings e).bot = e.bot := fun e he => ((L.beam.good e he).ok.facts A.linked).2.2.2.1
  have hbi : ∀ e ∈ st.ael, ∀ f ∈ st.ael, ∀ i, e.bound = some i → f.bound = some i → e = f := by
    intro e he f hf i hei hfi
    obtain ⟨b, h1, h2, _⟩ := OL.bound e he i hei
    obtain ⟨b', h1', h2', _⟩ := OL.bound f hf i hfi
    rw [h1] at h1'; cases h1'
    rw [h2] at h2'
    exact ids_eq L.beam.ids he hf (Option.some.inj h2')
  obtain ⟨S, hS⟩ : ∃ S : Nat → Side K, ∀ e ∈ st.ael, ∀ i, e.bound = some i → S i = sideOf rings e := by
    classical
    refine ⟨fun i => if h : ∃ e ∈ st.ael, e.bound = some i then sideOf rings h.choose else
      ⟨0, 0, ⟨FNum.lit 0, FNum.lit 0⟩, .line ⟨FNum.lit 0, FNum.lit 0⟩, .subject⟩, fun e he i hi => ?_⟩
    have hex : ∃ e ∈ st.ael, e.bound = some i := ⟨e, he, hi⟩
    simp only [dif_pos hex]
    rw [hbi _ hex.choose_spec.1 e he i hex.choose_spec.2 hi]
  have htips : ∀ i ∈ NL, S i ∈ sides rings ∧ (S i).Below y' ∧ sx i = (S i).x y' ∧ tip1 i = (if (S i).top.y = y' then (S i).top else (S i).bot) := by
    intro i hi
    obtain ⟨e, he, heb⟩ := hcov i hi
    obtain ⟨h1, h2, h3, _⟩ := hfact e he i heb
    rw [hS e he i heb]
    refine ⟨(L.beam.good e he).mem A, hbel e he, h1, ?_⟩
    rw [h3, tipAt, htop e he, hbot e he]
  have htipB : ∀ i ∈ NL, ∀ j ∈ NL, sx i = sx j → tip1 i = tip1 j := by
    intro i hi j hj hx
    obtain ⟨s1, s2, s3, s4⟩ := htips i hi
    obtain ⟨t1, t2, t3, t4⟩ := htips j hj
    rcases A.meet_below s1 t1 s2 t2 (by rw [← s3, ← t3, hx]) with h | ⟨h, h'⟩
    · rw [s4, t4, h.top, h.bot]
    · rw [s4, t4, if_pos h'.symm, ← h, if_pos h'.symm]
  have hmarks : ∀ i ∈ NL, ∀ j ∈ NL, i ≠ j → sx i = sx j → sx i ∈ T.changes := by
    intro i hi j hj hne hx
    obtain ⟨e, he, heb⟩ := hcov i hi
    obtain ⟨f, hf, hfb⟩ := hcov j hj
    rw [(hfact e he i heb).1, (hfact f hf j hfb).1] at hx
    rw [(hfact e he i heb).1, hTch]
    refine L.beam.marks hbel _ _ e he f hf ?_ hx
    rintro rfl
    rw [heb] at hfb; exact hne (Option.some.inj hfb)
  obtain ⟨st2, q1, M2, q3⟩ := Mid.closeOutput (fun e b => rfl) y' M1 htipB hmarks hσ halt
  obtain ⟨k1, k2, k4, m0, k5⟩ := keepPairs_spec sx wd NL.length NL σ (le_refl _) hsorted halt
  have hbare := closeOutput_bare y' T st2 q1
  have hch := closeOutput_changes y' T st2 q1
  have hHigh := L.high A hp o1 st2 (by rw [← hT]; exact hbare) (by rw [← hT]; exact hch)
  have hsB : sweepB rings y' { st with scan := sc } = some (resortAel rings st2) := by
    rw [sweepB, L.doTop_eq A hp, f1, Option.map_some, Option.bind_some, ← hT, q1]; rfl
  -- resorting
  obtain ⟨kept, taken, r1, r2, r4, r6, r7⟩ := resortAel_split (rings := rings) st2
  have hrch : (resortAel rings st2).changes = uniqNum (sortNum st2.changes) := rfl
  obtain ⟨d1, d2, d3⟩ := foldl_detach (takeAll (uniqNum (sortNum st2.changes)) st2.ael).2 st2.out
  have htk : (takeAll (uniqNum (sortNum st2.changes)) st2.ael).2 = taken := by rw [r7]
  have hnd2 : (kept ++ taken).Nodup := r1.nodup_iff.2 (List.Nodup.of_map _ M2.ids)
  have M3 : Mid (isContributing ct fr) (resortAel rings st2).changes (resortAel rings st2).ael (resortAel rings st2).out (keepPairs sx NL) sx wd tip1
      (em + endPieces rings y' st.ael) := by
    refine M2.clear hHigh.core.ids ?_ (fun e => e ∈ taken) ?_ ?_ d1 d2 ?_
    · intro x hx; rw [hrch, marks_iff, hch]; exact hx
    · intro e he
      rcases List.mem_append.1 (r6.mem_iff.1 he) with h | h
      · exact Or.inl ⟨r2.subset h, fun hc => (List.nodup_append.1 hnd2).2.2 e h e hc rfl⟩
      · obtain ⟨f, hf, rfl⟩ := List.mem_map.1 h
        refine Or.inr ⟨rfl, ?_⟩
        rw [hrch, marks_iff]; exact r4 f hf
    · intro e he hx
      rcases List.mem_append.1 (r1.mem_iff.2 he) with h | h
      · exact r6.mem_iff.2 (List.mem_append_left _ h)
      · exact absurd h hx
    · intro i b hb
      obtain ⟨b', g1, g2, g3, g4, g5, g6⟩ := d3 i b hb
      rw [htk] at g5 g6
      refine ⟨b', g1, g2, g3, g4, ?_, ?_⟩
      · rintro ⟨e, he, h1, h2⟩; exact g5 ⟨e, h2, h1⟩
      · intro hn
        refine g6 ?_
        rintro ⟨e, he, h1⟩
        exact hn ⟨e, r1.mem_iff.1 (List.mem_append_right _ he), h1, he⟩
  have hbd : ∀ e ∈ st.ael, e.bound.isSome → Boundary rings ct fr (sideOf rings e) (sideOf rings e).bot.y := by
    intro e he h
    have g := L.beam.good e he
    exact (A.boundary_same ct fr (g.mem A) g.above ⟨le_refl _, Side.ht g.above.steep⟩).1 (L.beam.bound_mem A hσ BB ((OL.iff e he).2 h)).1
  have honce : ∀ e ∈ st.ael, ∀ f ∈ st.ael, ∀ i j, e.bound = some i → f.bound = some j → i ≠ j → ¬ Twin (sideOf rings e) (sideOf rings f) := by
    intro e he f hf i j hi hj hne
    have hef : e ≠ f := by rintro rfl; rw [hi] at hj; exact hne (Option.some.inj hj)
    have hsym : Std.Symm (fun e f : Edge K => ¬ Twin (sideOf rings e) (sideOf rings f)) := ⟨fun _ _ h h' => h h'.symm⟩
    exact BB.once.forall ((OL.iff e he).2 (by rw [hi]; rfl)) ((OL.iff f hf).2 (by rw [hj]; rfl)) hef
  refine ⟨_, keepPairs sx NL, sx, wd, tip1, S, hsB, hHigh, M3, hsorted.sublist k1, k2, ?_, ?_, ?_, ?_, ?_, ?_, ?_, ?_, ?_⟩
  · exact altDir_cases hσ k2
  · intro X
    rw [InBelow, ← L.beam.odd_below A hg ct X, ← BB.odd _ (fun e he f hf h => by rw [h.x_below (hbel e he)]), ← hcount]
    obtain ⟨m, hm⟩ := k4 X
    rw [hm, Nat.odd_add]
    simp
  · have := BB.even
    have hlen : NL.length = C.length := by rw [hNL, List.length_map]
    rw [← hlen, k5, Nat.even_add] at this
    simpa using this
  · intro i hi; exact htips i (k1.subset hi)
  · intro i hi
    obtain ⟨e, he, heb⟩ := hcov i (k1.subset hi)
    rw [hS e he i heb]
    exact hbd e he (by rw [heb]; rfl)
  · intro i hi j hj hij
    obtain ⟨e, he, heb⟩ := hcov i (k1.subset hi)
    obtain ⟨f, hf, hfb⟩ := hcov j (k1.subset hj)
    rw [hS e he i heb, hS f hf j hfb] at hij
    by_contra hne
    exact honce e he f hf i j heb hfb hne hij
  · intro s hs hb hty hbs
    obtain ⟨e0, he0, hes⟩ := L.beam.complete s hs ((hg s hs).2 hb)
    obtain ⟨e, heC, het⟩ := L.beam.bound_all A BB he0 (by
      rw [hes]
      exact (A.boundary_same ct fr hs ⟨le_refl _, Side.ht hb.steep⟩ ((hg s hs).2 hb)).1 hbs)
    have he := hCm e heC
    have hi := hCb e heC
    generalize e.bound.getD 0 = i at hi
    have hSi : Twin (S i) s := by rw [hS e he i hi, ← hes]; exact het
    refine ⟨i, ?_, hSi⟩
    by_contra hk
    obtain ⟨j, hj, hne, hx⟩ := keepPairs_gone sx _ NL (le_refl _) hNLnd i (hmemNL e he i hi) hk
    obtain ⟨f, hf, hfb⟩ := hcov j hj
    obtain ⟨s1, s2, s3, _⟩ := htips i (hmemNL e he i hi)
    obtain ⟨t1, t2, t3, _⟩ := htips j hj
    rcases A.meet_below s1 t1 s2 t2 (by rw [← s3, ← t3, hx]) with h | ⟨h, h'⟩
    · rw [hS e he i hi, hS f hf j hfb] at h
      exact honce e he f hf i j hi hfb (Ne.symm hne) h
    · rw [hSi.top] at h'
      exact hty.ne h'
  · intro i hi j hj hne hx
    rw [hrch, marks_iff, hch]
    exact hmarks i (k1.subset hi) j (k1.subset hj) hne hx
  · intro hempty
    have hch0 : T.changes = [] := by
      rw [List.eq_nil_iff_forall_not_mem]
      intro x hx
      rw [← hch, ← marks_iff, ← hrch, hempty] at hx
      simp at hx
    have hdist : ∀ i ∈ NL, ∀ j ∈ NL, i ≠ j → sx i ≠ sx j := by
      intro i hi j hj hne hx
      have := hmarks i hi j hj hne hx
      rw [hch0] at this; simp at this
    have h2 := q3 hdist
    have hra : (resortAel rings st2).ael = T.ael := by
      rw [h2, resortAel, hch0]
      rfl
    have hkp : keepPairs sx NL = NL := keepPairs_id sx _ NL (le_refl _)
      (List.Pairwise.imp_of_mem (fun ha hb h => hdist _ ha _ hb h) hNLnd)
    rw [hkp, hra, hTael]
    refine ⟨?_, ?_⟩
    · rw [List.filterMap_filterMap, ← OL.list]
      refine List.filterMap_congr (fun e he => ?_)
      cases ht : topE rings y' e with
      | none =>
        exfalso
        obtain ⟨h3, h4⟩ := hmax e he ht
        exact L.beam.max_mark A hg he h3 h4 (FNum.neg FNum.maxNum) [] (by rw [← hTch]; exact hch0)
      | some e' =>
        obtain ⟨_, c⟩ := hspec e he e' ht
        simp [c.bound]
    · intro e' he' i hi
      obtain ⟨e, he, ht⟩ := List.mem_filterMap.1 he'
      obtain ⟨fl, c⟩ := hspec e he e' ht
      rw [c.bound] at hi
      obtain ⟨g1, g2, g3, _⟩ := hfact e he i hi
      have hb' := (c.good.ok.facts A.linked).2.2.2.1
      refine ⟨by rw [g2, c.dx], ?_⟩
      rw [g3, tipAt, ← hb']
      rcases c.walk with ⟨_, c9, c10⟩ | ⟨c10, c9, c11, _⟩
      · rw [if_neg c10.ne', c9, hbot e he]
      · have hfl : fl = [] := by
          by_contra hfl
          have := marks_extra (last := FNum.neg FNum.maxNum) (ch := []) he (c.x1 hfl).1
          rw [← hTch, hch0] at this; cases this
        subst hfl
        have hp := (c9.near A.linked ((L.beam.good e he).mem A)).2
        rw [Side.out_top, ← c11, Side.inn_bot] at hp
        rcases hp with hp | hp
        · rw [if_pos c10, hp.2, htop e he]
        · cases hp

omit [FTrans K] [LawfulOrd K] in
theorem count_bounds (p : Edge K → Bool) (sx : Nat → K) (X : K) (l : List (Edge K)) (h1 : ∀ e ∈ l, p e = true ↔ e.bound.isSome)
    (h2 : ∀ e ∈ l, ∀ i, e.bound = some i → e.currX = sx i) :
    (l.filter p).countP (fun e => decide (e.currX < X)) = (l.filterMap Edge.bound).countP (fun i => decide (sx i < X)) := by
  induction l with
  | nil => rfl
  | cons e l ih =>
    have ih := ih (fun e he => h1 e (List.mem_cons_of_mem _ he)) (fun e he => h2 e (List.mem_cons_of_mem _ he))
    have h1 := h1 e List.mem_cons_self
    have h2 := h2 e List.mem_cons_self
    cases hb : e.bound with
    | none =>
      rw [List.filterMap_cons_none hb, List.filter_cons_of_neg (by rw [h1, hb]; simp), ih]
    | some i =>
      rw [List.filterMap_cons_some hb, List.filter_cons_of_pos (by rw [h1, hb]; rfl), List.countP_cons, List.countP_cons, ih, h2 i hb]

/-- Where no horizontal side reaches over `X`, the result is the same above and below. -/
theorem Arranged.same_result (A : Arranged rings) (ct : ClipType) (fr : FillRule) {y X : K}
    (hflat : ∀ f ∈ sides rings, f.Flat → f.frm.y = y → (f.frm.x < X ↔ f.seg.target.x < X)) :
    InBelow rings ct fr y X ↔ InAbove rings ct fr y X := by
  unfold InBelow InAbove inResultS
  rw [A.balance .subject y X hflat, A.balance .clip y X hflat]

/-- Horizontal sides do not reach over a side that passes through the scan line. -/
theorem Arranged.passing_flat (A : Arranged rings) {s : Side K} (hs : s ∈ sides rings) {y : K} (h1 : s.bot.y < y) (h2 : y < s.top.y) :
    ∀ f ∈ sides rings, f.Flat → f.frm.y = y → (f.frm.x < s.x y ↔ f.seg.target.x < s.x y) := by
  intro f hf hfl hfy
  have hst : ¬ s.Flat := Side.Above.steep (y := y) ⟨h1.le, h2⟩
  have hcov : ¬ f.Covers (s.x y) := by
    intro hc
    have hty : f.seg.target.y = y := by rw [← (hfl : f.frm.y = _), hfy]
    rcases A.touch f hf hfl s hs hst (by rw [hfy]; exact h1.le) (by rw [hfy]; exact h2.le) (by rw [hfy]; exact hc) with h | h | h | h
    · rw [h, hfy] at h1; exact lt_irrefl _ h1
    · rw [h, hty] at h1; exact lt_irrefl _ h1
    · rw [h, hfy] at h2; exact lt_irrefl _ h2
    · rw [h, hty] at h2; exact lt_irrefl _ h2
  unfold Side.Covers at hcov
  rw [not_and_or, not_le, not_le, lt_min_iff, max_lt_iff] at hcov
  rcases hcov with h | h
  · exact ⟨fun h2 => absurd h2 (not_lt.2 h.1.le), fun h2 => absurd h2 (not_lt.2 h.2.le)⟩
  · exact ⟨fun _ => h.2, fun _ => h.1⟩

theorem mod_two_if {a b : Nat} {P Q : Prop} [Decidable (P ↔ Q)] (ha : Odd a ↔ Q) (hb : Odd b ↔ P) :
    (a + b) % 2 = if (P ↔ Q) then 0 else 1 := by
  by_cases h : (P ↔ Q)
  · rw [if_pos h, ← Nat.even_iff, Nat.even_add, ← Nat.not_odd_iff_even, ← Nat.not_odd_iff_even, ha, hb, h]
  · rw [if_neg h, ← Nat.odd_iff, ← Nat.not_even_iff_odd, Nat.even_add, ← Nat.not_odd_iff_even, ← Nat.not_odd_iff_even, ha, hb]
    exact fun hc => h (by tauto)

open Classical in
/-- The first half of a round. -/
theorem High.up (A : Arranged rings) {ct : ClipType} {fr : FillRule} {σ : Int} (hσ : σ = 1 ∨ σ = -1) (D : Directed rings ct fr σ) {y : K}
    {st : St K} (H : High rings fr y st) {obl : List Nat} {sx : Nat → K} {wd : Nat → Int} {tip : Nat → Vec2 K} {S : Nat → Side K} {em : Multiset (Piece K)}
    (HO : HighOut rings ct fr σ y st obl sx wd tip S em) :
    ∃ st' NL tip' F, sweepA rings ct fr y st = some st' ∧ Low rings fr y st' ∧ OutLow (boundEdges rings ct fr st'.ael) st'.ael st'.out NL tip' (em + F) ∧
      (∀ p ∈ F, Level y p) ∧ ∀ X, F.countP (Straddles X) = if (InBelow rings ct fr y X ↔ InAbove rings ct fr y X) then 0 else 1 := by
  obtain ⟨st1, hins, hi⟩ := H.insert A
  have hbeam : Beam rings fr y (recalcWind fr st1).ael := hi.core.recalc A hi.sorted (fun m hm => ((hi.mins m).1 hm).2)
  obtain ⟨d, hd, hrel⟩ := recalcGo_rel fr (uniqNum (sortNum st1.changes)) (uniqNum_spec _ (sortNum_sorted st1.changes)).2 [] st1.ael
    (aelSorted_of_left hi.core.good hi.sorted)
  obtain ⟨R, hR⟩ : ∃ R, R = recalcWind fr st1 := ⟨_, rfl⟩
  have hRael : R.ael = d := by rw [hR]; exact hd
  have hRch : R.changes = uniqNum (sortNum st1.changes) := by rw [hR]; rfl
  have hRmk : ∀ x, x ∈ R.changes ↔ x ∈ st1.changes := fun x => by rw [hRch, marks_iff]
  have hRout : R.out = (((st1.ael.zip d).filter (fun q => q.2.bound.isNone)).map Prod.fst).foldl detach st.out := by
    rw [← foldl_cond (fun q : Edge K × Edge K => q.2.bound.isNone) Prod.fst detach, hR, ← hi.out, ← hRael, hR]
    rfl
  rw [← hR] at hbeam
  rw [← hRch] at hrel
  rw [← hRael] at hrel
  have hcx : ∀ a b : Edge K, b.plain = a.plain → b.currX = a.currX := by
    intro a b h
    have : b.plain.currX = a.plain.currX := by rw [h]
    exact this
  -- edges after the recount
  have hE1 : ∀ e ∈ R.ael, e.currX ∉ R.changes → e ∈ st.ael := by
    intro e he hx
    obtain ⟨a, ha, h1, h2, h3⟩ := forall2_right hrel he
    rw [hcx a e h1] at hx
    have := h3 hx
    subst this
    rcases hi.mem e ha with h | ⟨_, h, _⟩
    · exact h
    · exact absurd ((hRmk _).2 h) hx
  have hE2 : ∀ e ∈ R.ael, e.currX ∈ R.changes → e.bound = none := by
    intro e he hx
    obtain ⟨a, ha, h1, h2, h3⟩ := forall2_right hrel he
    rw [hcx a e h1] at hx
    exact h2 hx
  have hE3 : ∀ e ∈ st.ael, e.currX ∉ R.changes → e ∈ R.ael := by
    intro e he hx
    obtain ⟨e', he', ⟨_, _, h3⟩, _⟩ := forall2_left hrel (hi.sub e he)
    rw [h3 hx] at he'
    exact he'
  obtain ⟨d1, d2, d3⟩ := foldl_detach (((st1.ael.zip d).filter (fun q => q.2.bound.isNone)).map Prod.fst) st.out
  have M : Mid (isContributing ct fr) R.changes R.ael R.out obl sx wd tip em := by
    refine HO.mid.clear hbeam.ids (fun x hx => (hRmk x).2 (hi.changes x hx)) (fun e => e.currX ∈ R.changes) ?_ hE3 (by rw [hRout]; exact d1) (by rw [hRout]; exact d2) ?_
    · intro e he
      by_cases hx : e.currX ∈ R.changes
      · exact Or.inr ⟨hE2 e he hx, hx⟩
      · exact Or.inl ⟨hE1 e he hx, hx⟩
    intro i b hb
    rw [hRout]
    obtain ⟨b', g1, g2, g3, g4, g5, g6⟩ := d3 i b hb
    refine ⟨b', g1, g2, g3, g4, ?_, ?_⟩
    · rintro ⟨e, he, h1, h2⟩
      obtain ⟨e', he', ⟨_, h3, _⟩, hz⟩ := forall2_left hrel (hi.sub e he)
      refine g5 ⟨e, List.mem_map.2 ⟨(e, e'), List.mem_filter.2 ⟨by rw [← hRael]; exact hz, ?_⟩, rfl⟩, h1⟩
      simp [h3 h2]
    · intro hn
      refine g6 ?_
      rintro ⟨e, he, h1⟩
      obtain ⟨⟨a, a'⟩, hq, rfl⟩ := List.mem_map.1 he
      obtain ⟨hq1, hq2⟩ := List.mem_filter.1 hq
      rw [← hRael] at hq1
      obtain ⟨z1, z2, _, z3, z4⟩ := forall2_zip hrel hq1
      simp only at h1 hq2 z1 z2 z3 z4
      have hold : a ∈ st.ael := by
        rcases hi.mem a z1 with h | ⟨h, _⟩
        · exact h
        · rw [h] at h1; cases h1
      refine hn ⟨a, hold, h1, ?_⟩
      by_contra hx
      rw [z4 hx, h1] at hq2
      cases hq2
  have hodd := hbeam.odd_above A ct
  have BB := hbeam.bounding A ct hσ D
  have hal : ∀ e ∈ R.ael, e.currX ∉ R.changes → ∀ f ∈ R.ael, Twin (sideOf rings f) (sideOf rings e) → f = e := by
    intro e he hx f hf htw
    by_contra hfe
    have hfx : f.currX = e.currX := by
      rw [(hbeam.good f hf).x, (hbeam.good e he).x, htw.x_above (hbeam.good f hf).above]
    have m1 := hi.sub e (hE1 e he hx)
    have m2 := hi.sub f (hE1 f hf (by rw [hfx]; exact hx))
    have hS : Std.Symm (fun e f : Edge K => e.currX = f.currX → e.currX ∈ st1.changes) :=
      ⟨fun a b h1 h2 => by rw [h2]; exact h1 h2.symm⟩
    exact hx ((hRmk _).2 (hi.core.multi.forall m1 m2 (Ne.symm hfe) hfx.symm))
  have hunm : ∀ e ∈ R.ael, e.currX ∉ R.changes → (e ∈ boundEdges rings ct fr R.ael ↔ e.bound.isSome) := by
    intro e he hx
    rw [← M.iff e he hx]
    exact ⟨fun h => (BB.mem h).2, fun h => Beam.bound_alone BB hbeam.diff he h (hal e he hx)⟩
  by_cases hne : R.changes = []
  · -- nothing happens at this scan line
    have h0 : st1.changes = [] := by
      rw [List.eq_nil_iff_forall_not_mem]
      intro x hx
      rw [← hRmk, hne] at hx; simp at hx
    obtain ⟨e1, e2⟩ := hi.empty h0
    have hRR : R.ael = st.ael := by
      rw [hRael, ← e1]
      have hall : List.Forall₂ (fun a b : Edge K => a = b) st1.ael d := by
        rw [hRael, hne] at hrel
        refine hrel.imp (fun a b h => (h.2.2 (by simp)).symm)
      exact (List.forall₂_eq_eq_eq ▸ hall : st1.ael = d).symm
    obtain ⟨g1, g2⟩ := HO.same e2
    have hup : updateOutput rings ct fr y R = some R := by rw [updateOutput, hne]; rfl
    have hcx2 : ∀ e ∈ R.ael, ∀ i, e.bound = some i → e.currX = sx i := by
      intro e he i hib
      obtain ⟨k1, b, k2, k3⟩ := M.own e he i hib
      obtain ⟨b', k4, _, _, k5⟩ := M.bnd i k1
      rw [k2] at k4; cases k4
      obtain ⟨e', he', q1, q2, q3⟩ := k5 _ k3
      rw [ids_eq hbeam.ids he' he q1] at q3
      rcases q3 with q3 | q3
      · exact q3
      · rw [hne] at q3; cases q3
    have hcnt : ∀ X, InBelow rings ct fr y X ↔ InAbove rings ct fr y X := by
      intro X
      rw [InAbove, ← hodd X, ← HO.parity X, count_bounds _ sx X R.ael (fun e he => M.iff e he (by rw [hne]; simp)) hcx2, hRR, g1]
    refine ⟨R, obl, tip, 0, ?_, H.low A hi (by rw [← hR]; exact SameBare.refl R), ⟨M.rep, by rw [hRR]; exact g1, by rw [add_zero]; exact M.poly, ?_, ?_⟩,
      by simp, fun X => by rw [if_pos (hcnt X)]; rfl⟩
    · rw [sweepA, hins, Option.bind_some, ← hR]; exact hup
    · intro e he; exact hunm e he (by rw [hne]; simp)
    · intro e he i hib
      obtain ⟨k1, b, k2, k3⟩ := M.own e he i hib
      obtain ⟨b', k4, _, k6, _⟩ := M.bnd i k1
      rw [k2] at k4; cases k4
      obtain ⟨k7, k8⟩ := g2 e (by rw [← hRR]; exact he) i hib
      exact ⟨b, k2, k3, by rw [k6, k7], k8⟩
  · have hgood := hbeam.good
    obtain ⟨C, hC⟩ : ∃ C, C = boundEdges rings ct fr R.ael := ⟨_, rfl⟩
    rw [← hC] at BB hunm
    have hCs : C.Sublist R.ael := BB.sub.trans List.filter_sublist
    have hCm : ∀ e ∈ C, e ∈ R.ael := fun e he => hCs.subset he
    have hCb : ∀ e ∈ C, Boundary rings ct fr (sideOf rings e) (sideOf rings e).bot.y := by
      intro e he
      have g := hgood e (hCm e he)
      exact (A.boundary_same ct fr (g.mem A) g.above ⟨le_refl _, Side.ht g.above.steep⟩).1 (hbeam.bound_mem A hσ BB he).1
    have hodd : ∀ X, Odd (C.countP (fun e => decide (e.currX < X))) ↔ inResultS ct fr ((sides rings).filter (fun s => decide (s.Above y ∧ s.x y < X))) := by
      intro X
      rw [← hodd X, BB.odd _ (fun e he f hf h => ?_)]
      rw [(hgood e he).x, (hgood f hf).x, h.x_above (hgood e he).above]
    have hev : ∀ X, (InBelow rings ct fr y X ↔ InAbove rings ct fr y X) → Even (cnt sx C obl X) := by
      intro X h
      rw [cnt, Nat.even_add, ← Nat.not_odd_iff_even, ← Nat.not_odd_iff_even, hodd X, HO.parity X, h, InAbove]
    -- sides that pass through
    have hpass : ∀ e ∈ C, ∀ i ∈ obl, Twin (S i) (sideOf rings e) → (S i).bot.y < y → Solid C obl sx tip e i := by
      intro e he i hi' hSe hlt
      have ge := hgood e (hCm e he)
      obtain ⟨s1, s2, s3, s4⟩ := HO.srcMem i hi'
      have hab : (S i).Above y := hSe.above.2 ge.above
      have hx : e.currX = sx i := by rw [s3, hSe.x_above hab, ge.x]
      refine ⟨he, hi', hx, ?_, ?_, ?_, ?_⟩
      · rw [s4, if_neg hab.2.ne', hSe.bot]; exact (ge.ok.facts A.linked).2.2.2.1
      · intro f hf hfx
        have gf := hgood f (hCm f hf)
        by_contra hne'
        have hsym : Std.Symm (fun e f : Edge K => ¬ Twin (sideOf rings e) (sideOf rings f)) := ⟨fun _ _ h h' => h h'.symm⟩
        have hd := BB.once.forall hf he hne'
        rcases A.meet_above (gf.mem A) (ge.mem A) gf.above ge.above (by rw [← gf.x, ← ge.x, hfx, hx]) with h | ⟨h, h'⟩
        · exact hd h
        · rw [h, ← hSe.bot] at h'; exact hlt.ne' h'
      · intro j hj hjx
        obtain ⟨t1, t2, t3, t4⟩ := HO.srcMem j hj
        rcases A.meet_below t1 s1 t2 s2 (by rw [← t3, ← s3, hjx]) with h | ⟨h, h'⟩
        · exact HO.srcInj j hj i hi' h
        · rw [h] at h'; exact absurd h' hab.2.ne
      · rw [s3]
        exact hev _ (A.same_result ct fr (A.passing_flat s1 hlt hab.2))
    have hU : UIn R.ael R.out C obl sx wd tip y em σ := by
      refine ⟨⟨hbeam.ids, hCs, ?_, ?_, ?_, ?_, HO.dirB⟩, M.rep, M.poly, ?_, ?_, HO.sortedB, BB.alt,
        HO.altB, ?_⟩
      · exact (hbeam.sorted.imp_of_mem (fun he hf h => (hgood _ he).le (hgood _ hf) h)).sublist hCs
      · intro e he
        have ge := hgood e (hCm e he)
        have hb := (ge.ok.facts A.linked).2.2.2.1
        rcases lt_or_eq_of_le ge.above.1 with hlt | heq
        · right
          obtain ⟨i, hi', hSi⟩ := HO.srcAll _ (ge.mem A) ⟨hlt, ge.above.2.le⟩ ge.above.2 (hCb e he)
          exact ⟨i, hpass e he i hi' hSi (by rw [hSi.bot]; exact hlt)⟩
        · left
          have hx : e.currX = e.bot.x := by
            rw [ge.x, ← heq, ← hb]; exact Side.x_bot _
          have hy : e.bot.y = y := by rw [← hb]; exact heq
          rw [hx, ← hy]
      · intro i hi'
        obtain ⟨s1, s2, s3, s4⟩ := HO.srcMem i hi'
        by_cases hty : (S i).top.y = y
        · left
          rw [s4, if_pos hty]
          have hx : sx i = (S i).top.x := by
            rw [s3]
            have := Side.x_top (Side.ht s2.steep)
            rw [hty] at this; exact this
          rw [hx, ← hty]
        · right
          have hlt : y < (S i).top.y := lt_of_le_of_ne s2.2 (Ne.symm hty)
          have hab : (S i).Above y := ⟨s2.1.le, hlt⟩
          obtain ⟨e0, he0, hes⟩ := hbeam.complete (S i) s1 hab
          obtain ⟨e, he, het⟩ := hbeam.bound_all A BB he0 (by
            rw [hes]
            exact (A.boundary_same ct fr s1 ⟨le_refl _, Side.ht s2.steep⟩ hab).1 (HO.srcBd i hi'))
          rw [hes] at het
          exact ⟨e, hpass e he i hi' het.symm s2.1⟩
      · intro e he; exact (hgood e (hCm e he)).ok.dir
      · intro e he hn
        by_cases hx : e.currX ∈ R.changes
        · exact hE2 e he hx
        · cases hb : e.bound with
          | none => rfl
          | some i =>
            exfalso
            exact hn ((hunm e he hx).2 (by rw [hb]; rfl))
      · intro i hi'
        obtain ⟨b, b1, b2, b3, b4⟩ := M.bnd i hi'
        refine ⟨b, b1, b2, b3, fun id hid => ?_⟩
        obtain ⟨e, he, e1, e2, e3⟩ := b4 id hid
        have hx : e.currX ∉ R.changes := by
          intro hx; rw [hE2 e he hx] at e2; cases e2
        have e3 : e.currX = sx i := e3.resolve_right hx
        have heC : e ∈ C := (hunm e he hx).2 (by rw [e2]; rfl)
        have ge := hgood e he
        have m1 := hi.sub e (hE1 e he hx)
        have hx1 : e.currX ∉ st1.changes := fun h => hx ((hRmk _).2 h)
        refine ⟨e, heC, e1, heC, hi', e3, ?_, ?_, ?_, ?_⟩
        · obtain ⟨s1, s2, s3, s4⟩ := HO.srcMem i hi'
          have hb := (ge.ok.facts A.linked).2.2.2.1
          rw [s4, ← hb]
          rcases A.meet s1 (ge.mem A) s2 ge.above (by rw [← s3, ← ge.x, e3]) with h | ⟨h, h'⟩
          · rw [h.top, h.bot, if_neg ge.above.2.ne']
          · rw [if_pos h', h]
        · intro f hf hfx
          by_contra hfe
          have hfR := hCm f hf
          have hfx2 : f.currX ∉ R.changes := by rw [hfx, ← e3]; exact hx
          have m2 := hi.sub f (hE1 f hfR hfx2)
          have hS : Std.Symm (fun e f : Edge K => e.currX = f.currX → e.currX ∈ st1.changes) :=
            ⟨fun a b h1 h2 => by rw [h2]; exact h1 h2.symm⟩
          exact hx1 (hi.core.multi.forall m1 m2 (Ne.symm hfe) (by rw [hfx, e3]))
        · intro j hj hjx
          by_contra hji
          have := hi.changes _ (HO.mark i hi' j hj (Ne.symm hji) hjx.symm)
          rw [← e3] at this
          exact hx1 this
        · rw [← e3]
          exact hev _ (A.same_result ct fr (hi.core.no_flat A (fun m hm => ((hi.mins m).1 hm).2.ne') m1 hx1))
      · rw [Nat.even_add]
        exact ⟨fun _ => HO.even, fun _ => BB.even⟩
    rw [hC] at hU hodd
    obtain ⟨st', NL, tip', F, u1, u2, u3, u4⟩ := updateOutput_spec R hne hU
    refine ⟨st', NL, tip', F, ?_, H.low A hi (by rw [← hR]; exact updateOutput_bare rings ct fr y R st' u1), u2, u3, fun X => ?_⟩
    · rw [sweepA, hins, Option.bind_some, ← hR]; exact u1
    · rw [u4 X, cnt]
      exact mod_two_if (hodd X) (HO.parity X)

end River
