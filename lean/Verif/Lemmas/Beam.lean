import Verif.Lemmas.Top
import Verif.Props.Ael

/-! # The active edges at every height are the sides that cross it, from left to right, with the right counts -/

namespace River
variable {K : Type}

/-! ## counts in terms of winding numbers -/

/-- `CountsOk` for given winding numbers to the left. -/
def CountsW (fr : FillRule) (w : PathType → Int) (e : Edge K) : Prop :=
  match fr with
  | .evenOdd => e.windCnt = e.windDx ∧ (e.windCnt2 = 0 ∨ e.windCnt2 = 1) ∧ (e.windCnt2 = 1 ↔ Odd (w e.ptype.other))
  | _ =>
    ((e.windCnt = w e.ptype ∧ (w e.ptype + e.windDx).natAbs < (w e.ptype).natAbs) ∨
      (e.windCnt = w e.ptype + e.windDx ∧ (w e.ptype).natAbs < (w e.ptype + e.windDx).natAbs)) ∧
    e.windCnt2 = w e.ptype.other

theorem countsOk_iff (fr : FillRule) (pre : List (Edge K)) (e : Edge K) :
    CountsOk fr pre e ↔ CountsW fr (fun t => wn t pre) e := by
  cases fr <;> simp [CountsOk, CountsW, wn_snoc]

variable [FTrans K] [LinearOrder K] [Absc K] [LawfulOrd K] {rings : List (Ring K)}

omit [FTrans K] [LawfulOrd K] in
theorem wn_sides (hl : ∀ r ∈ rings, Linked r.nodes) (t : PathType) (l : List (Edge K)) (h : ∀ e ∈ l, EOk rings e) :
    wn t l = wnS t (l.map (sideOf rings)) := by
  induction l with
  | nil => rfl
  | cons e l ih =>
    obtain ⟨_, _, _, _, _, h6, h7⟩ := (h e List.mem_cons_self).facts hl
    rw [wn_cons, List.map_cons, wnS_cons, ih (fun e he => h e (List.mem_cons_of_mem _ he)), h6, h7]

/-! ## order -/

/-- The edge runs along a side crossing the line just above `y`, and knows its abscissa there. -/
structure Good (rings : List (Ring K)) (y : K) (e : Edge K) : Prop where
  ok : EOk rings e
  above : (sideOf rings e).Above y
  x : e.currX = (sideOf rings e).x y

/-- Left to right; edges along the same curve in any order. -/
def LeftE (rings : List (Ring K)) (e f : Edge K) : Prop := LeftW (sideOf rings e) (sideOf rings f)

/-- Different sides. -/
def DiffE (rings : List (Ring K)) (e f : Edge K) : Prop := sideOf rings e ≠ sideOf rings f

omit [FTrans K] [LinearOrder K] [Absc K] [LawfulOrd K] in
theorem DiffE.symm {e f : Edge K} (h : DiffE rings e f) : DiffE rings f e := Ne.symm h

theorem Good.mem (A : Arranged rings) {y : K} {e : Edge K} (h : Good rings y e) : sideOf rings e ∈ sides rings :=
  (h.ok.facts A.linked).1

theorem Good.valid (A : Arranged rings) {y : K} {e f : Edge K} (he : Good rings y e) (hf : Good rings y f) (hd : DiffE rings e f)
    (h : validOrder rings e f = true) : LeftE rings e f := by
  by_cases ht : Twin (sideOf rings e) (sideOf rings f)
  · exact Or.inr ht
  · exact Or.inl ((validOrder_iff A he.ok hf.ok he.above hf.above he.x hf.x hd ht).1 h)

theorem Good.invalid (A : Arranged rings) {y : K} {e f : Edge K} (he : Good rings y e) (hf : Good rings y f) (hd : DiffE rings e f)
    (h : validOrder rings e f = false) : LeftE rings f e := by
  rcases A.total3 (he.mem A) (hf.mem A) hd he.above hf.above with h1 | h1 | h1
  · have ht : ¬ Twin (sideOf rings e) (sideOf rings f) := fun ht => A.not_twin (he.mem A) (hf.mem A) hd he.above hf.above h1 ht
    rw [(validOrder_iff A he.ok hf.ok he.above hf.above he.x hf.x hd ht).2 h1] at h
    cases h
  · exact Or.inl h1
  · exact Or.inr h1.symm

theorem Good.total (A : Arranged rings) {y : K} {e f : Edge K} (he : Good rings y e) (hf : Good rings y f) (hd : DiffE rings e f) :
    LeftE rings e f ∨ LeftE rings f e := A.total (he.mem A) (hf.mem A) hd he.above hf.above

theorem Good.trans (A : Arranged rings) {y : K} {e f g : Edge K} (he : Good rings y e) (hf : Good rings y f) (hg : Good rings y g)
    (hd : DiffE rings e f) (hd2 : DiffE rings f g) (h1 : LeftE rings e f) (h2 : LeftE rings f g) : LeftE rings e g :=
  A.transW (he.mem A) (hf.mem A) (hg.mem A) hd hd2 he.above hf.above hg.above h1 h2

theorem Good.le {y : K} {e f : Edge K} (he : Good rings y e) (hf : Good rings y f) (h : LeftE rings e f) : e.currX ≤ f.currX := by
  rw [he.x, hf.x]; exact h.le he.above hf.above

theorem sorted_insertFrom (A : Arranged rings) {y : K} (pre post : List (Edge K)) (n : Edge K) (hn : Good rings y n)
    (hg : ∀ e ∈ pre ++ post, Good rings y e) (hd : ∀ e ∈ pre ++ post, DiffE rings e n) (hnd : (pre ++ post).Pairwise (DiffE rings))
    (hs : (pre ++ post).Pairwise (LeftE rings)) (hpre : ∀ u ∈ pre, LeftE rings u n) :
    (pre ++ insertFrom (validOrder rings) n post).Pairwise (LeftE rings) := by
  obtain ⟨l1, l2, h1, h2, h3, h4⟩ := insertFrom_split (validOrder rings) n post
  subst h1
  rw [h2]
  have hl1 : ∀ u ∈ pre ++ l1, LeftE rings u n := by
    intro u hu
    rcases List.mem_append.1 hu with hu | hu
    · exact hpre u hu
    · exact (hg u (by simp [hu])).valid A hn (hd u (by simp [hu])) (h3 u hu)
  have hl2 : ∀ u ∈ l2, LeftE rings n u := by
    cases l2 with
    | nil => simp
    | cons x l2 =>
      have hx := hg x (by simp)
      have hdx := hd x (by simp)
      have hnx : LeftE rings n x := hx.invalid A hn hdx (h4 x rfl)
      intro u hu
      rcases List.mem_cons.1 hu with rfl | hu
      · exact hnx
      · have p1 : (x :: l2).Pairwise (LeftE rings) := (List.pairwise_append.1 (List.pairwise_append.1 hs).2.1).2.1
        have p2 : (x :: l2).Pairwise (DiffE rings) := (List.pairwise_append.1 (List.pairwise_append.1 hnd).2.1).2.1
        exact hn.trans A hx (hg u (by simp [hu])) hdx.symm (List.rel_of_pairwise_cons p2 hu) hnx (List.rel_of_pairwise_cons p1 hu)
  rw [← List.append_assoc] at hs ⊢
  obtain ⟨q1, q2, q3⟩ := List.pairwise_append.1 hs
  refine List.pairwise_append.2 ⟨q1, List.pairwise_cons.2 ⟨hl2, q2⟩, ?_⟩
  intro u hu z hz
  rcases List.mem_cons.1 hz with rfl | hz
  · exact hl1 u hu
  · exact q3 u hu z hz

/-! ## what is known between the steps, apart from the order -/

/-- `s` is one of the two sides of a local minimum. -/
def Leg (rings : List (Ring K)) (m : LocMin K) (s : Side K) : Prop :=
  s.ring = m.ring ∧ (s.idx = m.node ∨ ∃ b ∈ sides rings, b.ring = m.ring ∧ b.idx = m.node ∧ Follows rings s b)

/-- `f` is one of the horizontal sides of a local minimum. -/
def MinRun (rings : List (Ring K)) (m : LocMin K) (f : Side K) : Prop :=
  ∃ a b fl, b ∈ sides rings ∧ b.ring = m.ring ∧ b.idx = m.node ∧ FWalk rings false b fl a ∧ ¬ a.Flat ∧ ¬ b.Flat ∧ f ∈ fl

/-- The active edges `ael` at height `y`, with recorded abscissas `ch`, the minima `ms` not yet inserted. -/
structure Core (rings : List (Ring K)) (fr : FillRule) (y : K) (ael : List (Edge K)) (ch : List K) (ms : List (LocMin K)) :
    Prop where
  good : ∀ e ∈ ael, Good rings y e
  diff : ael.Pairwise (DiffE rings)
  multi : ael.Pairwise (fun e f => e.currX = f.currX → e.currX ∈ ch)
  counts : ∀ e ∈ ael, e.currX ∉ ch → CountsW fr (fun t => wnS t ((sides rings).filter (fun s => decide (s.Below y ∧ s.x y < e.currX)))) e
  complete : ∀ s ∈ sides rings, s.Above y → (∃ e ∈ ael, sideOf rings e = s) ∨
    ∃ m ∈ ms, m.pt.y = y ∧ Leg rings m s
  fresh : ∀ e ∈ ael, ∀ m ∈ ms, ¬ Leg rings m (sideOf rings e)
  flats : ∀ f ∈ sides rings, f.Flat → f.frm.y = y → (∃ m ∈ ms, m.pt.y = y ∧ MinRun rings m f) ∨
    ∀ e ∈ ael, (sideOf rings e).bot = f.frm ∨ (sideOf rings e).bot = f.seg.target → e.currX ∈ ch
  ids : (ael.map Edge.eid).Nodup

omit [LawfulOrd K] in
theorem good_bare {y : K} {e f : Edge K} (h : e.bare = f.bare) (hf : Good rings y f) : Good rings y e := by
  have h1 : Good rings y f.bare := ⟨⟨hf.ok.1, hf.ok.2, hf.ok.3, hf.ok.4, hf.ok.5⟩, hf.above, hf.x⟩
  rw [← h] at h1
  exact ⟨⟨h1.ok.1, h1.ok.2, h1.ok.3, h1.ok.4, h1.ok.5⟩, h1.above, h1.x⟩

omit [FTrans K] [LinearOrder K] [Absc K] [LawfulOrd K] in
theorem pairwise_bare {R : Edge K → Edge K → Prop} (hR : ∀ e f, R e.bare f.bare ↔ R e f) (l : List (Edge K)) :
    (l.map Edge.bare).Pairwise R ↔ l.Pairwise R := by
  rw [List.pairwise_map]
  exact List.Pairwise.iff (fun e f => hR e f)

omit [FTrans K] [LinearOrder K] [Absc K] [LawfulOrd K] in
theorem exists_bare {a b : List (Edge K)} (h : (a.map Edge.bare).Perm (b.map Edge.bare)) {e : Edge K} (he : e ∈ a) :
    ∃ f ∈ b, e.bare = f.bare := by
  obtain ⟨f, hf, h2⟩ := List.mem_map.1 (h.mem_iff.1 (List.mem_map_of_mem he))
  exact ⟨f, hf, h2.symm⟩

omit [FTrans K] [LinearOrder K] [Absc K] [LawfulOrd K] in
theorem sideOf_bare {e f : Edge K} (h : e.bare = f.bare) : sideOf rings e = sideOf rings f := by
  have : sideOf rings e.bare = sideOf rings f.bare := by rw [h]
  exact this

omit [FTrans K] [LinearOrder K] [Absc K] [LawfulOrd K] in
theorem currX_bare {e f : Edge K} (h : e.bare = f.bare) : e.currX = f.currX := by
  have : e.bare.currX = f.bare.currX := by rw [h]
  exact this

omit [FTrans K] [LinearOrder K] [Absc K] [LawfulOrd K] in
theorem countsW_bare {fr : FillRule} {w : PathType → Int} {e f : Edge K} (h : e.bare = f.bare) (hf : CountsW fr w f) : CountsW fr w e := by
  have h1 : CountsW fr w f.bare := hf
  rw [← h] at h1
  exact h1

omit [LawfulOrd K] in
theorem Core.perm {fr : FillRule} {y : K} {ael ael' : List (Edge K)} {ch : List K} {ms : List (LocMin K)}
    (h : (ael'.map Edge.bare).Perm (ael.map Edge.bare)) (c : Core rings fr y ael ch ms) : Core rings fr y ael' ch ms := by
  refine ⟨?_, ?_, ?_, ?_, ?_, ?_, ?_, ?_⟩
  · intro e he
    obtain ⟨f, hf, hb⟩ := exists_bare h he
    exact good_bare hb (c.good f hf)
  · rw [← pairwise_bare (R := DiffE rings) (fun _ _ => Iff.rfl)]
    exact (h.pairwise_iff (fun h => h.symm)).2 ((pairwise_bare (R := DiffE rings) (fun _ _ => Iff.rfl) ael).2 c.diff)
  · rw [← pairwise_bare (R := fun e f => e.currX = f.currX → e.currX ∈ ch) (fun _ _ => Iff.rfl)]
    refine (h.pairwise_iff ?_).2 ((pairwise_bare (R := fun e f => e.currX = f.currX → e.currX ∈ ch) (fun _ _ => Iff.rfl) ael).2 c.multi)
    intro e f h1 h2
    rw [h2]; exact h1 h2.symm
  · intro e he hx
    obtain ⟨f, hf, hb⟩ := exists_bare h he
    rw [currX_bare hb] at hx ⊢
    exact countsW_bare hb (c.counts f hf hx)
  · intro s hs ha
    rcases c.complete s hs ha with ⟨e, he, h1⟩ | h1
    · obtain ⟨f, hf, hb⟩ := exists_bare h.symm he
      exact Or.inl ⟨f, hf, by rw [← sideOf_bare hb]; exact h1⟩
    · exact Or.inr h1
  · intro e he m hm
    obtain ⟨f, hf, hb⟩ := exists_bare h he
    rw [sideOf_bare hb]
    exact c.fresh f hf m hm
  · intro f hf hfl hy
    rcases c.flats f hf hfl hy with h1 | h1
    · exact Or.inl h1
    · right
      intro e he hb
      obtain ⟨g, hg, hbb⟩ := exists_bare h he
      rw [sideOf_bare hbb] at hb
      rw [currX_bare hbb]
      exact h1 g hg hb
  · have e1 : ∀ l : List (Edge K), l.map Edge.eid = (l.map Edge.bare).map Edge.eid := by intro l; rw [List.map_map]; rfl
    rw [e1, (h.map Edge.eid).nodup_iff, ← e1]
    exact c.ids

/-! ## resorting -/

theorem takeAt_split (x : K) (l : List (Edge K)) : (∀ e ∈ (takeAt x l).1, e.currX < x) ∧ (takeAt x l).2.2.Sublist l ∧
    ∀ e, (takeAt x l).2.2.head? = some e → x < e.currX := by
  induction l with
  | nil => simp [takeAt]
  | cons e l ih =>
    obtain ⟨h1, h2, h3⟩ := ih
    rw [takeAt]
    simp only [eq_eq_decide, lt_eq_decide, decide_eq_true_eq]
    split
    · exact ⟨h1, h2.trans (List.sublist_cons_self _ _), h3⟩
    · next hne =>
      split
      · next hlt =>
        refine ⟨by simp, List.Sublist.refl _, ?_⟩
        intro f hf
        simp at hf; subst hf; exact hlt
      · next hge =>
        refine ⟨?_, h2.trans (List.sublist_cons_self _ _), h3⟩
        intro f hf
        rcases List.mem_cons.1 hf with rfl | hf
        · exact lt_of_le_of_ne (not_lt.1 hge) hne
        · exact h1 f hf

/-- An edge at a recorded abscissa stays in the list only if an edge before it is further to the right. -/
theorem takeAll_missed (xs : List K) (l : List (Edge K)) (hxs : xs.Pairwise (· < ·)) :
    ∀ e ∈ (takeAll xs l).1, e.currX ∈ xs → ∃ h, [h, e].Sublist l ∧ e.currX < h.currX := by
  induction xs generalizing l with
  | nil => simp
  | cons x xs ih =>
    obtain ⟨h1, h2, h3⟩ := takeAt_split x l
    obtain ⟨p1, p2⟩ := List.pairwise_cons.1 hxs
    simp only [takeAll]
    intro e he hm
    rcases List.mem_append.1 he with he | he
    · have hlt := h1 e he
      rcases List.mem_cons.1 hm with hm | hm
      · exact (hlt.ne hm).elim
      · exact (lt_asymm hlt (p1 _ hm)).elim
    · rcases List.mem_cons.1 hm with hm | hm
      · have her : e ∈ (takeAt x l).2.2 := (takeAll_spec xs (takeAt x l).2.2).2.1.subset he
        cases hr : (takeAt x l).2.2 with
        | nil => rw [hr] at her; cases her
        | cons h0 r =>
          have hgt := h3 h0 (by rw [hr]; rfl)
          rw [hr] at her h2
          rcases List.mem_cons.1 her with rfl | her
          · exact (hgt.ne hm.symm).elim
          · exact ⟨h0, (List.Sublist.cons_cons h0 (List.singleton_sublist.2 her)).trans h2, hm ▸ hgt⟩
      · obtain ⟨h, g1, g2⟩ := ih _ p2 e he hm
        exact ⟨h, g1.trans h2, g2⟩

theorem foldl_insert_perm' (ins l : List (Edge K)) :
    (ins.foldl (fun l e => insertAel (validOrder rings) { e with bound := none } l) l).Perm (l ++ ins.map (fun e => { e with bound := none })) := by
  induction ins generalizing l with
  | nil => simp
  | cons e ins ih =>
    rw [List.foldl_cons, List.map_cons]
    refine (ih _).trans ?_
    refine ((insertAel_perm _ _ l).append_right _).trans ?_
    exact List.perm_middle.symm

theorem resortAel_split (st : St K) : ∃ kept taken, (kept ++ taken).Perm st.ael ∧ kept.Sublist st.ael ∧ (∀ e ∈ taken, e.currX ∈ st.changes) ∧
    (resortAel rings st).ael.Perm (kept ++ taken.map (fun e => { e with bound := none })) ∧
    takeAll (uniqNum (sortNum st.changes)) st.ael = (kept, taken) := by
  obtain ⟨h1, h2, h3⟩ := takeAll_spec (uniqNum (sortNum st.changes)) st.ael
  obtain ⟨u1, u2⟩ := uniqNum_spec _ (sortNum_sorted st.changes)
  exact ⟨_, _, h1, h2, fun e he => (sortNum_perm _).mem_iff.1 ((u1 _).1 (h3 e he)), foldl_insert_perm' _ _, rfl⟩

theorem sublist_pair {α : Type} {l : List α} {R : α → α → Prop} (h : ∀ a b, [a, b].Sublist l → R a b) : l.Pairwise R := by
  induction l with
  | nil => exact List.Pairwise.nil
  | cons a l ih =>
    refine List.pairwise_cons.2 ⟨?_, ih (fun a b h1 => h a b (h1.trans (List.sublist_cons_self _ _)))⟩
    intro b hb
    exact h a b (List.Sublist.cons_cons a (List.singleton_sublist.2 hb))

theorem Core.resort (A : Arranged rings) {fr : FillRule} {y : K} {st : St K} {ms : List (LocMin K)}
    (c : Core rings fr y st.ael st.changes ms)
    (hs : ∀ i j, [i, j].Sublist st.ael → (i.currX ∈ st.changes → ∃ h, [h, i].Sublist st.ael ∧ i.currX < h.currX) →
      i.currX < j.currX ∨ Twin (sideOf rings i) (sideOf rings j)) :
    Core rings fr y (resortAel rings st).ael st.changes ms ∧ (resortAel rings st).ael.Pairwise (LeftE rings) := by
  have hperm : ((resortAel rings st).ael.map Edge.bare).Perm (st.ael.map Edge.bare) := by
    obtain ⟨kept, taken, h1, _, _, h2, _⟩ := resortAel_split (rings := rings) st
    refine (h2.map Edge.bare).trans ?_
    rw [List.map_append, List.map_map]
    show (kept.map Edge.bare ++ taken.map Edge.bare).Perm _
    rw [← List.map_append]
    exact h1.map _
  refine ⟨c.perm hperm, ?_⟩
  obtain ⟨h1, h2, h3⟩ := takeAll_spec (uniqNum (sortNum st.changes)) st.ael
  obtain ⟨u1, u2⟩ := uniqNum_spec _ (sortNum_sorted st.changes)
  have hkept := takeAll_missed _ st.ael u2
  have hmark : ∀ x, x ∈ uniqNum (sortNum st.changes) ↔ x ∈ st.changes := fun x => (u1 x).trans (sortNum_perm _).mem_iff
  show (((takeAll (uniqNum (sortNum st.changes)) st.ael).2.foldl
    (fun l e => insertAel (validOrder rings) { e with bound := none } l) (takeAll (uniqNum (sortNum st.changes)) st.ael).1)).Pairwise _
  generalize hr : takeAll (uniqNum (sortNum st.changes)) st.ael = r at h1 h2 h3 hkept
  obtain ⟨kept, taken⟩ := r
  simp only at h1 h2 h3 hkept ⊢
  -- the edges left in the list are alone at their abscissas
  have hk : kept.Pairwise (LeftE rings) := by
    have p3 : kept.Pairwise (fun e f => e.currX < f.currX ∨ Twin (sideOf rings e) (sideOf rings f)) := by
      refine sublist_pair (fun i j hij => hs i j (hij.trans h2) (fun hx => hkept i ?_ ((hmark _).2 hx)))
      exact hij.subset (by simp)
    refine p3.imp_of_mem ?_
    intro e f he hf hlt
    rcases hlt with hlt | hlt
    swap
    · exact Or.inr hlt
    have ge := c.good e (h2.subset he)
    have gf := c.good f (h2.subset hf)
    rw [ge.x, gf.x] at hlt
    exact Or.inl (A.of_lt (ge.mem A) (gf.mem A) ge.above gf.above hlt)
  have hgood : ∀ e ∈ kept ++ taken, Good rings y e := fun e he => c.good e (h1.mem_iff.1 he)
  have hdiff : (kept ++ taken).Pairwise (DiffE rings) := (h1.pairwise_iff (fun h => h.symm)).2 c.diff
  clear h1 h2 h3 hkept hr
  induction taken generalizing kept with
  | nil => exact hk
  | cons e taken ih =>
    rw [List.foldl_cons]
    have hp : (insertAel (validOrder rings) { e with bound := none } kept ++ taken).Perm ({ e with bound := none } :: (kept ++ taken)) :=
      (insertAel_perm _ _ kept).append_right taken
    have he : Good rings y { e with bound := none } := good_bare (f := e) rfl (hgood e (by simp))
    have hd2 : ({ e with bound := none } :: (kept ++ taken) : List (Edge K)).Pairwise (DiffE rings) := by
      have := (List.perm_middle (a := e) (l₁ := kept) (l₂ := taken)).pairwise_iff (R := DiffE rings) (fun h => h.symm) |>.1 hdiff
      obtain ⟨q1, q2⟩ := List.pairwise_cons.1 this
      exact List.pairwise_cons.2 ⟨q1, q2⟩
    refine ih _ ?_ ?_ ?_
    · rw [insertAel_eq]
      have := sorted_insertFrom A [] kept { e with bound := none } he (fun x hx => hgood x (by simp at hx; simp [hx]))
        (fun x hx => ((List.pairwise_cons.1 hd2).1 x (by simp at hx; simp [hx])).symm)
        (by simpa using (List.pairwise_append.1 hdiff).1) (by simpa using hk) (by simp)
      simpa using this
    · intro x hx
      rcases List.mem_cons.1 (hp.mem_iff.1 hx) with rfl | hx
      · exact he
      · exact hgood x (by rcases List.mem_append.1 hx with h | h <;> simp [h])
    · exact (hp.pairwise_iff (fun h => h.symm)).2 hd2

end River
