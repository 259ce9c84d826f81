import Verif.Lemmas.Beam2

/-! # Inserting local minima, recalculating the counts -/

namespace River
variable {K : Type} [FTrans K] [LinearOrder K] [Absc K] [LawfulOrd K] {rings : List (Ring K)}

omit [FTrans K] [LinearOrder K] [Absc K] [LawfulOrd K] in
theorem insertFrom_filter (valid : Edge K → Edge K → Bool) (p : Edge K → Bool) (n : Edge K) (hn : p n = false) (l : List (Edge K)) :
    (insertFrom valid n l).filter p = l.filter p := by
  obtain ⟨l1, l2, h1, h2, _⟩ := insertFrom_split valid n l
  rw [h2, h1]
  simp [hn]

omit [FTrans K] [LinearOrder K] [Absc K] [LawfulOrd K] in
theorem insertAfterPrev_filter (valid : Edge K → Edge K → Bool) (p : Edge K → Bool) (aid : Nat) (n : Edge K) (hn : p n = false)
    (l : List (Edge K)) : (insertAfterPrev valid aid n l).filter p = l.filter p := by
  unfold insertAfterPrev
  have h : l = (l.span (fun e => e.eid != aid)).1 ++ (l.span (fun e => e.eid != aid)).2 := by
    rw [List.span_eq_takeWhile_dropWhile]; exact (List.takeWhile_append_dropWhile).symm
  generalize l.span (fun e => e.eid != aid) = s at h
  obtain ⟨q1, q2⟩ := s
  cases q1 with
  | nil => simp only; rw [insertAel_eq, insertFrom_filter _ _ _ hn]
  | cons c q => simp only; rw [List.filter_append, insertFrom_filter _ _ _ hn, ← List.filter_append, ← h]

/-- One local minimum. -/
theorem Core.insertMin (A : Arranged rings) {fr : FillRule} {y : K} {st : St K} {m : LocMin K} {ms : List (LocMin K)}
    (c : Core rings fr y st.ael st.changes (m :: ms)) (hs : st.ael.Pairwise (LeftE rings))
    (hm : ∀ m' ∈ m :: ms, m' ∈ locMins rings) (hnd : (m :: ms).Nodup) (hy : m.pt.y = y) (hid : ∀ e ∈ st.ael, e.eid < st.nextId) :
    ∃ a b st', River.insertMin rings m st = some st' ∧ Core rings fr y st'.ael st'.changes ms ∧ st'.ael.Pairwise (LeftE rings) ∧
      st'.out = st.out ∧ st'.mins = st.mins ∧ (∀ x ∈ st.changes, x ∈ st'.changes) ∧
      (∀ e ∈ st'.ael, e.eid < st'.nextId) ∧ st'.ael.Perm (b :: a :: st.ael) ∧
      a.bound = none ∧ b.bound = none ∧ a.currX ∈ st'.changes ∧ b.currX ∈ st'.changes ∧ a.bot.y = y ∧ b.bot.y = y ∧
      st'.ael.filter (fun e => e.bound.isSome) = st.ael.filter (fun e => e.bound.isSome) ∧
      st'.scan = insertNum b.top.y (insertNum a.top.y st.scan) := by
  have hmin := hm m List.mem_cons_self
  obtain ⟨sa, msa, sb, msb, fl, b1, b2, b3, b4, b5, b6, b7, b8, b9, b10, b11, b12⟩ := A.min_sides hmin
  obtain ⟨a, ea, oa, ia, xa, da, na, hsa⟩ := newEdge_down A hmin st.nextId st.changes msb b1 b2 b3 b4 b5 b6 b7 b9
  obtain ⟨b, eb, ob, ib, xb, db, nb, hsb⟩ := newEdge_up A hmin (st.nextId + 1) (st.changes ++ [m.pt.x] ++ fl.map (fun g => (g.out false).x)) msb b1 b2 b3 b4 b5
  obtain ⟨ch', hch'⟩ : ∃ ch', ch' = st.changes ++ [m.pt.x] ++ fl.map (fun g => (g.out false).x) ++ [m.pt.x] := ⟨_, rfl⟩
  rw [← hch'] at eb
  obtain ⟨ma, _, ua, bota, topa, _, _⟩ := oa.facts A.linked
  obtain ⟨mb, _, ub, botb, topb, _, _⟩ := ob.facts A.linked
  have upa : (sideOf rings a).up = false := by rw [hsa, b9]
  have upb : (sideOf rings b).up = true := by rw [hsb, b3]
  have aby : (sideOf rings a).bot.y = y := by rw [hsa, b10, hy]
  have bby : (sideOf rings b).bot.y = y := by rw [hsb, b4, hy]
  have ga : Good rings y a := by
    refine ⟨oa, ⟨aby.le, ?_⟩, ?_⟩
    · rw [← aby]; exact Side.ht (by rw [hsa]; exact b7)
    · rw [xa, ← aby, ← bota, Side.x_bot]
  have gb : Good rings y b := by
    refine ⟨ob, ⟨bby.le, ?_⟩, ?_⟩
    · rw [← bby]; exact Side.ht (Side.up_steep upb)
    · rw [xb, ← bby, ← botb, Side.x_bot]
  have hmono : ∀ x ∈ st.changes, x ∈ ch' := fun x hx => by rw [hch']; simp [hx]
  have hmx : m.pt.x ∈ ch' := by rw [hch']; simp
  have hout : ∀ p : Vec2 K, p ∈ fl.map (Side.out false) → p.x ∈ ch' := by
    intro p hp
    obtain ⟨g, hg, rfl⟩ := List.mem_map.1 hp
    rw [hch']
    simp only [List.mem_append, List.mem_map]
    exact Or.inl (Or.inr ⟨g, hg, rfl⟩)
  have hsbo : sb.out false = m.pt := by rw [← b4]; have := Side.out_bot (s := sb); rw [b3] at this; exact this
  have hbx : b.currX ∈ ch' := by rw [xb, ← botb, hsb, b4]; exact hmx
  have hax : a.currX ∈ ch' := by
    have hi : sa.inn false = sa.bot := by rw [← b9, Side.inn_bot]
    rw [xa, ← bota, hsa, ← hi]
    rcases (b6.near A.linked msb).2 with ⟨_, h⟩ | h
    · rw [h, hsbo]; exact hmx
    · exact hout _ h
  have dab : DiffE rings a b := by intro h; rw [h, upb] at upa; cases upa
  have lega : Leg rings m (sideOf rings a) := ⟨by rw [hsa, b8], Or.inr ⟨sb, msb, b1, b2, by rw [hsa]; exact b12⟩⟩
  have legb : Leg rings m (sideOf rings b) := ⟨by rw [hsb, b1], Or.inl (by rw [hsb, b2])⟩
  have dea : ∀ e ∈ st.ael, DiffE rings e a := by
    intro e he h
    exact c.fresh e he m List.mem_cons_self (by rw [h]; exact lega)
  have deb : ∀ e ∈ st.ael, DiffE rings e b := by
    intro e he h
    exact c.fresh e he m List.mem_cons_self (by rw [h]; exact legb)
  -- the list with the first edge
  have hl1 : (insertAel (validOrder rings) a st.ael).Pairwise (LeftE rings) := by
    rw [insertAel_eq]
    have := sorted_insertFrom A [] st.ael a ga (by simpa using c.good) (by simpa using dea) (by simpa using c.diff) (by simpa using hs) (by simp)
    simpa using this
  have hp1 : (insertAel (validOrder rings) a st.ael).Perm (a :: st.ael) := insertAel_perm _ _ _
  have hg1 : ∀ e ∈ insertAel (validOrder rings) a st.ael, Good rings y e := by
    intro e he
    rcases List.mem_cons.1 (hp1.mem_iff.1 he) with rfl | h
    · exact ga
    · exact c.good e h
  have hd1 : (insertAel (validOrder rings) a st.ael).Pairwise (DiffE rings) :=
    (hp1.pairwise_iff (fun h => h.symm)).2 (List.pairwise_cons.2 ⟨fun e he => (dea e he).symm, c.diff⟩)
  have hdb1 : ∀ e ∈ insertAel (validOrder rings) a st.ael, DiffE rings e b := by
    intro e he
    rcases List.mem_cons.1 (hp1.mem_iff.1 he) with rfl | h
    · exact dab
    · exact deb e h
  -- both edges
  have hl2 : (insertAfterPrev (validOrder rings) st.nextId b (insertAel (validOrder rings) a st.ael)).Pairwise (LeftE rings) := by
    obtain ⟨l1, l2, h1, h2, h3, _⟩ := insertFrom_split (validOrder rings) a st.ael
    rw [insertAel_eq, h2] at hl1 hg1 hd1 hdb1 ⊢
    have hne : ∀ x ∈ l1, x.eid ≠ st.nextId := fun x hx => (hid x (by rw [h1]; simp [hx])).ne
    unfold insertAfterPrev
    rw [span_ne st.nextId l1 l2 a ia hne]
    cases l1 with
    | nil =>
      simp only [List.nil_append] at hl1 hg1 hd1 hdb1 ⊢
      rw [insertAel_eq]
      have := sorted_insertFrom A [] (a :: l2) b gb (by simpa using hg1) (by simpa using hdb1) (by simpa using hd1) (by simpa using hl1) (by simp)
      simpa using this
    | cons z l1 =>
      refine sorted_insertFrom A (z :: l1) (a :: l2) b gb hg1 hdb1 hd1 hl1 ?_
      intro u hu
      have gu := hg1 u (List.mem_append_left _ hu)
      have dub := hdb1 u (List.mem_append_left _ hu)
      rcases gu.total A gb dub with h | h | h
      · exact h
      · exfalso
        have hua : LeftE rings u a := (List.pairwise_append.1 hl1).2.2 u hu a (by simp)
        have dua : DiffE rings u a := (List.pairwise_append.1 hd1).2.2 u hu a (by simp)
        refine A.minima _ ma _ mb (by rw [hsa, hsb]; exact b12) upa upb _ (gu.mem A) dua dub ?_ h hua
        rw [bby]; exact gu.above
      · exact Or.inr h.symm
  have hp2 : (insertAfterPrev (validOrder rings) st.nextId b (insertAel (validOrder rings) a st.ael)).Perm (b :: a :: st.ael) :=
    (insertAfterPrev_perm _ _ _ _).trans (hp1.cons b)
  have hst : River.insertMin rings m st = some { st with
      ael := insertAfterPrev (validOrder rings) st.nextId b (insertAel (validOrder rings) a st.ael)
      changes := ch'
      scan := insertNum b.top.y (insertNum a.top.y st.scan)
      nextId := st.nextId + 2 } := by rw [River.insertMin, ea, Option.bind_some, eb, Option.map_some]
  refine ⟨a, b, _, hst, ?_, hl2, rfl, rfl, hmono, ?_, hp2, na, nb, hax, hbx, by rw [← bota]; exact aby, by rw [← botb]; exact bby, ?_, rfl⟩
  · refine ⟨?_, ?_, ?_, ?_, ?_, ?_, ?_, ?_⟩
    · intro e he
      rcases List.mem_cons.1 (hp2.mem_iff.1 he) with rfl | h
      · exact gb
      · rcases List.mem_cons.1 h with rfl | h
        · exact ga
        · exact c.good e h
    · refine (hp2.pairwise_iff (fun h => h.symm)).2 (List.pairwise_cons.2 ⟨?_, List.pairwise_cons.2 ⟨fun e he => (dea e he).symm, c.diff⟩⟩)
      intro e he
      rcases List.mem_cons.1 he with rfl | he
      · exact dab.symm
      · exact (deb e he).symm
    · refine (hp2.pairwise_iff ?_).2 (List.pairwise_cons.2 ⟨?_, List.pairwise_cons.2 ⟨?_, ?_⟩⟩)
      · intro e f h1 h2
        rw [h2]; exact h1 h2.symm
      · intro e _ _; exact hbx
      · intro e _ _; exact hax
      · refine c.multi.imp ?_
        intro e f h1 h2
        exact hmono _ (h1 h2)
    · intro e he hx
      rcases List.mem_cons.1 (hp2.mem_iff.1 he) with rfl | h
      · exact (hx hbx).elim
      · rcases List.mem_cons.1 h with rfl | h
        · exact (hx hax).elim
        · exact c.counts e h (fun hc => hx (hmono _ hc))
    · intro s hss ha
      rcases c.complete s hss ha with ⟨e, he, h⟩ | ⟨m', hm', h1, h2⟩
      · exact Or.inl ⟨e, hp2.mem_iff.2 (by simp [he]), h⟩
      · rcases List.mem_cons.1 hm' with rfl | hm'
        · left
          rcases h2.cases msb b1 b2 msa b12 hss with h3 | h3
          · exact ⟨b, hp2.mem_iff.2 (by simp), by rw [hsb, h3]⟩
          · exact ⟨a, hp2.mem_iff.2 (by simp), by rw [hsa, h3]⟩
        · exact Or.inr ⟨m', hm', h1, h2⟩
    · intro e he m' hm' hleg
      have hmm := hm m' (List.mem_cons_of_mem _ hm')
      have hne : m' ≠ m := fun h => (List.nodup_cons.1 hnd).1 (h ▸ hm')
      obtain ⟨sa', msa', sb', msb', fl', c1, c2, c3, c4, c5, c6, c7, c8, c9, c10, c11, c12⟩ := A.min_sides hmm
      rcases List.mem_cons.1 (hp2.mem_iff.1 he) with rfl | h
      · rcases hleg.cases msb' c1 c2 msa' c12 mb with h | h
        · rw [hsb] at h
          exact hne (locMin_ext hmm hmin (by rw [← c1, ← h, b1]) (by rw [← c2, ← h, b2]))
        · rw [h, c9] at upb; cases upb
      · rcases List.mem_cons.1 h with rfl | h
        · rcases hleg.cases msb' c1 c2 msa' c12 ma with h | h
          · rw [h, c3] at upa; cases upa
          · rw [hsa] at h
            have hbb : sb = sb' := by
              have w1 := b6.rev msb
              have w2 := c6.rev msb'
              rw [← h] at w2
              exact (w1.unique w2 (Side.up_steep b3) (Side.up_steep c3)).2
            exact hne (locMin_ext hmm hmin (by rw [← c1, ← hbb, b1]) (by rw [← c2, ← hbb, b2]))
        · exact c.fresh e h m' (List.mem_cons_of_mem _ hm') hleg
    · intro f hf hfl hfy
      rcases c.flats f hf hfl hfy with ⟨m', hm', h1, h2⟩ | h1
      · rcases List.mem_cons.1 hm' with rfl | hm'
        · right
          obtain ⟨a', b', fl', d1, d2, d3, d4, d5, d6, d7⟩ := h2
          have : b' = sb := side_ext rings b' sb d1 msb (by rw [d2, b1]) (by rw [d3, b2])
          subst this
          have := (d4.unique b6 d5 b7).1
          subst this
          intro e he hp
          have ge : Good rings y e := by
            rcases List.mem_cons.1 (hp2.mem_iff.1 he) with rfl | h
            · exact gb
            · rcases List.mem_cons.1 h with rfl | h
              · exact ga
              · exact c.good e h
          have hey : (sideOf rings e).bot.y = y := by
            rcases hp with h | h
            · rw [h, hfy]
            · rw [h, ← hfy]; exact (hfl : f.frm.y = _).symm
          have hcx : e.currX = (sideOf rings e).bot.x := by rw [ge.x]; conv_lhs => rw [← hey]
                                                            rw [Side.x_bot]
          rw [hcx]
          rcases f.ends_cases false hp with h | h
          · rw [h]
            rcases (b6.near A.linked msb).1 f d7 with h2 | h2
            · rw [h2, hsbo]; exact hmx
            · exact hout _ h2
          · rw [h]; exact hout _ (List.mem_map.2 ⟨f, d7, rfl⟩)
        · exact Or.inl ⟨m', hm', h1, h2⟩
      · right
        intro e he hp
        rcases List.mem_cons.1 (hp2.mem_iff.1 he) with rfl | h
        · exact hbx
        · rcases List.mem_cons.1 h with rfl | h
          · exact hax
          · exact hmono _ (h1 e h hp)
    · rw [(hp2.map Edge.eid).nodup_iff, List.map_cons, List.map_cons, ia, ib]
      refine List.nodup_cons.2 ⟨?_, List.nodup_cons.2 ⟨?_, c.ids⟩⟩
      · intro h
        rcases List.mem_cons.1 h with h | h
        · omega
        · obtain ⟨e, he, h2⟩ := List.mem_map.1 h
          have := hid e he; omega
      · intro h
        obtain ⟨e, he, h2⟩ := List.mem_map.1 h
        have := hid e he; omega
  · intro e he
    show e.eid < st.nextId + 2
    rcases List.mem_cons.1 (hp2.mem_iff.1 he) with rfl | h
    · omega
    · rcases List.mem_cons.1 h with rfl | h
      · omega
      · have := hid e h; omega
  · show (insertAfterPrev _ _ _ _).filter _ = _
    rw [insertAfterPrev_filter _ _ _ _ (by rw [nb]; rfl), insertAel_eq, insertFrom_filter _ _ _ (by rw [na]; rfl)]

/-- What inserting the local minima leaves. -/
structure Inserted (rings : List (Ring K)) (fr : FillRule) (y : K) (ms : List (LocMin K)) (st st' : St K) : Prop where
  core : Core rings fr y st'.ael st'.changes st'.mins
  sorted : st'.ael.Pairwise (LeftE rings)
  out : st'.out = st.out
  mins : ∀ m, m ∈ st'.mins ↔ m ∈ ms ∧ y < m.pt.y
  minsSub : st'.mins.Sublist ms
  ids : ∀ e ∈ st'.ael, e.eid < st'.nextId
  mem : ∀ e ∈ st'.ael, e ∈ st.ael ∨ (e.bound = none ∧ e.currX ∈ st'.changes ∧ e.bot.y = y)
  sub : ∀ e ∈ st.ael, e ∈ st'.ael
  changes : ∀ x ∈ st.changes, x ∈ st'.changes
  bounds : st'.ael.filter (fun e => e.bound.isSome) = st.ael.filter (fun e => e.bound.isSome)
  empty : st'.changes = [] → st'.ael = st.ael ∧ st.changes = []
  scanSorted : st'.scan.Pairwise (· ≤ ·)
  scan : ∀ z, z ∈ st'.scan ↔ z ∈ st.scan ∨ ∃ e ∈ st'.ael, e ∉ st.ael ∧ z = e.top.y

theorem Core.insertMins (A : Arranged rings) {fr : FillRule} {y : K} (ms : List (LocMin K)) {st : St K}
    (c : Core rings fr y st.ael st.changes ms) (hs : st.ael.Pairwise (LeftE rings))
    (hm : ∀ m ∈ ms, m ∈ locMins rings) (hnd : ms.Nodup) (hsort : ms.Pairwise (fun a b => a.pt.y ≤ b.pt.y)) (hy : ∀ m ∈ ms, y ≤ m.pt.y)
    (hid : ∀ e ∈ st.ael, e.eid < st.nextId) (hsc : st.scan.Pairwise (· ≤ ·)) :
    ∃ st', River.insertMins rings y ms st = some st' ∧ Inserted rings fr y ms st st' := by
  induction ms generalizing st with
  | nil =>
    exact ⟨_, rfl, c, hs, rfl, by simp, List.Sublist.refl _, hid, fun e he => Or.inl he, fun e he => he, fun x hx => hx, rfl, fun h => ⟨rfl, h⟩, hsc,
      fun z => ⟨Or.inl, fun h => h.elim id (fun ⟨e, h1, h2, _⟩ => (h2 h1).elim)⟩⟩
  | cons m ms ih =>
    rw [River.insertMins]
    simp only [eq_eq_decide, decide_eq_true_eq]
    by_cases h : m.pt.y = y
    · rw [if_pos h]
      obtain ⟨a, b, st1, e1, c1, s1, o1, m1, ch1, id1, p1, na, nb, xa, xb, ya, yb, f1, sc1⟩ := c.insertMin A hs hm hnd h hid
      obtain ⟨st2, e2, r⟩ := ih c1 s1 (fun m hm' => hm m (List.mem_cons_of_mem _ hm')) (List.nodup_cons.1 hnd).2 hsort.of_cons
        (fun m hm' => hy m (List.mem_cons_of_mem _ hm')) id1 (by rw [sc1]; exact insertNum_sorted _ _ (insertNum_sorted _ _ hsc))
      have hch : ∀ x ∈ st.changes, x ∈ st2.changes := fun x hx => r.changes x (ch1 x hx)
      have hmx : b.currX ∈ st2.changes := r.changes _ xb
      have hidn : ∀ e ∈ st.ael, e ≠ a ∧ e ≠ b := by
        intro e he
        have hnd1 := c1.ids
        rw [(p1.map Edge.eid).nodup_iff, List.map_cons, List.map_cons, List.nodup_cons, List.nodup_cons] at hnd1
        constructor
        · rintro rfl; exact hnd1.2.1 (List.mem_map_of_mem he)
        · rintro rfl; exact hnd1.1 (List.mem_cons_of_mem _ (List.mem_map_of_mem he))
      refine ⟨st2, by rw [e1, Option.bind_some]; exact e2, r.core, r.sorted, r.out.trans o1, ?_, r.minsSub.cons _, r.ids, ?_, ?_, hch, r.bounds.trans f1, ?_, r.scanSorted, ?_⟩
      · intro m'
        rw [r.mins]
        constructor
        · rintro ⟨h1, h2⟩; exact ⟨List.mem_cons_of_mem _ h1, h2⟩
        · rintro ⟨h1, h2⟩
          rcases List.mem_cons.1 h1 with rfl | h1
          · exact (h2.ne' h).elim
          · exact ⟨h1, h2⟩
      · intro e he
        rcases r.mem e he with h1 | h1
        · rcases List.mem_cons.1 (p1.mem_iff.1 h1) with rfl | h1
          · exact Or.inr ⟨nb, hmx, yb⟩
          · rcases List.mem_cons.1 h1 with rfl | h1
            · exact Or.inr ⟨na, r.changes _ xa, ya⟩
            · exact Or.inl h1
        · exact Or.inr h1
      · intro e he; exact r.sub e (p1.mem_iff.2 (by simp [he]))
      · intro hc; rw [hc] at hmx; cases hmx
      · intro z
        rw [r.scan, sc1]
        constructor
        · rintro (hz | ⟨e, h1, h2, h3⟩)
          · rw [(insertNum_perm _ _).mem_iff, List.mem_cons, (insertNum_perm _ _).mem_iff, List.mem_cons] at hz
            rcases hz with rfl | rfl | hz
            · exact Or.inr ⟨b, r.sub _ (p1.mem_iff.2 (by simp)), fun hb => (hidn b hb).2 rfl, rfl⟩
            · exact Or.inr ⟨a, r.sub _ (p1.mem_iff.2 (by simp)), fun hb => (hidn a hb).1 rfl, rfl⟩
            · exact Or.inl hz
          · exact Or.inr ⟨e, h1, fun hc => h2 (p1.mem_iff.2 (by simp [hc])), h3⟩
        · rintro (hz | ⟨e, h1, h2, h3⟩)
          · left
            rw [(insertNum_perm _ _).mem_iff, List.mem_cons, (insertNum_perm _ _).mem_iff, List.mem_cons]
            exact Or.inr (Or.inr hz)
          · by_cases he : e ∈ st1.ael
            · left
              rw [(insertNum_perm _ _).mem_iff, List.mem_cons, (insertNum_perm _ _).mem_iff, List.mem_cons]
              rcases List.mem_cons.1 (p1.mem_iff.1 he) with rfl | he
              · exact Or.inl h3
              · rcases List.mem_cons.1 he with rfl | he
                · exact Or.inr (Or.inl h3)
                · exact (h2 he).elim
            · exact Or.inr ⟨e, h1, he, h3⟩
    · rw [if_neg h]
      have hlt : y < m.pt.y := lt_of_le_of_ne (hy m List.mem_cons_self) (Ne.symm h)
      refine ⟨_, rfl, c, hs, rfl, ?_, List.Sublist.refl _, hid, fun e he => Or.inl he, fun e he => he, fun x hx => hx, rfl, fun h => ⟨rfl, h⟩, hsc,
        fun z => ⟨Or.inl, fun h => h.elim id (fun ⟨e, h1, h2, _⟩ => (h2 h1).elim)⟩⟩
      intro m'
      refine ⟨fun h1 => ⟨h1, ?_⟩, fun h1 => h1.1⟩
      rcases List.mem_cons.1 h1 with rfl | h1
      · exact hlt
      · exact lt_of_lt_of_le hlt (List.rel_of_pairwise_cons hsort h1)

/-! ## recalculating the counts -/

/-- One edge before and after. -/
def RecalcRel (xs : List K) (e e' : Edge K) : Prop :=
  e'.plain = e.plain ∧ (e.currX ∈ xs → e'.bound = none) ∧ (e.currX ∉ xs → e' = e)

theorem recalcX_rel (fr : FillRule) (x : K) (done rest : List (Edge K)) (hs : AelSorted rest) :
    ∃ p q d, rest = p ++ q ∧ recalcX fr x done rest = (done ++ d, q) ∧ List.Forall₂ (RecalcRel [x]) p d ∧
      (∀ e ∈ p, e.currX ≤ x) ∧ (∀ e ∈ q, x < e.currX) := by
  induction rest generalizing done with
  | nil => exact ⟨[], [], [], rfl, by simp [recalcX], List.Forall₂.nil, by simp, by simp⟩
  | cons e rest ih =>
    obtain ⟨h1, h2⟩ := List.pairwise_cons.1 hs
    rw [recalcX]
    simp only [lt_eq_decide, decide_eq_true_eq]
    by_cases hlt : e.currX < x
    · rw [if_pos hlt]
      obtain ⟨p, q, d, r1, r2, r3, r4, r5⟩ := ih (done ++ [e]) h2
      refine ⟨e :: p, q, e :: d, by rw [r1]; rfl, by rw [r2]; simp, List.Forall₂.cons ⟨rfl, ?_, fun _ => rfl⟩ r3, ?_, r5⟩
      · intro hc; simp at hc; exact (hlt.ne hc).elim
      · intro u hu
        rcases List.mem_cons.1 hu with rfl | hu
        · exact hlt.le
        · exact r4 u hu
    · rw [if_neg hlt]
      by_cases hgt : x < e.currX
      · rw [if_pos hgt]
        refine ⟨[], e :: rest, [], rfl, by simp, List.Forall₂.nil, by simp, ?_⟩
        intro u hu
        rcases List.mem_cons.1 hu with rfl | hu
        · exact hgt
        · exact lt_of_lt_of_le hgt (h1 u hu)
      · rw [if_neg hgt]
        have hx : e.currX = x := le_antisymm (not_lt.1 hgt) (not_lt.1 hlt)
        obtain ⟨p, q, d, r1, r2, r3, r4, r5⟩ := ih (done ++ [calcWind fr done { e with bound := none }]) h2
        refine ⟨e :: p, q, _ :: d, by rw [r1]; rfl, by rw [r2]; simp, List.Forall₂.cons (a := e) (b := calcWind fr done { e with bound := none }) ⟨?_, ?_, ?_⟩ r3, ?_, r5⟩
        · rw [calcWind_plain]; rfl
        · intro _; rw [calcWind_bound]
        · intro hc; exact (hc (by simp [hx])).elim
        · intro u hu
          rcases List.mem_cons.1 hu with rfl | hu
          · exact hx.le
          · exact r4 u hu

theorem recalcGo_rel (fr : FillRule) (xs : List K) (hxs : xs.Pairwise (· < ·)) (done rest : List (Edge K)) (hs : AelSorted rest) :
    ∃ d, recalcGo fr xs done rest = done ++ d ∧ List.Forall₂ (RecalcRel xs) rest d := by
  induction xs generalizing done rest with
  | nil =>
    refine ⟨rest, rfl, ?_⟩
    rw [List.forall₂_same]
    intro e _
    exact ⟨rfl, by simp, fun _ => rfl⟩
  | cons x xs ih =>
    obtain ⟨p, q, d, r1, r2, r3, r4, r5⟩ := recalcX_rel fr x done rest hs
    obtain ⟨hx1, hx2⟩ := List.pairwise_cons.1 hxs
    rw [recalcGo]
    simp only [r2]
    have hq : AelSorted q := by rw [r1] at hs; exact (List.pairwise_append.1 hs).2.1
    obtain ⟨d2, s1, s2⟩ := ih hx2 (done ++ d) q hq
    refine ⟨d ++ d2, by rw [s1, List.append_assoc], ?_⟩
    rw [r1]
    refine List.rel_append (R := RecalcRel (x :: xs)) ?_ ?_
    · have : List.Forall₂ (fun e e' => e ∈ p ∧ RecalcRel [x] e e') p d := by
        clear r1 r2 s1 s2 ih r4
        induction r3 with
        | nil => exact List.Forall₂.nil
        | cons h _ ih => exact List.Forall₂.cons ⟨List.mem_cons_self, h⟩ (ih.imp (fun a b h => ⟨List.mem_cons_of_mem _ h.1, h.2⟩))
      refine this.imp ?_
      rintro e e' ⟨hp, g1, g2, g3⟩
      have hle := r4 e hp
      refine ⟨g1, fun hc => ?_, fun hc => g3 (fun h => hc (by simp at h; simp [h]))⟩
      rcases List.mem_cons.1 hc with h | h
      · exact g2 (by simp [h])
      · exact absurd hle (not_le.2 (hx1 _ h))
    · have : List.Forall₂ (fun e e' => e ∈ q ∧ RecalcRel xs e e') q d2 := by
        clear r1 r2 s1 ih r5 hq
        induction s2 with
        | nil => exact List.Forall₂.nil
        | cons h _ ih => exact List.Forall₂.cons ⟨List.mem_cons_self, h⟩ (ih.imp (fun a b h => ⟨List.mem_cons_of_mem _ h.1, h.2⟩))
      refine this.imp ?_
      rintro e e' ⟨hq', g1, g2, g3⟩
      have hlt := r5 e hq'
      refine ⟨g1, fun hc => ?_, fun hc => g3 (fun h => hc (List.mem_cons_of_mem _ h))⟩
      rcases List.mem_cons.1 hc with h | h
      · exact (hlt.ne' h).elim
      · exact g2 h

theorem aelSorted_of_left {y : K} {l : List (Edge K)} (hg : ∀ e ∈ l, Good rings y e) (hs : l.Pairwise (LeftE rings)) : AelSorted l :=
  hs.imp_of_mem (fun he hf h => (hg _ he).le (hg _ hf) h)

omit [LawfulOrd K] in
theorem good_plain {y : K} {e f : Edge K} (h : e.plain = f.plain) (hf : Good rings y f) : Good rings y e := by
  have h1 : Good rings y f.plain := ⟨⟨hf.ok.1, hf.ok.2, hf.ok.3, hf.ok.4, hf.ok.5⟩, hf.above, hf.x⟩
  rw [← h] at h1
  exact ⟨⟨h1.ok.1, h1.ok.2, h1.ok.3, h1.ok.4, h1.ok.5⟩, h1.above, h1.x⟩

omit [FTrans K] [LinearOrder K] [Absc K] [LawfulOrd K] in
theorem pairwise_plain {R : Edge K → Edge K → Prop} (hR : ∀ e f, R e.plain f.plain ↔ R e f) {l l' : List (Edge K)}
    (h : l'.map Edge.plain = l.map Edge.plain) : l'.Pairwise R ↔ l.Pairwise R := by
  have e1 : ∀ l : List (Edge K), (l.map Edge.plain).Pairwise R ↔ l.Pairwise R := by
    intro l
    rw [List.pairwise_map]
    exact List.Pairwise.iff (fun e f => hR e f)
  rw [← e1 l', h, e1]

/-- No horizontal side is met at an abscissa that is not recorded. -/
theorem Core.no_flat (A : Arranged rings) {fr : FillRule} {y : K} {ael : List (Edge K)} {ch : List K} {ms : List (LocMin K)}
    (c : Core rings fr y ael ch ms) (hm : ∀ m ∈ ms, m.pt.y ≠ y) {e : Edge K} (he : e ∈ ael) (hx : e.currX ∉ ch) :
    ∀ f ∈ sides rings, f.Flat → f.frm.y = y → (f.frm.x < e.currX ↔ f.seg.target.x < e.currX) := by
  intro f hf hfl hfy
  have ge := c.good e he
  have hcov : ¬ f.Covers e.currX := by
    intro hc
    rw [ge.x] at hc
    rcases c.flats f hf hfl hfy with ⟨m, h1, h2, _⟩ | h1
    · exact hm m h1 h2
    · rcases A.touch f hf hfl _ (ge.mem A) ge.above.steep (by rw [hfy]; exact ge.above.1) (by rw [hfy]; exact ge.above.2.le) (by rw [hfy]; exact hc) with h | h | h | h
      · exact hx (h1 e he (Or.inl h))
      · exact hx (h1 e he (Or.inr h))
      · have := ge.above.2; rw [h, hfy] at this; exact lt_irrefl _ this
      · have := ge.above.2; rw [h, ← (hfl : f.frm.y = _), hfy] at this; exact lt_irrefl _ this
  unfold Side.Covers at hcov
  rw [not_and_or, not_le, not_le, lt_min_iff, max_lt_iff] at hcov
  rcases hcov with h | h
  · exact ⟨fun h2 => absurd h2 (not_lt.2 h.1.le), fun h2 => absurd h2 (not_lt.2 h.2.le)⟩
  · exact ⟨fun _ => h.2, fun _ => h.1⟩

/-- After all minima of this height have been inserted and the counts recalculated. -/
theorem Core.recalc (A : Arranged rings) {fr : FillRule} {y : K} {ael : List (Edge K)} {ch : List K} {ms : List (LocMin K)}
    (c : Core rings fr y ael ch ms) (hs : ael.Pairwise (LeftE rings)) (hm : ∀ m ∈ ms, y < m.pt.y) :
    Beam rings fr y (recalcGo fr (uniqNum (sortNum ch)) [] ael) := by
  have hsort := aelSorted_of_left c.good hs
  have hcomp : ∀ s ∈ sides rings, s.Above y → ∃ e ∈ ael, sideOf rings e = s := by
    intro s h1 h2
    rcases c.complete s h1 h2 with h | ⟨m, h3, h4, _⟩
    · exact h
    · exact ((hm m h3).ne' h4).elim
  obtain ⟨h1, h2⟩ := recalc_windcnt_ok fr ch ael (dirsOk_of_good c.good) hsort (by
    intro pre e post hl hx
    have he : e ∈ ael := by rw [hl]; simp
    rw [countsOk_iff]
    have hc := c.counts e he hx
    have hw : ∀ t, wn t pre = wnS t ((sides rings).filter (fun s => decide (s.Below y ∧ s.x y < e.currX))) := by
      intro t
      have hpre : ∀ u ∈ pre, u ∈ ael := fun u hu => by rw [hl]; simp [hu]
      rw [A.balance t y e.currX (c.no_flat A (fun m hm' => (hm m hm').ne') he hx), wn_sides A.linked t pre (fun u hu => (c.good u (hpre u hu)).ok)]
      apply wnS_perm
      have f1 := (perm_above A c.good c.diff hcomp).filter (fun s => decide (s.x y < e.currX))
      have f2 : (ael.map (sideOf rings)).filter (fun s => decide (s.x y < e.currX)) = pre.map (sideOf rings) := by
        refine filter_split (fun s => s.x y) _ (ael.map (sideOf rings)) (pre.map (sideOf rings)) (post.map (sideOf rings)) (sideOf rings e) (by rw [hl]; simp) (c.good e he).x.symm ?_ ?_
        · intro s hs
          obtain ⟨u, hu, rfl⟩ := List.mem_map.1 hs
          have hmul := c.multi
          unfold AelSorted at hsort
          rw [hl] at hsort hmul
          have g1 := (List.pairwise_append.1 hsort).2.2 u hu e (by simp)
          have g2 := (List.pairwise_append.1 hmul).2.2 u hu e (by simp)
          rw [← (c.good u (hpre u hu)).x]
          exact lt_of_le_of_ne g1 (fun h => hx (h ▸ g2 h))
        · intro s hs
          obtain ⟨u, hu, rfl⟩ := List.mem_map.1 hs
          unfold AelSorted at hsort
          rw [hl] at hsort
          rw [← (c.good u (by rw [hl]; simp [hu])).x]
          exact List.rel_of_pairwise_cons (List.pairwise_append.1 hsort).2.1 hu
      rw [f2, List.filter_filter] at f1
      refine f1.trans (List.Perm.of_eq (List.filter_congr ?_))
      intro s _
      rw [Bool.decide_and, Bool.and_comm]
    simpa only [hw] using hc)
  have hex : ∀ {a b : List (Edge K)}, a.map Edge.plain = b.map Edge.plain → ∀ e ∈ a, ∃ f ∈ b, e.plain = f.plain := by
    intro a b h e he
    obtain ⟨f, hf, h2⟩ := List.mem_map.1 (h ▸ List.mem_map_of_mem (f := Edge.plain) he)
    exact ⟨f, hf, h2.symm⟩
  refine ⟨?_, ?_, ?_, ?_, h1, ?_⟩
  · intro e he
    obtain ⟨f, hf, h3⟩ := hex h2 e he
    exact good_plain h3 (c.good f hf)
  · exact (pairwise_plain (R := DiffE rings) (fun _ _ => Iff.rfl) h2).2 c.diff
  · exact (pairwise_plain (R := LeftE rings) (fun _ _ => Iff.rfl) h2).2 hs
  · intro s q1 q2
    obtain ⟨e, he, h3⟩ := hcomp s q1 q2
    obtain ⟨f, hf, h4⟩ := hex h2.symm e he
    refine ⟨f, hf, ?_⟩
    have : sideOf rings e.plain = sideOf rings f.plain := by rw [h4]
    rw [← h3]; exact this.symm
  · have e1 : ∀ l : List (Edge K), l.map Edge.eid = (l.map Edge.plain).map Edge.eid := by intro l; rw [List.map_map]; rfl
    rw [e1, h2, ← e1]; exact c.ids

end River
