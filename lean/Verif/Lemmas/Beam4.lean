import Verif.Lemmas.Beam3

/-! # The active edges through the whole sweep -/

namespace River
variable {K : Type} [FTrans K] [LinearOrder K] [Absc K] [LawfulOrd K] {rings : List (Ring K)}

omit [LawfulOrd K] in
theorem Core.changes_congr {fr : FillRule} {y : K} {ael : List (Edge K)} {ch ch' : List K} {ms : List (LocMin K)}
    (h : ∀ x, x ∈ ch' ↔ x ∈ ch) (c : Core rings fr y ael ch ms) : Core rings fr y ael ch' ms :=
  ⟨c.good, c.diff, c.multi.imp (fun h1 h2 => (h _).2 (h1 h2)), fun e he hx => c.counts e he (fun hc => hx ((h _).2 hc)), c.complete, c.fresh,
    fun f hf h1 h2 => (c.flats f hf h1 h2).imp id (fun h3 e he hp => (h _).2 (h3 e he hp)), c.ids⟩

omit [FTrans K] [LinearOrder K] [Absc K] [LawfulOrd K] in
theorem sublist_bare {l l' : List (Edge K)} (h : l'.map Edge.bare = l.map Edge.bare) {i j : Edge K} (hs : [i, j].Sublist l') :
    ∃ i2 j2, [i2, j2].Sublist l ∧ i.bare = i2.bare ∧ j.bare = j2.bare := by
  have h1 := hs.map Edge.bare
  rw [h] at h1
  obtain ⟨q, h2, h3⟩ := List.sublist_map_iff.1 h1
  rw [List.map_cons, List.map_cons, List.map_nil] at h3
  obtain ⟨a, q', rfl, e1, h4⟩ := List.map_eq_cons_iff.1 h3.symm
  obtain ⟨b, q'', rfl, e2, h5⟩ := List.map_eq_cons_iff.1 h4
  rw [List.map_eq_nil_iff] at h5
  subst h5
  exact ⟨a, b, h2, e1.symm, e2.symm⟩

/-- Between two scan lines, `y` being the last one: after `update_ouput_bound(y)`. -/
structure Low (rings : List (Ring K)) (fr : FillRule) (y : K) (st : St K) : Prop where
  beam : Beam rings fr y st.ael
  ids : ∀ e ∈ st.ael, e.eid < st.nextId
  scanSorted : st.scan.Pairwise (· ≤ ·)
  scanGt : ∀ z ∈ st.scan, y < z
  tops : ∀ e ∈ st.ael, e.top.y ∈ st.scan
  mins : ∀ m, m ∈ st.mins ↔ m ∈ locMins rings ∧ y < m.pt.y
  minsNodup : st.mins.Nodup
  minsSorted : st.mins.Pairwise (fun a b => a.pt.y ≤ b.pt.y)
  minsScan : ∀ m ∈ st.mins, m.pt.y ∈ st.scan
  scanEnd : ∀ z ∈ st.scan, EndHeight rings z

/-- At the scan line `y`, before its local minima are inserted. -/
structure High (rings : List (Ring K)) (fr : FillRule) (y : K) (st : St K) : Prop where
  core : Core rings fr y st.ael st.changes st.mins
  sorted : st.ael.Pairwise (LeftE rings)
  ids : ∀ e ∈ st.ael, e.eid < st.nextId
  scanSorted : st.scan.Pairwise (· ≤ ·)
  scanGt : ∀ z ∈ st.scan, y < z
  tops : ∀ e ∈ st.ael, e.top.y ∈ st.scan
  mins : ∀ m, m ∈ st.mins ↔ m ∈ locMins rings ∧ y ≤ m.pt.y
  minsNodup : st.mins.Nodup
  minsSorted : st.mins.Pairwise (fun a b => a.pt.y ≤ b.pt.y)
  minsScan : ∀ m ∈ st.mins, y < m.pt.y → m.pt.y ∈ st.scan
  scanEnd : ∀ z ∈ st.scan, EndHeight rings z

/-- No vertex lies strictly between two scan lines. -/
theorem Low.gap2 (A : Arranged rings) {fr : FillRule} {y y' : K} {st : St K} {sc : List K} (h : Low rings fr y st)
    (hp : popScan y st.scan = some (y', sc)) :
    (∀ s ∈ sides rings, s.Above y ↔ s.Below y') ∧ ∀ s ∈ sides rings, ¬ s.Flat → ¬ (y < s.bot.y ∧ s.bot.y < y') := by
  obtain ⟨_, h2⟩ := popScan_spec y st.scan h.scanSorted (fun z hz => (h.scanGt z hz).le)
  obtain ⟨_, hlt, hmin, _, _⟩ := h2 y' sc hp
  have htop : ∀ s ∈ sides rings, s.Above y → y' ≤ s.top.y := by
    intro s hs ha
    obtain ⟨e, he, h1⟩ := h.beam.complete s hs ha
    have := (((h.beam.good e he).ok).facts A.linked).2.2.2.2.1
    rw [← h1, this]
    exact hmin _ (h.tops e he) (h.scanGt _ (h.tops e he))
  have hno : ∀ s ∈ sides rings, ¬ s.Flat → ¬ (y < s.bot.y ∧ s.bot.y < y') := by
    intro s0 hs0 hst0 hc
    obtain ⟨s, ⟨hs, hst, g1, g2⟩, hmn⟩ := Set.exists_min_image {s : Side K | s ∈ sides rings ∧ ¬ s.Flat ∧ y < s.bot.y ∧ s.bot.y < y'} (fun s => s.bot.y)
      ((List.finite_toSet (sides rings)).subset (fun s hs => hs.1)) ⟨s0, hs0, hst0, hc⟩
    obtain ⟨fl, p, pw, pst, hp, pw', ⟨p3, p4⟩ | ⟨p3, p4, v, hv, hv1, hv2⟩⟩ := A.under hs hst
    · have hlow : p.bot.y < s.bot.y := by rw [← p4]; exact Side.ht pst
      have hpy : p.bot.y ≤ y := by
        by_contra hcon
        exact absurd (hmn p ⟨hp, pst, not_le.1 hcon, hlow.trans g2⟩) (not_le.2 hlow)
      have := htop p hp ⟨hpy, by rw [p4]; exact g1⟩
      rw [p4] at this
      exact absurd g2 (not_lt.2 this)
    · obtain ⟨x, _, hx, _⟩ := side_node hs
      have hvy : v.pt.y = s.bot.y := by rw [hv1]; split <;> [rfl; exact p4]
      have hm : (⟨v.pt, s.ring, (if s.up then s else p).idx, x.ptype⟩ : LocMin K) ∈ locMins rings :=
        (locMins_spec rings _).2 ⟨v, x, hv, hx, hv2, rfl, rfl⟩
      have hy : y < v.pt.y := by rw [hvy]; exact g1
      have : y' ≤ v.pt.y := hmin _ (h.minsScan _ ((h.mins _).2 ⟨hm, hy⟩)) hy
      rw [hvy] at this
      exact absurd g2 (not_lt.2 this)
  refine ⟨?_, hno⟩
  intro s hs
  constructor
  · intro ha; exact ⟨lt_of_le_of_lt ha.1 hlt, htop s hs ha⟩
  · intro hb
    refine ⟨?_, lt_of_lt_of_le hlt hb.2⟩
    by_contra hcon
    exact hno s hs hb.steep ⟨not_le.1 hcon, hb.1⟩

theorem Low.gap (A : Arranged rings) {fr : FillRule} {y y' : K} {st : St K} {sc : List K} (h : Low rings fr y st)
    (hp : popScan y st.scan = some (y', sc)) : ∀ s ∈ sides rings, s.Above y ↔ s.Below y' := (h.gap2 A hp).1

/-- The last scan line. -/
theorem Low.last {fr : FillRule} {y : K} {st : St K} (h : Low rings fr y st) (hp : popScan y st.scan = none) :
    st.ael = [] ∧ st.mins = [] := by
  obtain ⟨h1, _⟩ := popScan_spec y st.scan h.scanSorted (fun z hz => (h.scanGt z hz).le)
  have hs : ∀ z ∈ st.scan, False := fun z hz => (h.scanGt z hz).ne' (h1.1 hp z hz)
  constructor
  · rw [List.eq_nil_iff_forall_not_mem]; intro e he; exact hs _ (h.tops e he)
  · rw [List.eq_nil_iff_forall_not_mem]; intro m hm; exact hs _ (h.minsScan m hm)

theorem beam_bare {fr : FillRule} {y : K} {ael ael' : List (Edge K)} (h : ael'.map Edge.bare = ael.map Edge.bare)
    (b : Beam rings fr y ael) : Beam rings fr y ael' := by
  refine ⟨?_, ?_, ?_, ?_, ?_, ?_⟩
  · intro e he
    obtain ⟨f, hf, hb⟩ := exists_bare (List.Perm.of_eq h) he
    exact good_bare hb (b.good f hf)
  · rw [← pairwise_bare (R := DiffE rings) (fun _ _ => Iff.rfl), h, pairwise_bare (R := DiffE rings) (fun _ _ => Iff.rfl)]; exact b.diff
  · rw [← pairwise_bare (R := LeftE rings) (fun _ _ => Iff.rfl), h, pairwise_bare (R := LeftE rings) (fun _ _ => Iff.rfl)]; exact b.sorted
  · intro s hs ha
    obtain ⟨e, he, h1⟩ := b.complete s hs ha
    obtain ⟨f, hf, hb⟩ := exists_bare (List.Perm.of_eq h.symm) he
    exact ⟨f, hf, by rw [← sideOf_bare hb]; exact h1⟩
  · intro pre e post hl
    rw [hl, List.map_append, List.map_cons] at h
    obtain ⟨pre', r', h1, h2, h3⟩ := List.map_eq_append_iff.1 h.symm
    obtain ⟨e', post', h4, h5, h6⟩ := List.map_eq_cons_iff.1 h3
    have hc := (countsOk_iff fr pre' e').1 (b.counts pre' e' post' (by rw [h1, h4]))
    rw [countsOk_iff]
    have hw : ∀ t, wn t pre = wn t pre' := by
      intro t
      have e1 : ∀ l : List (Edge K), wn t l = wn t (l.map Edge.bare) := by
        intro l
        induction l with
        | nil => rfl
        | cons a l ih => rw [List.map_cons, wn_cons, wn_cons, ih]; rfl
      rw [e1 pre, ← h2, ← e1]
    simp only [hw]
    exact countsW_bare h5.symm hc
  · have e1 : ∀ l : List (Edge K), l.map Edge.eid = (l.map Edge.bare).map Edge.eid := by intro l; rw [List.map_map]; rfl
    rw [e1, h, ← e1]; exact b.ids

/-- The first half of a round. -/
theorem High.insert (A : Arranged rings) {fr : FillRule} {y : K} {st : St K} (h : High rings fr y st) :
    ∃ st1, insertMins rings y st.mins st = some st1 ∧ Inserted rings fr y st.mins st st1 :=
  h.core.insertMins A st.mins h.sorted (fun m hm => ((h.mins m).1 hm).1) h.minsNodup h.minsSorted (fun m hm => ((h.mins m).1 hm).2)
    h.ids h.scanSorted

theorem High.low (A : Arranged rings) {fr : FillRule} {y : K} {st st1 st2 : St K} (h : High rings fr y st)
    (hi : Inserted rings fr y st.mins st st1) (hb : SameBare (recalcWind fr st1) st2) : Low rings fr y st2 := by
  have hbeam : Beam rings fr y st2.ael :=
    beam_bare hb.ael (hi.core.recalc A hi.sorted (fun m hm => ((hi.mins m).1 hm).2))
  have hmem : ∀ e ∈ st2.ael, ∃ f ∈ st1.ael, e.plain = f.plain := by
    intro e he
    obtain ⟨f, hf, h1⟩ := exists_bare (List.Perm.of_eq hb.ael) he
    have : f.plain ∈ ((recalcWind fr st1).ael).map Edge.plain := List.mem_map_of_mem hf
    rw [show (recalcWind fr st1).ael = recalcGo fr (uniqNum (sortNum st1.changes)) [] st1.ael from rfl, recalcGo_plain] at this
    obtain ⟨g, hg, h2⟩ := List.mem_map.1 this
    refine ⟨g, by simpa using hg, ?_⟩
    rw [h2]
    have h3 : e.bare.plain = f.bare.plain := by rw [h1]
    exact h3
  have hsc : st2.scan = st1.scan := hb.scan
  have hmn : st2.mins = st1.mins := hb.mins
  have hni : st2.nextId = st1.nextId := hb.nextId
  refine ⟨hbeam, ?_, ?_, ?_, ?_, ?_, ?_, ?_, ?_, ?_⟩
  · intro e he
    obtain ⟨f, hf, h1⟩ := hmem e he
    have : e.plain.eid = f.plain.eid := by rw [h1]
    rw [hni, show e.eid = f.eid from this]
    exact hi.ids f hf
  · rw [hsc]; exact hi.scanSorted
  · rw [hsc]
    intro z hz
    rcases (hi.scan z).1 hz with hz | ⟨e, he, _, rfl⟩
    · exact h.scanGt z hz
    · have g := hi.core.good e he
      rw [← (g.ok.facts A.linked).2.2.2.2.1]
      exact g.above.2
  · rw [hsc]
    intro e he
    obtain ⟨f, hf, h1⟩ := hmem e he
    have : e.plain.top = f.plain.top := by rw [h1]
    rw [show e.top = f.top from this, hi.scan]
    by_cases hold : f ∈ st.ael
    · exact Or.inl (h.tops f hold)
    · exact Or.inr ⟨f, hf, hold, rfl⟩
  · intro m
    rw [hmn, hi.mins, h.mins]
    constructor
    · rintro ⟨⟨h1, _⟩, h2⟩; exact ⟨h1, h2⟩
    · rintro ⟨h1, h2⟩; exact ⟨⟨h1, h2.le⟩, h2⟩
  · rw [hmn]; exact h.minsNodup.sublist hi.minsSub
  · rw [hmn]; exact h.minsSorted.sublist hi.minsSub
  · rw [hmn, hsc]
    intro m hm
    rw [hi.scan]
    obtain ⟨h1, h2⟩ := (hi.mins m).1 hm
    exact Or.inl (h.minsScan m h1 h2)
  · rw [hsc]
    intro z hz
    rcases (hi.scan z).1 hz with hz | ⟨e, he, _, rfl⟩
    · exact h.scanEnd z hz
    · obtain ⟨m, _, _, _, t, _⟩ := (hi.core.good e he).ok.facts A.linked
      exact ⟨_, m, Or.inr (by rw [t])⟩

/-- The state after the top of a scan beam, up to the output. -/
def topSt (rings : List (Ring K)) (y : K) (sc : List K) (st : St K) (o : Outs K) : St K :=
  { st with
    ael := st.ael.filterMap (topE rings y)
    out := o
    changes := topCh (FNum.neg FNum.maxNum) (st.ael.map (fun e => ((sideOf rings e).x y, topX rings y e))) []
    scan := topSc rings y st.ael sc }

theorem Low.doTop_eq (A : Arranged rings) {fr : FillRule} {y y' : K} {st : St K} {sc : List K} (h : Low rings fr y st)
    (hp : popScan y st.scan = some (y', sc)) :
    doTop rings y' { st with scan := sc } = (st.ael.foldlM (topO rings y') st.out).map (topSt rings y' sc st) := by
  have hg := h.gap A hp
  obtain ⟨_, h2⟩ := popScan_spec y st.scan h.scanSorted (fun z hz => (h.scanGt z hz).le)
  rw [doTop, topGo_eq A y' _ _ _ _ (fun e he => (h.beam.good e he).ok) (h.scanEnd _ (h2 y' sc hp).1)
    (fun e he => (hg _ ((h.beam.good e he).mem A)).1 (h.beam.good e he).above)]
  rfl

/-- The second half of a round. -/
theorem Low.high (A : Arranged rings) {fr : FillRule} {y y' : K} {st : St K} {sc : List K} (h : Low rings fr y st)
    (hp : popScan y st.scan = some (y', sc)) (o : Outs K) (st2 : St K) (hb : SameBare (topSt rings y' sc st o) st2)
    (hch : st2.changes = (topSt rings y' sc st o).changes) :
    High rings fr y' (resortAel rings st2) := by
  obtain ⟨_, h2⟩ := popScan_spec y st.scan h.scanSorted (fun z hz => (h.scanGt z hz).le)
  obtain ⟨hyin, hlt, hmin, hss, hsm⟩ := h2 y' sc hp
  have hg := h.gap A hp
  have hbelow : ∀ e ∈ st.ael, (sideOf rings e).Below y' := fun e he => (hg _ ((h.beam.good e he).mem A)).1 (h.beam.good e he).above
  obtain ⟨c0, s0⟩ := h.beam.top A hlt hg st.mins
    (fun m hm => ⟨((h.mins m).1 hm).1, hmin _ (h.minsScan m hm) ((h.mins m).1 hm).2⟩)
    (fun m hm hy => (h.mins m).2 ⟨hm, by rw [hy]; exact hlt⟩) (FNum.neg FNum.maxNum) []
  have c1 : Core rings fr y' st2.ael st2.changes st.mins := by rw [hch]; exact c0.perm (List.Perm.of_eq hb.ael)
  have hbael : st2.ael.map Edge.bare = (st.ael.filterMap (topE rings y')).map Edge.bare := hb.ael
  have s1 : ∀ i j, [i, j].Sublist st2.ael → (i.currX ∈ st2.changes → ∃ h, [h, i].Sublist st2.ael ∧ i.currX < h.currX) →
      i.currX < j.currX ∨ Twin (sideOf rings i) (sideOf rings j) := by
    intro i j hij hi
    obtain ⟨i2, j2, hij2, e1, e2⟩ := sublist_bare hbael hij
    rw [currX_bare e1, currX_bare e2, sideOf_bare e1, sideOf_bare e2]
    refine s0 i2 j2 hij2 (fun hx => ?_)
    rw [currX_bare e1, hch] at hi
    obtain ⟨h', hs', hlt'⟩ := hi hx
    obtain ⟨h2, i3, hs3, e3, e4⟩ := sublist_bare hbael hs'
    have : i3 = i2 := by
      refine List.inj_on_of_nodup_map c0.ids (hs3.subset (by simp)) (hij2.subset (by simp)) ?_
      have : i3.bare.eid = i2.bare.eid := by rw [← e4, ← e1]
      exact this
    subst this
    exact ⟨h2, hs3, by rw [← currX_bare e3]; exact hlt'⟩
  obtain ⟨c2, s2⟩ := c1.resort A s1
  obtain ⟨u1, _⟩ := uniqNum_spec _ (sortNum_sorted st2.changes)
  have hmark : ∀ x, x ∈ uniqNum (sortNum st2.changes) ↔ x ∈ st2.changes := fun x => (u1 x).trans (sortNum_perm _).mem_iff
  have hperm : ((resortAel rings st2).ael.map Edge.bare).Perm ((st.ael.filterMap (topE rings y')).map Edge.bare) := by
    have := hb.ael
    rw [show (topSt rings y' sc st o).ael = st.ael.filterMap (topE rings y') from rfl] at this
    rw [← this]
    obtain ⟨kept, taken, h1, _, _, h2, _⟩ := resortAel_split (rings := rings) st2
    refine (h2.map Edge.bare).trans ?_
    rw [List.map_append, List.map_map]
    show (kept.map Edge.bare ++ taken.map Edge.bare).Perm _
    rw [← List.map_append]
    exact h1.map _
  have hscan : (resortAel rings st2).scan = topSc rings y' st.ael sc := hb.scan
  have hmins : (resortAel rings st2).mins = st.mins := hb.mins
  have hnid : (resortAel rings st2).nextId = st.nextId := hb.nextId
  obtain ⟨t1, t2⟩ := topSc_spec (rings := rings) y' st.ael sc hss
  refine ⟨?_, s2, ?_, ?_, ?_, ?_, ?_, ?_, ?_, ?_, ?_⟩
  · rw [hmins]
    exact c2.changes_congr hmark
  · intro e he
    obtain ⟨f, hf, h1⟩ := exists_bare hperm he
    obtain ⟨g, hg', h2⟩ := List.mem_filterMap.1 hf
    have : e.bare.eid = f.bare.eid := by rw [h1]
    obtain ⟨_, hrel⟩ := topE_spec A (h.beam.good g hg') (hbelow g hg') h2
    have h3 := hrel.eid
    rw [hnid, show e.eid = f.eid from this, h3]
    exact h.ids g hg'
  · rw [hscan]; exact t1
  · rw [hscan]
    intro z hz
    rcases (t2 z).1 hz with hz | ⟨e, he, hy, e', he', rfl⟩
    · exact ((hsm z).1 hz).2
    · obtain ⟨_, hrel⟩ := topE_spec A (h.beam.good e he) (hbelow e he) he'
      rw [← (hrel.good.ok.facts A.linked).2.2.2.2.1]
      exact hrel.good.above.2
  · rw [hscan]
    intro e he
    obtain ⟨f, hf, h1⟩ := exists_bare hperm he
    have : e.bare.top = f.bare.top := by rw [h1]
    rw [show e.top = f.top from this]
    obtain ⟨g, hg', h2⟩ := List.mem_filterMap.1 hf
    rw [t2]
    by_cases hy : g.top.y = y'
    · exact Or.inr ⟨g, hg', hy, f, h2, rfl⟩
    · rw [topE, if_neg hy] at h2
      cases h2
      left
      rw [hsm]
      refine ⟨h.tops g hg', ?_⟩
      have b1 := (hbelow g hg').2
      rw [((h.beam.good g hg').ok.facts A.linked).2.2.2.2.1] at b1
      exact lt_of_le_of_ne b1 (Ne.symm hy)
  · intro m
    rw [hmins, h.mins]
    constructor
    · rintro ⟨h1, h2⟩
      exact ⟨h1, hmin _ (h.minsScan m ((h.mins m).2 ⟨h1, h2⟩)) h2⟩
    · rintro ⟨h1, h2⟩; exact ⟨h1, lt_of_lt_of_le hlt h2⟩
  · rw [hmins]; exact h.minsNodup
  · rw [hmins]; exact h.minsSorted
  · rw [hmins, hscan]
    intro m hm hy
    rw [t2, hsm]
    exact Or.inl ⟨h.minsScan m hm, hy⟩
  · rw [hscan]
    intro z hz
    rcases (t2 z).1 hz with hz | ⟨e, he, hy, e', he', rfl⟩
    · exact h.scanEnd z ((hsm z).1 hz).1
    · obtain ⟨_, hrel⟩ := topE_spec A (h.beam.good e he) (hbelow e he) he'
      obtain ⟨m, _, _, _, t, _⟩ := hrel.good.ok.facts A.linked
      exact ⟨_, m, Or.inr (by rw [t])⟩

end River
