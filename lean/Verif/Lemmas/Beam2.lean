import Verif.Lemmas.Beam

/-! # From one scan line to the next: the active edges -/

namespace River
variable {K : Type} [FTrans K] [LinearOrder K] [Absc K] [LawfulOrd K] {rings : List (Ring K)}

/-! ## local minima -/

/-- The two sides at a local minimum. -/
theorem Arranged.min_sides (A : Arranged rings) {m : LocMin K} (hm : m ∈ locMins rings) :
    ∃ a ∈ sides rings, ∃ b ∈ sides rings, ∃ fl, b.ring = m.ring ∧ b.idx = m.node ∧ b.up = true ∧ b.bot = m.pt ∧ b.ptype = m.ptype ∧
      FWalk rings false b fl a ∧ ¬ a.Flat ∧ a.ring = m.ring ∧ a.up = false ∧ a.bot.y = m.pt.y ∧ a.ptype = m.ptype ∧ Follows rings a b := by
  obtain ⟨v, r, h1, h2, h3, h4, h5⟩ := (locMins_spec rings m).1 hm
  have hb := side_at h1 h2
  obtain ⟨hup, a, ha, hfol, hau⟩ := ((A.flags _ hb v h1).1).1 h3
  obtain ⟨f1, f2, fl, hw⟩ := (follows_iff ha hb).1 hfol
  have hw' := hw.rev ha
  refine ⟨a, ha, _, hb, fl.reverse, rfl, rfl, hup, ?_, h5, hw', f1, hw'.mem.2.1, hau, ?_, ?_, hfol⟩
  · rw [Side.bot, hup, ← h4]; rfl
  · have := (hw'.height A.linked hb).1
    rw [← h4]
    show _ = v.pt.y
    have e : a.inn false = a.bot := by rw [← hau, Side.inn_bot]
    change (a.inn false).y = v.pt.y at this
    rw [e] at this; exact this
  · obtain ⟨x, w, hx, _, _, _, hp⟩ := side_node ha
    have hr : a.ring = m.ring := hw'.mem.2.1
    rw [hr, h2] at hx
    cases hx
    rw [hp, h5]

theorem Leg.cases {m : LocMin K} {a b s : Side K} (hb : b ∈ sides rings) (h1 : b.ring = m.ring) (h2 : b.idx = m.node) (ha : a ∈ sides rings)
    (hf : Follows rings a b) (hs : s ∈ sides rings) (h : Leg rings m s) : s = b ∨ s = a := by
  rcases h.2 with h3 | ⟨b', hb', h4, h5, h6⟩
  · exact Or.inl (side_ext rings s b hs hb (by rw [h.1, h1]) (by rw [h3, h2]))
  · right
    have : b' = b := side_ext rings b' b hb' hb (by rw [h4, h1]) (by rw [h5, h2])
    subst this
    exact h6.unique hs ha hb hf

omit [FTrans K] [LinearOrder K] [Absc K] [LawfulOrd K] in
theorem locMin_ext {m m' : LocMin K} (h : m ∈ locMins rings) (h' : m' ∈ locMins rings) (h1 : m.ring = m'.ring) (h2 : m.node = m'.node) :
    m = m' := by
  obtain ⟨v, r, a1, a2, a3, a4, a5⟩ := (locMins_spec rings m).1 h
  obtain ⟨v', r', b1, b2, b3, b4, b5⟩ := (locMins_spec rings m').1 h'
  rw [← h1] at b2; rw [a2] at b2; cases b2
  rw [← h1, ← h2, a1] at b1; cases b1
  cases m; cases m'; simp_all

/-- The code's ascending edge for a local minimum. -/
theorem newEdge_up (A : Arranged rings) {m : LocMin K} (hm : m ∈ locMins rings) (i : Nat) (ch : List K) {b : Side K} (hb : b ∈ sides rings)
    (h1 : b.ring = m.ring) (h2 : b.idx = m.node) (hbu : b.up = true) (hbp : b.bot = m.pt) (hpt : b.ptype = m.ptype) :
    ∃ e, newEdge rings m i (-1) ch = some (e, ch ++ [m.pt.x]) ∧ EOk rings e ∧ e.eid = i ∧ e.currX = e.bot.x ∧ e.windDx = -1 ∧ e.bound = none ∧
      sideOf rings e = b := by
  obtain ⟨x, v, hx, hv, h3, h4, h5⟩ := side_node hb
  have hlt := nodeAt_lt hv
  obtain ⟨w, hw⟩ := nodeAt_of_lt hv (nextIdx_lt hlt)
  have htw : b.seg.target = w.pt := by rw [h4]; exact node_target A.linked hv hw
  rw [h1, h2] at hw
  obtain ⟨e, he⟩ : ∃ e : Edge K, e = { eid := i, bot := m.pt, top := w.pt, currX := m.pt.x, windDx := -1, ring := m.ring, vtop := nextIdx (ringSize rings m.ring) m.node, ptype := m.ptype } := ⟨_, rfl⟩
  have hu : e.isUp = true := by rw [he]; rfl
  have hbf : b.frm = m.pt := by rw [← hbp, Side.bot, hbu]; rfl
  have hon : On rings e b := by
    refine ⟨hb, by rw [he, h1], by rw [he, hpt], Or.inr (by rw [he]), ?_, ?_, ?_⟩
    · rw [hu, he, if_pos rfl, h1, h2]
    · rw [hu, he]; exact hbf.symm
    · rw [hu, he]; exact htw.symm
  obtain ⟨ok, hside⟩ := hon.ok A.linked (by rw [hu, hbu]) (Side.up_steep hbu)
  have hnh : ∀ e : Edge K, e.bot = m.pt → e.top = w.pt → e.isHorz = false := by
    intro e' he1 he2
    rw [Edge.isHorz, eq_eq_decide, he1, he2]
    apply decide_eq_false
    have := ok.lt
    rw [he] at this
    exact this.ne
  refine ⟨e, ?_, ok, by rw [he], by rw [he], by rw [he], by rw [he], hside⟩
  rw [newEdge]
  simp only [show ((-1 : Int) < 0) by decide, if_true, hw, Option.bind_some]
  rw [skipHorz, hnh _ rfl rfl, he]
  rfl

/-- The code's descending edge for a local minimum. -/
theorem newEdge_down (A : Arranged rings) {m : LocMin K} (hm : m ∈ locMins rings) (i : Nat) (ch : List K) {a b : Side K} (hb : b ∈ sides rings)
    {fl : List (Side K)} (h1 : b.ring = m.ring) (h2 : b.idx = m.node) (hbu : b.up = true) (hbp : b.bot = m.pt) (hpt : b.ptype = m.ptype)
    (hwalk : FWalk rings false b fl a) (haf : ¬ a.Flat) (hau : a.up = false) :
    ∃ e, newEdge rings m i 1 ch = some (e, ch ++ [m.pt.x] ++ fl.map (fun g => (g.out false).x)) ∧ EOk rings e ∧ e.eid = i ∧
      e.currX = e.bot.x ∧ e.windDx = 1 ∧ e.bound = none ∧ sideOf rings e = a := by
  obtain ⟨g, hg⟩ := Adj.exists false hb
  obtain ⟨x, v, hx, hv, h3, h4, h5⟩ := side_node hg.1
  obtain ⟨x', _, hx', _, _, _, h5'⟩ := side_node hb
  have hxx : x' = x := by rw [hg.2.1, hx'] at hx; exact Option.some.inj hx
  have hbf : b.frm = m.pt := by rw [← hbp, Side.bot, hbu]; rfl
  have hgp := hg.point A.linked hb
  have hgi : g.idx = prevIdx (ringSize rings m.ring) m.node := by rw [hg.2.2, h1, h2]; rfl
  have hgr : g.ring = m.ring := hg.2.1.trans h1
  rw [hgr, hgi] at hv
  obtain ⟨e, he⟩ : ∃ e : Edge K, e = { eid := i, bot := m.pt, top := v.pt, currX := FNum.lit 0, windDx := 1, ring := m.ring, vtop := prevIdx (ringSize rings m.ring) m.node, ptype := m.ptype } := ⟨_, rfl⟩
  have hu : e.isUp = false := by rw [he]; rfl
  have hon : On rings e g := by
    refine ⟨hg.1, by rw [he, hgr], by rw [he, h5, ← hxx, ← h5', hpt], Or.inl (by rw [he]), ?_, ?_, ?_⟩
    · rw [hu, he]; exact hgi.symm
    · rw [hu, he, ← hgp]; exact hbf.symm
    · rw [hu, he]; exact h3.symm
  have hlen : fl.length < ringSize rings m.ring := by
    obtain ⟨fl', t', w', n', l'⟩ := FWalk.exists false hb hb rfl (Side.up_steep hbu)
    rw [(hwalk.unique w' haf n').1, ← h1]; exact l'
  have hne : newEdge rings m i 1 ch = (skipHorz rings (ringSize rings m.ring + 1) e (ch ++ [m.pt.x])).map (fun r => ({ r.1 with currX := r.1.bot.x }, r.2)) := by
    rw [newEdge]
    simp only [show ¬ ((1 : Int) < 0) by decide, if_false, hv, Option.bind_some]
    rw [he]
  have fin : ∀ e2 : Edge K, On rings e2 a → e2 = { e with vtop := e2.vtop, bot := e2.bot, top := e2.top, currX := e2.currX } →
      EOk rings { e2 with currX := e2.bot.x } ∧ sideOf rings { e2 with currX := e2.bot.x } = a := by
    intro e2 hon2 hform
    have hu2 : e2.isUp = false := by rw [← hu]; apply isUp_congr; rw [hform]
    exact On.ok (e := { e2 with currX := e2.bot.x }) A.linked ⟨hon2.1, hon2.2, hon2.3, hon2.4, hon2.5, hon2.6, hon2.7⟩ (by rw [hau]; exact hu2.symm) haf
  cases hwalk with
  | nil ha =>
    have : a = g := ha.unique hg
    subst this
    have hnh : e.isHorz = false := by
      cases hq : e.isHorz with
      | false => rfl
      | true => exact (haf (hon.horz.1 hq)).elim
    obtain ⟨o1, o2⟩ := fin e hon rfl
    refine ⟨_, ?_, o1, by rw [he], rfl, by rw [he], by rw [he], o2⟩
    rw [hne, skipHorz, hnh]; simp
  | @cons _ f _ fl ha hf hw =>
    have : f = g := ha.unique hg
    subst this
    obtain ⟨e2, g1, g2, g3⟩ := skipHorz_spec A hw haf hf e hon hu (ringSize rings m.ring + 1) (by simp at hlen; omega) (ch ++ [m.pt.x])
    obtain ⟨o1, o2⟩ := fin e2 g2 (by rw [g3])
    refine ⟨_, by rw [hne, g1]; rfl, o1, by rw [g3, he], rfl, by rw [g3, he], by rw [g3, he], o2⟩

/-! ## the beam -/

/-- The active edges between two scan lines, `y` being the lower one. -/
structure Beam (rings : List (Ring K)) (fr : FillRule) (y : K) (ael : List (Edge K)) : Prop where
  good : ∀ e ∈ ael, Good rings y e
  diff : ael.Pairwise (DiffE rings)
  sorted : ael.Pairwise (LeftE rings)
  complete : ∀ s ∈ sides rings, s.Above y → ∃ e ∈ ael, sideOf rings e = s
  counts : AllCountsOk fr ael
  ids : (ael.map Edge.eid).Nodup

theorem perm_above (A : Arranged rings) {y : K} {ael : List (Edge K)} (hg : ∀ e ∈ ael, Good rings y e)
    (hd : ael.Pairwise (DiffE rings)) (hc : ∀ s ∈ sides rings, s.Above y → ∃ e ∈ ael, sideOf rings e = s) :
    (ael.map (sideOf rings)).Perm ((sides rings).filter (fun s => decide (s.Above y))) := by
  rw [List.perm_ext_iff_of_nodup (List.pairwise_map.2 hd) ((sides_nodup rings).filter _)]
  intro s
  simp only [List.mem_map, List.mem_filter, decide_eq_true_eq]
  constructor
  · rintro ⟨e, he, rfl⟩; exact ⟨(hg e he).mem A, (hg e he).above⟩
  · rintro ⟨h1, h2⟩; exact hc s h1 h2

theorem dirsOk_of_good {y : K} {ael : List (Edge K)} (hg : ∀ e ∈ ael, Good rings y e) : DirsOk ael := fun e he => (hg e he).ok.dir

/-- The edge `e` becomes `e'` at the top of the scan beam, walking over `fl`. -/
structure TopRel (rings : List (Ring K)) (y : K) (e e' : Edge K) (fl : List (Side K)) : Prop where
  good : Good rings y e'
  eid : e'.eid = e.eid
  bound : e'.bound = e.bound
  dx : e'.windDx = e.windDx
  ptype : e'.ptype = e.ptype
  cnt : e'.windCnt = e.windCnt
  cnt2 : e'.windCnt2 = e.windCnt2
  walk : (fl = [] ∧ sideOf rings e' = sideOf rings e ∧ y < e.top.y) ∨
    (e.top.y = y ∧ FWalk rings (sideOf rings e).up (sideOf rings e) fl (sideOf rings e') ∧ (sideOf rings e').up = (sideOf rings e).up ∧
      (sideOf rings e').bot.y = y)
  x0 : fl = [] → e'.currX = (sideOf rings e).x y
  x1 : fl ≠ [] → e'.currX ∈ topX rings y e ∧ e'.currX ≠ (sideOf rings e).x y
  xs : topX rings y e = fl.map (fun g => (g.out (sideOf rings e).up).x)

theorem topE_spec (A : Arranged rings) {y y' : K} {e e' : Edge K} (h : Good rings y e) (hb : (sideOf rings e).Below y')
    (ht : topE rings y' e = some e') : ∃ fl, TopRel rings y' e e' fl := by
  obtain ⟨m1, g1, u1, b1, t1, d1, p1⟩ := h.ok.facts A.linked
  have x1 := h.ok.x_end A hb
  rw [topE] at ht
  split at ht
  · next hy =>
    obtain ⟨fl, t, hw, hst, h1 | h1⟩ := h.ok.next A
    · rw [h1.2.1] at ht; cases ht
    · obtain ⟨hup, hm, e1, e2, hs, hgo, htn, hok, hside, hform⟩ := h1
      rw [htn] at ht
      cases ht
      obtain ⟨m2, _, u2, b2, t2, _, _⟩ := hok.facts A.linked
      have hh := (hw.height A.linked m1).1
      rw [← hside] at hw hup hst hh
      have hby : (sideOf rings e').bot.y = y' := by
        have q1 : (sideOf rings e').inn e.isUp = (sideOf rings e').bot := by rw [← hup, Side.inn_bot]
        have q2 : (sideOf rings e).out e.isUp = (sideOf rings e).top := by rw [← u1, Side.out_top]
        rw [q1, q2, t1, hy] at hh; exact hh
      have hcx : e'.currX = (sideOf rings e').bot.x := by rw [b2, hform]
      have htop : topX rings y' e = fl.map (fun g => (g.out (sideOf rings e).up).x) := by
        rw [topX, if_pos hy, htn, u1]
      have hi : (sideOf rings e').inn (sideOf rings e).up = (sideOf rings e').bot := by rw [u1, ← hup, Side.inn_bot]
      rw [← u1] at hw hup
      refine ⟨fl, ⟨hok, ⟨hby.le, ?_⟩, ?_⟩, by rw [hform], by rw [hform], by rw [hform], by rw [hform], by rw [hform], by rw [hform],
        Or.inr ⟨hy, hw, hup, hby⟩, ?_, ?_, htop⟩
      · rw [← hby]; exact Side.ht hst
      · rw [hcx, ← hby, Side.x_bot]
      · rintro rfl
        have := (hw.near A.linked m1).2
        rw [hi, Side.out_top] at this
        rcases this with h | h
        · rw [hcx, h.2, t1, x1 hy]
        · cases h
      · intro hfl
        have := (hw.near A.linked m1).2
        rw [hi] at this
        have hne := A.walk_ne m1 hw h.above.steep hst hup hfl
        rw [hi, Side.out_top] at hne
        constructor
        · rcases this with h | h
          · exact (hfl h.1).elim
          · rw [htop, hcx]
            obtain ⟨g, hg, hgx⟩ := List.mem_map.1 h
            exact List.mem_map.2 ⟨g, hg, by rw [hgx]⟩
        · rw [hcx, x1 hy, ← t1]; exact hne.symm
  · next hy =>
    cases ht
    have hlt : y' < e.top.y := lt_of_le_of_ne (by rw [← t1]; exact hb.2) (Ne.symm hy)
    refine ⟨[], ⟨⟨h.ok.1, h.ok.2, h.ok.3, h.ok.4, h.ok.5⟩, ⟨hb.1.le, by rw [← t1] at hlt; exact hlt⟩, rfl⟩, rfl, rfl, rfl, rfl, rfl, rfl,
      Or.inl ⟨rfl, rfl, hlt⟩, fun _ => rfl, fun h => (h rfl).elim, by rw [topX, if_neg hy]; rfl⟩

omit [FTrans K] [LinearOrder K] [Absc K] [LawfulOrd K] in
theorem countsW_congr {fr : FillRule} {w : PathType → Int} {e e' : Edge K} (h1 : e'.windDx = e.windDx) (h2 : e'.ptype = e.ptype)
    (h3 : e'.windCnt = e.windCnt) (h4 : e'.windCnt2 = e.windCnt2) (h : CountsW fr w e) : CountsW fr w e' := by
  cases fr <;> simp only [CountsW, h1, h2, h3, h4] at h ⊢ <;> exact h

/-- Winding numbers to the left of an edge that is alone at its abscissa. -/
theorem filter_split {α : Type} (x : α → K) (X : K) (l pre post : List α) (e : α) (hl : l = pre ++ e :: post) (he : x e = X)
    (h1 : ∀ u ∈ pre, x u < X) (h2 : ∀ u ∈ post, X ≤ x u) : l.filter (fun u => decide (x u < X)) = pre := by
  rw [hl, List.filter_append, List.filter_cons]
  have e1 : pre.filter (fun u => decide (x u < X)) = pre := by
    rw [List.filter_eq_self]; intro u hu; simpa using h1 u hu
  have e2 : post.filter (fun u => decide (x u < X)) = [] := by
    rw [List.filter_eq_nil_iff]; intro u hu; simpa using h2 u hu
  rw [e1, e2, he]
  simp

omit [FTrans K] [LinearOrder K] [Absc K] [LawfulOrd K] in
theorem sublist_filterMap_pair {α β : Type} (g : α → Option β) (l : List α) {a' b' : β} (h : [a', b'].Sublist (l.filterMap g)) :
    ∃ a b, [a, b].Sublist l ∧ g a = some a' ∧ g b = some b' := by
  induction l with
  | nil => cases h
  | cons x l ih =>
    rw [List.filterMap_cons] at h
    cases hx : g x with
    | none =>
      rw [hx] at h
      obtain ⟨a, b, h1, h2⟩ := ih h
      exact ⟨a, b, h1.trans (List.sublist_cons_self _ _), h2⟩
    | some y =>
      rw [hx] at h
      cases h with
      | cons _ h =>
        obtain ⟨a, b, h1, h2⟩ := ih h
        exact ⟨a, b, h1.trans (List.sublist_cons_self _ _), h2⟩
      | cons_cons _ h =>
        obtain ⟨b, hb, hb2⟩ := List.mem_filterMap.1 (List.singleton_sublist.1 h)
        exact ⟨x, b, List.Sublist.cons_cons x (List.singleton_sublist.2 hb), hx, hb2⟩

/-! ### walkers -/

/-- An edge arriving at a point of a walk of another edge ends there. -/
theorem Arranged.on_walk (A : Arranged rings) {y : K} {s t u : Side K} {fl : List (Side K)} (hs : s ∈ sides rings) (hst : ¬ s.Flat)
    (hsy : s.top.y = y) (hw : FWalk rings s.up s fl t) (hu : u ∈ sides rings) (hub : u.Below y)
    (h1 : min s.top.x (t.inn s.up).x ≤ u.x y) (h2 : u.x y ≤ max s.top.x (t.inn s.up).x) (hfl : s.top.x ≠ (t.inn s.up).x) :
    u.top.y = y ∧ (u.top = s.top ∨ ∃ g ∈ fl, u.top = g.out s.up) ∧ ∃ g ∈ fl, u.top = g.frm ∨ u.top = g.seg.target := by
  have hso : s.out s.up = s.top := Side.out_top
  obtain ⟨g, hg, hc⟩ := hw.cover A.linked hs (u.x y) (by rw [hso]; exact h1) (by rw [hso]; exact h2) (by rw [hso]; exact hfl)
  obtain ⟨m1, m2, m3⟩ := hw.mem.2.2 g hg
  have hgy : g.frm.y = y := by rw [(hw.height A.linked hs).2 g hg, hso, hsy]
  have hgy2 : g.seg.target.y = y := by rw [← hgy]; exact (m3 : g.frm.y = _).symm
  have htop : u.top = g.frm ∨ u.top = g.seg.target := by
    rcases A.touch g m1 m3 u hu hub.steep (by rw [hgy]; exact hub.1.le) (by rw [hgy]; exact hub.2) (by rw [hgy]; exact hc) with h | h | h | h
    · exact absurd (by rw [h, hgy]) hub.1.ne
    · exact absurd (by rw [h, hgy2]) hub.1.ne
    · exact Or.inl h
    · exact Or.inr h
  have hty : u.top.y = y := by rcases htop with h | h <;> rw [h] <;> assumption
  refine ⟨hty, ?_, g, hg, htop⟩
  rcases g.ends_cases s.up htop with h | h
  · rcases (hw.near A.linked hs).1 g hg with h3 | h3
    · rw [hso] at h3; exact Or.inl (h.trans h3)
    · obtain ⟨g', hg', h4⟩ := List.mem_map.1 h3
      exact Or.inr ⟨g', hg', by rw [h, h4]⟩
  · exact Or.inr ⟨g, hg, h⟩

/-- Two walks with successors do not overlap. -/
theorem Arranged.walks_disjoint (A : Arranged rings) {s t s' t' : Side K} {fl fl' : List (Side K)} (hs : s ∈ sides rings) (hs' : s' ∈ sides rings)
    (hst : ¬ s.Flat) (hst' : ¬ s'.Flat) (ht : ¬ t.Flat) (ht' : ¬ t'.Flat) (hw : FWalk rings s.up s fl t) (hw' : FWalk rings s'.up s' fl' t')
    (hu : t.up = s.up) (hu' : t'.up = s'.up) (hy : s.top.y = s'.top.y) (hne : s ≠ s') {X : K}
    (h1 : min s.top.x (t.inn s.up).x ≤ X) (h2 : X < max s.top.x (t.inn s.up).x)
    (h3 : min s'.top.x (t'.inn s'.up).x ≤ X) (h4 : X < max s'.top.x (t'.inn s'.up).x) : False := by
  have hso : s.out s.up = s.top := Side.out_top
  have hso' : s'.out s'.up = s'.top := Side.out_top
  obtain ⟨g, hg, c⟩ := hw.cover_lt A.linked hs X (by rw [hso]; exact h1) (by rw [hso]; exact h2)
  obtain ⟨g', hg', c'⟩ := hw'.cover_lt A.linked hs' X (by rw [hso']; exact h3) (by rw [hso']; exact h4)
  obtain ⟨m1, _, m3⟩ := hw.mem.2.2 g hg
  obtain ⟨m1', _, m3'⟩ := hw'.mem.2.2 g' hg'
  have hgg : g = g' := A.flat_disjoint m1 m1' m3 m3' (hw.through hs hst ht hu hg) (hw'.through hs' hst' ht' hu' hg') (by
    rw [(hw.height A.linked hs).2 g hg, (hw'.height A.linked hs').2 g' hg', hso, hso', hy]) c c'
  subst hgg
  obtain ⟨l1, l2, _, w1, w2⟩ := hw.suffix hg
  obtain ⟨l1', l2', _, w1', w2'⟩ := hw'.suffix hg'
  by_cases hq : s.up = s'.up
  · rw [← hq] at w1'
    exact hne ((w1.rev hs).unique (w1'.rev hs') hst hst').2
  · have hq' : s'.up = !s.up := by revert hq; cases s.up <;> cases s'.up <;> decide
    have r1 := w1'.rev hs'
    rw [hq', Bool.not_not] at r1
    have := (w2.unique r1 ht hst').2
    rw [this] at hu
    exact hq hu.symm

omit [FTrans K] [LinearOrder K] [Absc K] [LawfulOrd K] in
theorem vec_ext {p q : Vec2 K} (hx : p.x = q.x) (hy : p.y = q.y) : p = q := by
  cases p; cases q; simp_all

theorem Beam.order (A : Arranged rings) {fr : FillRule} {y y' : K} {ael : List (Edge K)} (b : Beam rings fr y ael)
    (hbel : ∀ e ∈ ael, (sideOf rings e).Below y') {ch : List K}
    (hxle : ael.Pairwise (fun e f => (sideOf rings e).x y' ≤ (sideOf rings f).x y'))
    (hmark : ael.Pairwise (fun e f => (sideOf rings e).x y' = (sideOf rings f).x y' → (sideOf rings e).x y' ∈ ch))
    (hext : ∀ e ∈ ael, ∀ x ∈ topX rings y' e, x ∈ ch)
    (hdiff : (ael.filterMap (topE rings y')).Pairwise (DiffE rings)) :
    ∀ i j, [i, j].Sublist (ael.filterMap (topE rings y')) →
      (i.currX ∈ ch → ∃ h, [h, i].Sublist (ael.filterMap (topE rings y')) ∧ i.currX < h.currX) →
      i.currX < j.currX ∨ Twin (sideOf rings i) (sideOf rings j) := by
  intro i' j' hij hi'
  by_contra hle
  rw [not_or, not_lt] at hle
  obtain ⟨hle, hntw⟩ := hle
  obtain ⟨i, j, sij, ti, tj⟩ := sublist_filterMap_pair _ _ hij
  have mi : i ∈ ael := sij.subset (by simp)
  have mj : j ∈ ael := sij.subset (by simp)
  obtain ⟨fi, ri⟩ := topE_spec A (b.good i mi) (hbel i mi) ti
  obtain ⟨fj, rj⟩ := topE_spec A (b.good j mj) (hbel j mj) tj
  have pair : ∀ {R : Edge K → Edge K → Prop} {a c : Edge K}, ael.Pairwise R → [a, c].Sublist ael → R a c := by
    intro R a c h1 h2
    exact List.rel_of_pairwise_cons (h1.sublist h2) (by simp)
  have aij := pair hxle sij
  have nij := pair b.diff sij
  have hdij : DiffE rings i' j' := List.rel_of_pairwise_cons (hdiff.sublist hij) (by simp)
  -- facts about an edge that walks
  have tops : ∀ {e e' : Edge K} {fl : List (Side K)}, e ∈ ael → TopRel rings y' e e' fl → fl ≠ [] →
      (sideOf rings e).top.y = y' ∧ FWalk rings (sideOf rings e).up (sideOf rings e) fl (sideOf rings e') ∧
      (sideOf rings e').up = (sideOf rings e).up ∧ (sideOf rings e).x y' = (sideOf rings e).top.x ∧
      e'.currX = ((sideOf rings e').inn (sideOf rings e).up).x ∧ (sideOf rings e').inn (sideOf rings e).up = (sideOf rings e').bot := by
    intro e e' fl he r hfl
    have fe := (b.good e he).ok.facts A.linked
    rcases r.walk with h | ⟨h1, h2, h3, h4⟩
    · exact (hfl h.1).elim
    · have hi : (sideOf rings e').inn (sideOf rings e).up = (sideOf rings e').bot := by rw [← h3, Side.inn_bot]
      refine ⟨by rw [fe.2.2.2.2.1]; exact h1, h2, h3, ?_, ?_, hi⟩
      · rw [fe.2.2.2.2.1]; exact (b.good e he).ok.x_end A (hbel e he) h1
      · rw [hi, r.good.x, ← h4, Side.x_bot]
  -- an edge that does not walk but ends
  have stay : ∀ {e e' : Edge K}, e ∈ ael → TopRel rings y' e e' [] → (sideOf rings e).top.y = y' → (sideOf rings e').bot = (sideOf rings e).top := by
    intro e e' he r hty
    have fe := (b.good e he).ok.facts A.linked
    rcases r.walk with ⟨_, _, h1⟩ | ⟨h1, h2, h3, h4⟩
    · rw [← fe.2.2.2.2.1, hty] at h1; exact (lt_irrefl _ h1).elim
    · rcases (h2.near A.linked ((b.good e he).mem A)).2 with ⟨_, h5⟩ | h5
      · rw [← h3, Side.inn_bot, h3, Side.out_top] at h5; exact h5
      · cases h5
  -- an edge arriving on a walk
  have F1 : ∀ {e e' f : Edge K} {fl : List (Side K)}, e ∈ ael → f ∈ ael → TopRel rings y' e e' fl → fl ≠ [] →
      min ((sideOf rings e).x y') e'.currX ≤ (sideOf rings f).x y' → (sideOf rings f).x y' ≤ max ((sideOf rings e).x y') e'.currX →
      (sideOf rings f).top.y = y' ∧ ((sideOf rings f).top = (sideOf rings e).top ∨ ∃ g ∈ fl, (sideOf rings f).top = g.out (sideOf rings e).up) ∧
        ∃ g ∈ fl, (sideOf rings f).top = g.frm ∨ (sideOf rings f).top = g.seg.target := by
    intro e e' f fl he hf r hfl h1 h2
    obtain ⟨q1, q2, q3, q4, q5, q6⟩ := tops he r hfl
    rw [q4, q5] at h1 h2
    refine A.on_walk ((b.good e he).mem A) (b.good e he).above.steep q1 q2 ((b.good f hf).mem A) (hbel f hf) h1 h2 ?_
    rw [← q4, ← q5]; exact (r.x1 hfl).2.symm
  have F1x : ∀ {e e' f : Edge K} {fl : List (Side K)}, e ∈ ael → f ∈ ael → TopRel rings y' e e' fl → fl ≠ [] →
      min ((sideOf rings e).x y') e'.currX ≤ (sideOf rings f).x y' → (sideOf rings f).x y' ≤ max ((sideOf rings e).x y') e'.currX →
      (sideOf rings f).x y' ∈ ch ∨ (sideOf rings f).x y' = (sideOf rings e).x y' := by
    intro e e' f fl he hf r hfl h1 h2
    obtain ⟨g2, g1, _⟩ := F1 he hf r hfl h1 h2
    have hx : (sideOf rings f).x y' = (sideOf rings f).top.x := by
      rw [← g2]; exact Side.x_top (Side.ht (hbel f hf).steep)
    rcases g1 with g1 | ⟨g, hg, g1⟩
    · right
      obtain ⟨_, _, _, q4, _⟩ := tops he r hfl
      rw [hx, g1, q4]
    · left
      apply hext e he
      rw [r.xs, hx, g1]
      exact List.mem_map.2 ⟨g, hg, rfl⟩
  have F2 : ∀ {e e' f f' : Edge K} {fl fl' : List (Side K)} (X : K), e ∈ ael → f ∈ ael → DiffE rings e f → TopRel rings y' e e' fl → fl ≠ [] →
      TopRel rings y' f f' fl' → fl' ≠ [] →
      min ((sideOf rings e).x y') e'.currX ≤ X → X < max ((sideOf rings e).x y') e'.currX →
      min ((sideOf rings f).x y') f'.currX ≤ X → X < max ((sideOf rings f).x y') f'.currX → False := by
    intro e e' f f' fl fl' X he hf hd r hfl r' hfl' h1 h2 h3 h4
    obtain ⟨q1, q2, q3, q4, q5, q6⟩ := tops he r hfl
    obtain ⟨p1, p2, p3, p4, p5, p6⟩ := tops hf r' hfl'
    rw [q4, q5] at h1 h2
    rw [p4, p5] at h3 h4
    exact A.walks_disjoint ((b.good e he).mem A) ((b.good f hf).mem A) (b.good e he).above.steep (b.good f hf).above.steep
      r.good.above.steep r'.good.above.steep q2 p2 q3 p3 (by rw [q1, p1]) hd h1 h2 h3 h4
  have F3 : ∀ {e e' f f' : Edge K} {fl : List (Side K)}, e ∈ ael → TopRel rings y' e e' fl → fl ≠ [] → Good rings y' f' →
      DiffE rings e' f' → e'.currX = f'.currX → Twin (sideOf rings e') (sideOf rings f') := by
    intro e e' f f' fl he r hfl gf hd hc
    obtain ⟨q1, q2, q3, q4, q5, q6⟩ := tops he r hfl
    have hn := (q2.near A.linked ((b.good e he).mem A)).2
    rcases hn with h | h
    · exact (hfl h.1).elim
    · obtain ⟨g, hg, hgo⟩ := List.mem_map.1 h
      obtain ⟨m1, _, m3⟩ := q2.mem.2.2 g hg
      rw [q6] at hgo q5
      have hgy : g.frm.y = y' := by rw [(q2.height A.linked ((b.good e he).mem A)).2 g hg, Side.out_top, q1]
      have hgy2 : g.seg.target.y = y' := by rw [← hgy]; exact (m3 : g.frm.y = _).symm
      have hcov : g.Covers f'.currX := by
        rw [← hc, q5, g.covers_ends (sideOf rings e).up, ← hgo]
        exact ⟨min_le_right _ _, le_max_right _ _⟩
      have hbf : (sideOf rings f').bot = g.frm ∨ (sideOf rings f').bot = g.seg.target := by
        rcases A.touch g m1 m3 _ (gf.mem A) gf.above.steep (by rw [hgy]; exact gf.above.1) (by rw [hgy]; exact gf.above.2.le)
          (by rw [hgy, ← gf.x]; exact hcov) with h | h | h | h
        · exact Or.inl h
        · exact Or.inr h
        · exact absurd (by rw [h, hgy]) gf.above.2.ne'
        · exact absurd (by rw [h, hgy2]) gf.above.2.ne'
      have hby : (sideOf rings f').bot.y = y' := by rcases hbf with h | h <;> rw [h] <;> assumption
      have hby' : (sideOf rings e').bot.y = y' := by
        rcases (g.ends_of (sideOf rings e).up).2 with h | h <;> rw [hgo] at h <;> rw [h] <;> assumption
      have hfx : f'.currX = (sideOf rings f').bot.x := by rw [gf.x, ← hby, Side.x_bot]
      have hpe : (sideOf rings e').bot = (sideOf rings f').bot := by
        have e1 : (sideOf rings e').bot.x = (sideOf rings f').bot.x := by rw [← hfx, ← hc, q5]
        have e2 : (sideOf rings e').bot.y = (sideOf rings f').bot.y := by rw [hby, hby']
        revert e1 e2
        generalize (sideOf rings e').bot = p1
        generalize (sideOf rings f').bot = p2
        intro e1 e2
        cases p1; cases p2; simp_all
      exact A.corner g m1 m3 (q2.through ((b.good e he).mem A) (b.good e he).above.steep r.good.above.steep q3 hg) _ hbf _ (r.good.mem A) _ (gf.mem A)
        r.good.above.steep gf.above.steep hpe rfl hd
  -- the edge that made `i` be left in the list
  have H : i'.currX ∈ ch → ∃ h h' fh, h ∈ ael ∧ (sideOf rings h).x y' ≤ (sideOf rings i).x y' ∧ DiffE rings h i ∧ DiffE rings h j ∧
      TopRel rings y' h h' fh ∧ i'.currX < h'.currX := by
    intro hx
    obtain ⟨h', hs, hlt⟩ := hi' hx
    obtain ⟨h, i2, shi, th, ti2⟩ := sublist_filterMap_pair _ _ hs
    have mh : h ∈ ael := shi.subset (by simp)
    have mi2 : i2 ∈ ael := shi.subset (by simp)
    have hii : i2 = i := by
      obtain ⟨_, r2⟩ := topE_spec A (b.good i2 mi2) (hbel i2 mi2) ti2
      exact List.inj_on_of_nodup_map b.ids mi2 mi (by rw [← r2.eid, ← ri.eid])
    subst hii
    obtain ⟨fh, rh⟩ := topE_spec A (b.good h mh) (hbel h mh) th
    refine ⟨h, h', fh, mh, pair hxle shi, pair b.diff shi, ?_, rh, hlt⟩
    -- `h` is not `j`
    intro hc
    have hsub : [h, j].Sublist ael ∨ [j, h].Sublist ael ∨ h = j := by
      by_cases e : h = j
      · exact Or.inr (Or.inr e)
      · have hnd : ael.Nodup := List.Nodup.of_map _ b.ids
        obtain ⟨p1, p2, hp⟩ := List.append_of_mem mh
        rw [hp] at mj ⊢
        rcases List.mem_append.1 mj with m | m
        · right; left
          exact List.Sublist.append (List.singleton_sublist.2 m) (List.singleton_sublist.2 (by simp))
        · rcases List.mem_cons.1 m with m | m
          · exact (e m.symm).elim
          · left
            exact (List.Sublist.cons_cons h (List.singleton_sublist.2 m)).trans (List.sublist_append_right _ _)
    rcases hsub with h1 | h1 | rfl
    · exact pair b.diff h1 hc
    · exact pair b.diff h1 hc.symm
    · -- both before and after `i`
      have hnd : ael.Nodup := List.Nodup.of_map _ b.ids
      obtain ⟨p1, p2, hp⟩ := List.append_of_mem mi
      rw [hp] at hnd shi sij
      have d := List.nodup_append.1 hnd
      obtain ⟨d1, d2, d3⟩ := d
      have k1 : h ∈ p1 := by
        have : [h] ++ [i2] = [h, i2] := rfl
        by_contra hk
        have hh : h ∈ i2 :: p2 := by
          have := shi.subset (show h ∈ [h, i2] by simp)
          rcases List.mem_append.1 this with q | q
          · exact (hk q).elim
          · exact q
        rcases List.mem_cons.1 hh with q | q
        · exact (pair b.diff (hp ▸ shi)) (by rw [q])
        · -- `i2` would have to come after `h` in `p2`
          have := (shi.filter (fun x => decide (x ∉ p1)))
          have hi2 : i2 ∉ p1 := fun q' => d3 i2 q' i2 (by simp) rfl
          have e1 : (p1 ++ i2 :: p2).filter (fun x => decide (x ∉ p1)) = i2 :: p2 := by
            rw [List.filter_append, List.filter_eq_nil_iff.2 (by simp), List.nil_append, List.filter_eq_self]
            intro x hx
            exact decide_eq_true (fun q' => d3 x q' x hx rfl)
          rw [e1] at this
          simp only [List.filter_cons, hk, hi2, not_false_eq_true, decide_true, if_true, List.filter_nil] at this
          cases this with
          | cons _ h3 => exact (List.nodup_cons.1 d2).1 (h3.subset (by simp))
          | cons_cons _ h3 => exact (List.nodup_cons.1 d2).1 q
      have k2 : h ∈ p2 := by
        have hi2 : i2 ∉ p1 := fun q' => d3 i2 q' i2 (by simp) rfl
        have hh2 : h ∉ i2 :: p2 → False := by
          intro hn
          have hd4 : h ≠ i2 := fun q => hn (by simp [q])
          -- `[i2, h]` is a sublist; `h` must occur after `i2`
          have : [i2, h].Sublist (i2 :: p2) := by
            have h5 := sij.filter (fun x => decide (x ∉ p1 ∨ x = h))
            have e2 : h ∉ p2 := fun q => hn (by simp [q])
            have : ([i2, h].Sublist (p1 ++ i2 :: p2)) → h ∈ p2 := by
              intro hs
              clear h5
              have gen : ∀ (p1 : List (Edge K)), i2 ∉ p1 → [i2, h].Sublist (p1 ++ i2 :: p2) → h ∈ p2 := by
                intro p1
                induction p1 with
                | nil =>
                  intro _ hs
                  cases hs with
                  | cons _ h3 => exact h3.subset (by simp)
                  | cons_cons _ h3 => exact List.singleton_sublist.1 h3
                | cons x p1 ih =>
                  intro hx hs
                  rw [List.cons_append] at hs
                  cases hs with
                  | cons _ h3 => exact ih (fun q => hx (by simp [q])) h3
                  | cons_cons _ h3 => exact (hx (by simp)).elim
              exact gen p1 hi2 hs
            exact (e2 (this sij)).elim
          exact hn (this.subset (by simp))
        by_contra hk
        exact hh2 (fun q => by
          rcases List.mem_cons.1 q with q | q
          · exact (pair b.diff (hp ▸ sij)) (by rw [q])
          · exact hk q)
      exact d3 h k1 h (by simp [k2]) rfl
  by_cases Di : fi = [] <;> by_cases Dj : fj = []
  · -- neither walks
    have ci := ri.x0 Di
    have cj := rj.x0 Dj
    rw [ci, cj] at hle
    have heq : (sideOf rings i).x y' = (sideOf rings j).x y' := le_antisymm aij hle
    obtain ⟨h, h', fh, mh, ah, nhi, nhj, rh, hlt⟩ := H (by rw [ci]; exact pair hmark sij heq)
    rw [ci] at hlt
    have Dh : fh ≠ [] := fun hc => by rw [rh.x0 hc] at hlt; exact not_lt.2 ah hlt
    obtain ⟨g2, _, g, hg, g1⟩ := F1 mh mi rh Dh ((min_le_left _ _).trans ah) (hlt.le.trans (le_max_right _ _))
    obtain ⟨g2', _⟩ := F1 mh mj rh Dh ((min_le_left _ _).trans (ah.trans heq.le)) (heq ▸ hlt.le.trans (le_max_right _ _))
    obtain ⟨q1, q2, q3, q4, q5, q6⟩ := tops mh rh Dh
    obtain ⟨m1, _, m3⟩ := q2.mem.2.2 g hg
    have hxi : (sideOf rings i).x y' = (sideOf rings i).top.x := by rw [← g2]; exact Side.x_top (Side.ht (hbel i mi).steep)
    have hxj : (sideOf rings j).x y' = (sideOf rings j).top.x := by rw [← g2']; exact Side.x_top (Side.ht (hbel j mj).steep)
    have hpe : (sideOf rings i).top = (sideOf rings j).top := vec_ext (by rw [← hxi, ← hxj, heq]) (by rw [g2, g2'])
    subst Di Dj
    refine hntw (A.corner g m1 m3 (q2.through ((b.good h mh).mem A) (b.good h mh).above.steep rh.good.above.steep q3 hg) _ g1 _ (ri.good.mem A) _ (rj.good.mem A)
      ri.good.above.steep rj.good.above.steep (stay mi ri g2) ?_ hdij)
    rw [stay mj rj g2', hpe]
  · -- `j` walks
    have ci := ri.x0 Di
    rw [ci] at hle
    have hxj' : j'.currX < (sideOf rings j).x y' := lt_of_le_of_ne (hle.trans aij) (rj.x1 Dj).2
    have hmk : (sideOf rings i).x y' ∈ ch := by
      rcases F1x mj mi rj Dj ((min_le_right _ _).trans hle) (aij.trans (le_max_left _ _)) with h | h
      · exact h
      · exact pair hmark sij h
    obtain ⟨h, h', fh, mh, ah, nhi, nhj, rh, hlt⟩ := H (by rw [ci]; exact hmk)
    rw [ci] at hlt
    have Dh : fh ≠ [] := fun hc => by rw [rh.x0 hc] at hlt; exact not_lt.2 ah hlt
    rcases lt_or_eq_of_le (ah.trans aij) with hq | hq
    · refine F2 (max ((sideOf rings h).x y') j'.currX) mh mj nhj rh Dh rj Dj ((min_le_left _ _).trans (le_max_left _ _)) ?_
        ((min_le_right _ _).trans (le_max_right _ _)) ((max_lt hq hxj').trans_le (le_max_left _ _))
      exact (max_lt (ah.trans_lt hlt) (hle.trans_lt hlt)).trans_le (le_max_right _ _)
    · obtain ⟨q1, q2, q3, q4, q5, q6⟩ := tops mh rh Dh
      obtain ⟨p1, p2, p3, p4, p5, p6⟩ := tops mj rj Dj
      exact A.start _ ((b.good h mh).mem A) _ ((b.good j mj).mem A) (b.good h mh).above.steep (b.good j mj).above.steep nhj
        (vec_ext (by rw [← q4, ← p4, hq]) (by rw [q1, p1]))
        (q2.goesOn ((b.good h mh).mem A) (b.good h mh).above.steep rh.good.above.steep q3 Dh)
        (p2.goesOn ((b.good j mj).mem A) (b.good j mj).above.steep rj.good.above.steep p3 Dj)
  · -- `i` walks
    have cj := rj.x0 Dj
    rw [cj] at hle
    obtain ⟨k1, k2⟩ := ri.x1 Di
    have hgt : (sideOf rings i).x y' < i'.currX := lt_of_le_of_ne (aij.trans hle) k2.symm
    obtain ⟨h, h', fh, mh, ah, nhi, nhj, rh, hlt⟩ := H (hext i mi _ k1)
    have Dh : fh ≠ [] := fun hc => by rw [rh.x0 hc] at hlt; exact not_lt.2 (ah.trans hgt.le) hlt
    exact F2 ((sideOf rings i).x y') mh mi nhi rh Dh ri Di ((min_le_left _ _).trans ah) ((hgt.trans hlt).trans_le (le_max_right _ _))
      (min_le_left _ _) (hgt.trans_le (le_max_right _ _))
  · -- both walk
    obtain ⟨k1, k2⟩ := ri.x1 Di
    have hgt : j'.currX < i'.currX := lt_of_le_of_ne hle (fun hc => hntw (F3 (f := j) mi ri Di rj.good hdij hc.symm))
    obtain ⟨h, h', fh, mh, ah, nhi, nhj, rh, hlt⟩ := H (hext i mi _ k1)
    rcases lt_or_gt_of_ne k2 with hq | hq
    · -- `i` to the left, and `j` even further
      exact F2 i'.currX mi mj nij ri Di rj Dj (min_le_right _ _) (hq.trans_le (le_max_left _ _))
        ((min_le_right _ _).trans hgt.le) ((hq.trans_le aij).trans_le (le_max_left _ _))
    · have Dh : fh ≠ [] := fun hc => by rw [rh.x0 hc] at hlt; exact not_lt.2 (ah.trans hq.le) hlt
      exact F2 ((sideOf rings i).x y') mh mi nhi rh Dh ri Di ((min_le_left _ _).trans ah) ((hq.trans hlt).trans_le (le_max_right _ _))
        (min_le_left _ _) (hq.trans_le (le_max_right _ _))

/-- A horizontal side at the top of the beam belongs to a local minimum or is walked over. -/
theorem Beam.flat_walked (A : Arranged rings) {fr : FillRule} {y y' : K} {ael : List (Edge K)} (b : Beam rings fr y ael)
    (hgap : ∀ s ∈ sides rings, s.Above y ↔ s.Below y') {ms : List (LocMin K)} (hms2 : ∀ m ∈ locMins rings, m.pt.y = y' → m ∈ ms)
    {f : Side K} (hf : f ∈ sides rings) (hfl : f.Flat) (hfy : f.frm.y = y') :
    (∃ m ∈ ms, m.pt.y = y' ∧ MinRun rings m f) ∨
    ∃ e ∈ ael, e.top.y = y' ∧ ∃ fl t, FWalk rings (sideOf rings e).up (sideOf rings e) fl t ∧ ¬ t.Flat ∧ f ∈ fl ∧
      topX rings y' e = fl.map (fun g => (g.out (sideOf rings e).up).x) := by
  obtain ⟨z, hz, hzr, hzs⟩ := A.turn f hf hfl
  obtain ⟨fl1, s0, w1, n1, _⟩ := FWalk.exists false hf hz hzr hzs
  obtain ⟨fl2, t0, w2, n2, _⟩ := FWalk.exists true hf hz hzr hzs
  have hs0 := w1.mem.1
  have ht0 := w2.mem.1
  have w1' : FWalk rings true s0 fl1.reverse f := w1.rev hf
  have w : FWalk rings true s0 (fl1.reverse ++ f :: fl2) t0 := w1'.append hfl w2
  have wr : FWalk rings false t0 (fl1.reverse ++ f :: fl2).reverse s0 := w.rev hs0
  have hh := (w.height A.linked hs0)
  have hsy : (s0.out true).y = y' := by rw [← hh.2 f (by simp), hfy]
  have hty : (t0.inn true).y = y' := by rw [hh.1, hsy]
  -- the walker
  have walker : ∀ (wk t : Side K) (fl : List (Side K)), wk ∈ sides rings → ¬ wk.Flat → ¬ t.Flat → FWalk rings wk.up wk fl t → f ∈ fl → wk.top.y = y' →
      (wk.up = true ∨ t.up = wk.up) →
      ∃ e ∈ ael, e.top.y = y' ∧ ∃ fl t, FWalk rings (sideOf rings e).up (sideOf rings e) fl t ∧ ¬ t.Flat ∧ f ∈ fl ∧
        topX rings y' e = fl.map (fun g => (g.out (sideOf rings e).up).x) := by
    intro wk t fl hwk hst hstt hw hmem htop hor
    obtain ⟨e, he, hse⟩ := b.complete wk hwk ((hgap wk hwk).2 ⟨by rw [← htop]; exact Side.ht hst, htop.ge⟩)
    have fe := (b.good e he).ok.facts A.linked
    have hte : e.top.y = y' := by rw [← fe.2.2.2.2.1, hse]; exact htop
    refine ⟨e, he, hte, fl, t, by rw [hse]; exact hw, hstt, hmem, ?_⟩
    obtain ⟨fl', t', hw', ht', hcase⟩ := (b.good e he).ok.next A
    rw [← fe.2.2.1] at hw' hcase
    rw [hse] at hw' hcase ⊢
    obtain ⟨e1, e2⟩ := hw.unique hw' hstt ht'
    subst e1 e2
    rw [topX, if_pos hte]
    rcases hcase with ⟨c1, c2, _⟩ | ⟨_, _, e1, e', _, _, c2, _⟩
    · rw [c2]
      have hup : wk.up = true := by
        rcases hor with h | h
        · exact h
        · rw [h] at c1; cases hq : wk.up <;> rw [hq] at c1 <;> cases c1
      rw [if_pos hup]
    · rw [c2]
  by_cases hsu : s0.up = true
  · right
    refine walker s0 t0 _ hs0 n1 n2 (by rw [hsu]; exact w) (by simp) ?_ (Or.inl hsu)
    rw [← Side.out_top, hsu]; exact hsy
  · rw [Bool.not_eq_true] at hsu
    by_cases htu : t0.up = true
    · left
      obtain ⟨x, v, hx, hv, hpt, _, _⟩ := side_node ht0
      have hfol : Follows rings s0 t0 := (follows_iff hs0 ht0).2 ⟨n1, n2, _, w⟩
      have hlm : v.lmin = true := ((A.flags t0 ht0 v hv).1).2 ⟨htu, s0, hs0, hfol, hsu⟩
      have hm : (⟨v.pt, t0.ring, t0.idx, x.ptype⟩ : LocMin K) ∈ locMins rings := (locMins_spec rings _).2 ⟨v, x, hv, hx, hlm, rfl, rfl⟩
      have hmy : v.pt.y = y' := by rw [← hpt]; exact hty
      exact ⟨_, hms2 _ hm hmy, hmy, s0, t0, _, ht0, rfl, rfl, wr, n1, n2, by simp⟩
    · right
      rw [Bool.not_eq_true] at htu
      refine walker t0 s0 _ ht0 n2 n1 (by rw [htu]; exact wr) (by simp) ?_ (Or.inr (by rw [hsu, htu]))
      rw [← Side.out_top, htu]; exact hty

theorem Beam.top (A : Arranged rings) {fr : FillRule} {y y' : K} {ael : List (Edge K)} (b : Beam rings fr y ael) (hy : y < y')
    (hgap : ∀ s ∈ sides rings, s.Above y ↔ s.Below y') (ms : List (LocMin K)) (hms : ∀ m ∈ ms, m ∈ locMins rings ∧ y' ≤ m.pt.y)
    (hms2 : ∀ m ∈ locMins rings, m.pt.y = y' → m ∈ ms) (last : K) (ch : List K) :
    Core rings fr y' (ael.filterMap (topE rings y')) (topCh last (ael.map (fun e => ((sideOf rings e).x y', topX rings y' e))) ch) ms ∧
      ∀ i j, [i, j].Sublist (ael.filterMap (topE rings y')) →
        (i.currX ∈ topCh last (ael.map (fun e => ((sideOf rings e).x y', topX rings y' e))) ch →
          ∃ h, [h, i].Sublist (ael.filterMap (topE rings y')) ∧ i.currX < h.currX) →
        i.currX < j.currX ∨ Twin (sideOf rings i) (sideOf rings j) := by
  have hbel : ∀ e ∈ ael, (sideOf rings e).Below y' := fun e he => (hgap _ ((b.good e he).mem A)).1 (b.good e he).above
  have hspec : ∀ e ∈ ael, ∀ e', topE rings y' e = some e' → ∃ fl, TopRel rings y' e e' fl := fun e he e' h => topE_spec A (b.good e he) (hbel e he) h
  have hxle : ael.Pairwise (fun e f => (sideOf rings e).x y' ≤ (sideOf rings f).x y') := by
    refine b.sorted.imp_of_mem ?_
    intro e f he hf h
    exact h.below (hbel e he) (hbel f hf)
  have hmark : ael.Pairwise (fun e f => (sideOf rings e).x y' = (sideOf rings f).x y' →
      (sideOf rings e).x y' ∈ topCh last (ael.map (fun e => ((sideOf rings e).x y', topX rings y' e))) ch) := by
    have key : ∀ xs : List (K × List K), (xs.map Prod.fst).Pairwise (· ≤ ·) → (xs.map Prod.fst).Pairwise (fun a b => a = b → a ∈ topCh last xs ch) := by
      intro xs hxs
      cases xs with
      | nil => exact List.Pairwise.nil
      | cons x xs => exact topCh_marks x.1 xs _ hxs
    have := key (ael.map (fun e => ((sideOf rings e).x y', topX rings y' e))) (by rw [List.map_map]; exact List.pairwise_map.2 hxle)
    rw [List.map_map] at this
    exact List.pairwise_map.1 this
  have hext : ∀ e ∈ ael, ∀ x ∈ topX rings y' e, x ∈ topCh last (ael.map (fun e => ((sideOf rings e).x y', topX rings y' e))) ch := by
    intro e he x hx
    exact topCh_extra _ _ _ ((sideOf rings e).x y', topX rings y' e) (List.mem_map.2 ⟨e, he, rfl⟩) x hx
  generalize hch : topCh last (ael.map (fun e => ((sideOf rings e).x y', topX rings y' e))) ch = ch' at hmark hext
  have htopy : ∀ e ∈ ael, (sideOf rings e).top = e.top := fun e he => ((b.good e he).ok.facts A.linked).2.2.2.2.1
  have hdiff : (ael.filterMap (topE rings y')).Pairwise (DiffE rings) := by
    rw [List.pairwise_filterMap]
    refine b.diff.imp_of_mem ?_
    intro e f he hf hd e' ht f' ht' hc
    obtain ⟨fl, c⟩ := hspec e he e' ht
    obtain ⟨fl', d⟩ := hspec f hf f' ht'
    have ge := b.good e he
    have gf := b.good f hf
    rcases c.walk with ⟨_, c1, _⟩ | ⟨_, c2, c3, c4⟩ <;> rcases d.walk with ⟨_, d1, _⟩ | ⟨_, d2, d3, d4⟩
    · exact hd (by rw [← c1, ← d1, hc])
    · rw [← hc, c1] at d4
      exact (hbel e he).1.ne d4
    · rw [hc, d1] at c4
      exact (hbel f hf).1.ne c4
    · have hu : (sideOf rings f).up = (sideOf rings e).up := by rw [← c3, ← d3, hc]
      rw [hu, ← hc] at d2
      exact hd ((c2.rev (ge.mem A)).unique (d2.rev (gf.mem A)) ge.above.steep gf.above.steep).2
  refine ⟨⟨?_, hdiff, ?_, ?_, ?_, ?_, ?_, ?_⟩, b.order A hbel hxle hmark hext hdiff⟩
  · intro e' he'
    obtain ⟨e, he, ht⟩ := List.mem_filterMap.1 he'
    obtain ⟨_, c⟩ := hspec e he e' ht
    exact c.good
  · rw [List.pairwise_filterMap]
    refine hmark.imp_of_mem ?_
    intro e f he hf hd e' ht f' ht' hc
    obtain ⟨fl, c⟩ := hspec e he e' ht
    obtain ⟨fl', d⟩ := hspec f hf f' ht'
    by_cases h1 : fl = []
    · by_cases h2 : fl' = []
      · rw [c.x0 h1] at hc ⊢
        rw [d.x0 h2] at hc
        exact hd hc
      · rw [hc]; exact hext f hf _ (d.x1 h2).1
    · exact hext e he _ (c.x1 h1).1
  · intro e' he' hx
    obtain ⟨e, he, ht⟩ := List.mem_filterMap.1 he'
    obtain ⟨fl, c⟩ := hspec e he e' ht
    have h0 : fl = [] := by
      by_contra h1
      exact hx (hext e he _ (c.x1 h1).1)
    have c2 := c.x0 h0
    rw [c2] at hx ⊢
    refine countsW_congr c.dx c.ptype c.cnt c.cnt2 ?_
    obtain ⟨pre, post, hl⟩ := List.append_of_mem he
    have hc := (countsOk_iff fr pre e).1 (b.counts pre e post hl)
    have hw : ∀ t, wn t pre = wnS t ((sides rings).filter (fun s => decide (s.Below y' ∧ s.x y' < (sideOf rings e).x y'))) := by
      intro t
      have hpre : ∀ u ∈ pre, u ∈ ael := fun u hu => by rw [hl]; simp [hu]
      rw [wn_sides A.linked t pre (fun u hu => (b.good u (hpre u hu)).ok)]
      apply wnS_perm
      have f1 := (perm_above A b.good b.diff b.complete).filter (fun s => decide (s.x y' < (sideOf rings e).x y'))
      have f2 : (ael.map (sideOf rings)).filter (fun s => decide (s.x y' < (sideOf rings e).x y')) = pre.map (sideOf rings) := by
        refine filter_split (fun s => s.x y') _ (ael.map (sideOf rings)) (pre.map (sideOf rings)) (post.map (sideOf rings)) (sideOf rings e) (by rw [hl]; simp) rfl ?_ ?_
        · intro s hs
          obtain ⟨u, hu, rfl⟩ := List.mem_map.1 hs
          rw [hl] at hxle hmark
          have g1 := (List.pairwise_append.1 hxle).2.2 u hu e (by simp)
          have g2 := (List.pairwise_append.1 hmark).2.2 u hu e (by simp)
          refine lt_of_le_of_ne g1 (fun hc => hx ?_)
          rw [← hc]; exact g2 hc
        · intro s hs
          obtain ⟨u, hu, rfl⟩ := List.mem_map.1 hs
          rw [hl] at hxle
          exact List.rel_of_pairwise_cons (List.pairwise_append.1 hxle).2.1 hu
      rw [f2, List.filter_filter] at f1
      refine f1.trans (List.Perm.of_eq (List.filter_congr ?_))
      intro s hs
      rw [Bool.decide_and, Bool.and_comm]
      congr 1
      rw [decide_eq_decide]
      exact hgap s hs
    simpa only [hw] using hc
  · intro s hs ha
    rcases lt_or_eq_of_le ha.1 with hlt | heq
    · left
      obtain ⟨e, he, h1⟩ := b.complete s hs ((hgap s hs).2 ⟨hlt, ha.2.le⟩)
      have hne : e.top.y ≠ y' := by rw [← htopy e he, h1]; exact ha.2.ne'
      refine ⟨_, List.mem_filterMap.2 ⟨e, he, by rw [topE, if_neg hne]⟩, ?_⟩
      rw [← h1]; rfl
    · obtain ⟨fl, p, pw, pst, hp, pw', ⟨p3, p4⟩ | ⟨p3, p4, v, hv, hv1, hv2⟩⟩ := A.under hs ha.steep
      · left
        have hpy : p.top.y = y' := by rw [p4, heq]
        have hpb : p.Below y' := ⟨by rw [← hpy]; exact Side.ht pst, by rw [hpy]⟩
        obtain ⟨e, he, h1⟩ := b.complete p hp ((hgap p hp).2 hpb)
        have fe := (b.good e he).ok.facts A.linked
        have hte : e.top.y = y' := by rw [← htopy e he, h1]; exact hpy
        obtain ⟨fl', t', hw', ht', hcase⟩ := (b.good e he).ok.next A
        rw [← fe.2.2.1, h1] at hw' hcase
        rw [← p3] at pw'
        obtain ⟨q1, q2⟩ := pw'.unique hw' ha.steep ht'
        subst q2
        rcases hcase with ⟨c1, _⟩ | ⟨_, _, e1, e', _, _, c2, c3, c4, _⟩
        · rw [p3] at c1
          cases hq : s.up <;> rw [hq] at c1 <;> cases c1
        · exact ⟨e', List.mem_filterMap.2 ⟨e, he, by rw [topE, if_pos hte, c2]⟩, c4⟩
      · right
        obtain ⟨x, _, hx, _⟩ := side_node hs
        have hm : (⟨v.pt, s.ring, (if s.up then s else p).idx, x.ptype⟩ : LocMin K) ∈ locMins rings :=
          (locMins_spec rings _).2 ⟨v, x, hv, hx, hv2, rfl, rfl⟩
        have hmy : v.pt.y = y' := by rw [hv1]; split <;> [exact heq; (rw [p4]; exact heq)]
        refine ⟨_, hms2 _ hm hmy, hmy, rfl, ?_⟩
        cases hsu : s.up with
        | true => exact Or.inl (by simp [hsu])
        | false =>
          right
          rw [hsu] at pw
          exact ⟨p, hp, pw.mem.2.1, by simp [hsu], (follows_iff hs hp).2 ⟨ha.steep, pst, _, pw⟩⟩
  · intro e' he' m hm hleg
    obtain ⟨e, he, ht⟩ := List.mem_filterMap.1 he'
    obtain ⟨fl, c⟩ := hspec e he e' ht
    obtain ⟨a, ha, bb, hb, fl2, b1, b2, b3, b4, b5, b6, b7, b8, b9, b10, b11, b12⟩ := A.min_sides (hms m hm).1
    have hcase := hleg.cases hb b1 b2 ha b12 (c.good.mem A)
    have hwk := (b6.rev hb)
    rcases c.walk with ⟨_, q1, _⟩ | ⟨q1, q2, q3, q4⟩
    · have hlow : (sideOf rings e').bot.y < y' := by rw [q1]; exact (hbel e he).1
      rcases hcase with h | h
      · rw [h, b4] at hlow; exact absurd hlow (not_lt.2 (hms m hm).2)
      · rw [h, b10] at hlow; exact absurd hlow (not_lt.2 (hms m hm).2)
    · have ge := b.good e he
      rcases hcase with h | h
      · rw [h] at q2 q3
        rw [← q3, b3] at q2
        have := ((q2.rev (ge.mem A)).unique b6 ge.above.steep b7).2
        rw [this, b9, b3] at q3; cases q3
      · rw [h] at q2 q3
        rw [← q3, b9] at q2
        have := ((q2.rev (ge.mem A)).unique hwk ge.above.steep (Side.up_steep b3)).2
        rw [this, b9, b3] at q3; cases q3
  · intro f hf hfl hfy
    rcases b.flat_walked A hgap hms2 hf hfl hfy with h | ⟨w, hw, hwy, fl, t, wk, wst, wmem, wx⟩
    · exact Or.inl h
    · right
      intro e' he' hp
      obtain ⟨e, he, ht⟩ := List.mem_filterMap.1 he'
      obtain ⟨fl', c⟩ := hspec e he e' ht
      have hey : (sideOf rings e').bot.y = y' := by
        rcases hp with h | h
        · rw [h, hfy]
        · rw [h, ← hfy]; exact (hfl : f.frm.y = _).symm
      have hcx : e'.currX = (sideOf rings e').bot.x := by rw [c.good.x, ← hey, Side.x_bot]
      have hwm := (b.good w hw).mem A
      have key : ∀ p : Vec2 K, p ∈ fl.map (Side.out (sideOf rings w).up) → p.x ∈ ch' := by
        intro p hp
        apply hext w hw
        rw [wx]
        obtain ⟨g, hg, rfl⟩ := List.mem_map.1 hp
        exact List.mem_map.2 ⟨g, hg, rfl⟩
      rcases f.ends_cases (sideOf rings w).up hp with h | h
      · rcases (wk.near A.linked hwm).1 f wmem with h2 | h2
        · rw [Side.out_top] at h2
          rcases c.walk with ⟨_, q1, _⟩ | ⟨q1, q2, q3, q4⟩
          · rw [q1] at hey
            exact absurd hey (hbel e he).1.ne
          · by_cases h0 : fl' = []
            · rcases (q2.near A.linked ((b.good e he).mem A)).2 with ⟨_, n1⟩ | n1
              · rw [← q3, Side.inn_bot, q3, Side.out_top] at n1
                have hwe : w ≠ e := by
                  rintro rfl
                  have := (q2.unique wk c.good.above.steep wst).1
                  rw [h0] at this
                  rw [← this] at wmem; cases wmem
                have ge := b.good e he
                have gw := b.good w hw
                have hex : (sideOf rings e).x y' = e'.currX := (c.x0 h0).symm
                have hwx : (sideOf rings w).x y' = e'.currX := by
                  have h3 : (sideOf rings w).top.y = y' := by rw [htopy w hw]; exact hwy
                  have h4 := Side.x_top (Side.ht gw.above.steep)
                  rw [h3] at h4
                  rw [h4, ← h2, ← h, hcx]
                have hR : Std.Symm (fun e f : Edge K => (sideOf rings e).x y' = (sideOf rings f).x y' → (sideOf rings e).x y' ∈ ch') :=
                  ⟨fun a b h1 h2 => by rw [h2]; exact h1 h2.symm⟩
                have := hmark.forall hw he hwe (by rw [hwx, hex])
                rw [hwx] at this; exact this
              · rw [h0] at n1; cases n1
            · exact hext e he _ (c.x1 h0).1
        · rw [hcx, h]; exact key _ h2
      · rw [hcx, h]; exact key _ (List.mem_map.2 ⟨f, wmem, rfl⟩)
  · have hsub : ((ael.filterMap (topE rings y')).map Edge.eid).Sublist (ael.map Edge.eid) := by
      have : ∀ l : List (Edge K), (∀ e ∈ l, e ∈ ael) → ((l.filterMap (topE rings y')).map Edge.eid).Sublist (l.map Edge.eid) := by
        intro l
        induction l with
        | nil => simp
        | cons e l ih =>
          intro h
          have hrec := ih (fun e he => h e (List.mem_cons_of_mem _ he))
          rw [List.filterMap_cons]
          cases ht : topE rings y' e with
          | none => exact hrec.cons _
          | some e' =>
            simp only [List.map_cons]
            obtain ⟨_, c⟩ := hspec e (h e List.mem_cons_self) e' ht
            rw [c.eid]
            exact hrec.cons_cons _
      exact this ael (fun _ h => h)
    exact b.ids.sublist hsub

end River
