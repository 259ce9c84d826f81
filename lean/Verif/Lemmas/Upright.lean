import Verif.Spec.Upright
import Verif.Lemmas.CurvedArrange

/-! # Sides that rise or fall all the way: intake, no breaks, arrangement -/

namespace River.Upright
variable {K : Type}

attribute [local instance 10000] FTrans.toFNum

section
variable [Field K] [LinearOrder K] [IsStrictOrderedRing K] [FTrans K] [LawfulOrd K] [Exact K]

/-- What is asked of one side. -/
structure Fine (s : Vec2 K × Seg K) : Prop where
  runs : Climbs s ∨ Drops s
  reach : Reaches s
  traced : Traced s

omit [LawfulOrd K] [Exact K] in
theorem Fine.steep {s : Vec2 K × Seg K} (h : Fine s) : s.1.y ≠ s.2.target.y := by
  have e := sidePoint_ends s
  rcases h.runs with r | r
  · have := r 0 1 le_rfl one_pos le_rfl
    rw [e.1, e.2] at this; exact this.ne
  · have := r 0 1 le_rfl one_pos le_rfl
    rw [e.1, e.2] at this; exact this.ne'

omit [LawfulOrd K] [Exact K] in
theorem Fine.inj {s : Vec2 K × Seg K} (h : Fine s) {a b : K} (a0 : 0 ≤ a) (a1 : a ≤ 1) (b0 : 0 ≤ b) (b1 : b ≤ 1)
    (e : (sidePoint s a).y = (sidePoint s b).y) : a = b := by
  rcases lt_trichotomy a b with hl | hl | hl
  · rcases h.runs with r | r
    · exact absurd e (r a b a0 hl b1).ne
    · exact absurd e (r a b a0 hl b1).ne'
  · exact hl
  · rcases h.runs with r | r
    · exact absurd e (r b a b0 hl a1).ne'
    · exact absurd e (r b a b0 hl a1).ne

omit [LawfulOrd K] [Exact K] in
theorem Fine.range {s : Vec2 K × Seg K} (h : Fine s) {a : K} (a0 : 0 ≤ a) (a1 : a ≤ 1) :
    lowest s ≤ (sidePoint s a).y ∧ (sidePoint s a).y ≤ highest s := by
  have e := sidePoint_ends s
  have k : ((sidePoint s 0).y ≤ (sidePoint s a).y ∧ (sidePoint s a).y ≤ (sidePoint s 1).y) ∨
      ((sidePoint s 1).y ≤ (sidePoint s a).y ∧ (sidePoint s a).y ≤ (sidePoint s 0).y) := by
    rcases h.runs with r | r
    · left
      constructor
      · rcases a0.eq_or_lt with rfl | hl
        · exact le_rfl
        · exact (r 0 a le_rfl hl a1).le
      · rcases a1.eq_or_lt with rfl | hl
        · exact le_rfl
        · exact (r a 1 a0 hl le_rfl).le
    · right
      constructor
      · rcases a1.eq_or_lt with rfl | hl
        · exact le_rfl
        · exact (r a 1 a0 hl le_rfl).le
      · rcases a0.eq_or_lt with rfl | hl
        · exact le_rfl
        · exact (r 0 a le_rfl hl a1).le
  rw [e.1, e.2] at k
  unfold lowest highest
  rcases k with k | k
  · exact ⟨(min_le_left _ _).trans k.1, k.2.trans (le_max_right _ _)⟩
  · exact ⟨(min_le_right _ _).trans k.1, k.2.trans (le_max_left _ _)⟩

omit [LawfulOrd K] [Exact K] in
theorem Fine.ends {s : Vec2 K × Seg K} (h : Fine s) {a : K} (a0 : 0 ≤ a) (a1 : a ≤ 1)
    (he : (sidePoint s a).y = lowest s ∨ (sidePoint s a).y = highest s) : a = 0 ∨ a = 1 := by
  have e := sidePoint_ends s
  have key : (sidePoint s a).y = (sidePoint s 0).y ∨ (sidePoint s a).y = (sidePoint s 1).y := by
    rw [e.1, e.2]
    unfold lowest highest at he
    rcases le_total s.1.y s.2.target.y with hl | hl
    · rwa [min_eq_left hl, max_eq_right hl] at he
    · rw [min_eq_right hl, max_eq_left hl] at he; exact he.symm
  rcases key with k | k
  · exact Or.inl (h.inj a0 a1 le_rfl zero_le_one k)
  · exact Or.inr (h.inj a0 a1 zero_le_one le_rfl k)

theorem currX_fine {p : Vec2 K} {g : Seg K} (h : Fine (p, g)) {r : K} (r0 : 0 ≤ r) (r1 : r ≤ 1) :
    g.currX p (sidePoint (p, g) r).y = (sidePoint (p, g) r).x := by
  cases g with
  | line q =>
    have hst : p.y ≠ q.y := h.steep
    have hd : q.y - p.y ≠ 0 := sub_ne_zero.2 hst.symm
    simp only [Seg.currX, Seg.linX, sidePoint, lerp, Exact.add_eq, Exact.sub_eq, Exact.mul_eq, Exact.div_eq]
    field_simp
    ring
  | cubic c1 c2 q => exact h.traced.2 r r0 r1

theorem x_fine {s : Side K} (h : Fine (s.frm, s.seg)) {r : K} (r0 : 0 ≤ r) (r1 : r ≤ 1) :
    s.x (sidePoint (s.frm, s.seg) r).y = (sidePoint (s.frm, s.seg) r).x := by
  have e := sidePoint_ends (s.frm, s.seg)
  have hb : (s.bot = sidePoint (s.frm, s.seg) 0 ∧ s.top = sidePoint (s.frm, s.seg) 1) ∨
      (s.bot = sidePoint (s.frm, s.seg) 1 ∧ s.top = sidePoint (s.frm, s.seg) 0) := by
    rw [e.1, e.2]
    unfold Side.bot Side.top
    cases s.up <;> simp
  have k : ∀ z : K, 0 ≤ z → z ≤ 1 → (sidePoint (s.frm, s.seg) r).y = (sidePoint (s.frm, s.seg) z).y →
      (sidePoint (s.frm, s.seg) z).x = (sidePoint (s.frm, s.seg) r).x := fun z z0 z1 q => by rw [h.inj r0 r1 z0 z1 q]
  unfold Side.x
  split
  · next q =>
    rcases hb with ⟨hb, _⟩ | ⟨hb, _⟩ <;> rw [hb] at q ⊢
    · exact k 0 le_rfl zero_le_one q
    · exact k 1 zero_le_one le_rfl q
  · split
    · next q =>
      rcases hb with ⟨_, hb⟩ | ⟨_, hb⟩ <;> rw [hb] at q ⊢
      · exact k 1 zero_le_one le_rfl q
      · exact k 0 le_rfl zero_le_one q
    · exact currX_fine h r0 r1

theorem leftOf_of_beside {s t : Side K} (hs : Fine (s.frm, s.seg)) (ht : Fine (t.frm, t.seg)) (h : Beside (s.frm, s.seg) (t.frm, t.seg)) :
    LeftOf s t := by
  intro y h1 h2 h3 h4
  obtain ⟨s1, s2, _⟩ := s.ends_y
  obtain ⟨t1, t2, _⟩ := t.ends_y
  rw [s1] at h1
  rw [t1] at h2
  rw [s2] at h3
  rw [t2] at h4
  obtain ⟨a, a0, a1, ea⟩ := hs.reach y h1 h3
  obtain ⟨b, b0, b1, eb⟩ := ht.reach y h2 h4
  obtain ⟨k1, k2⟩ := h a b a0 a1 b0 b1 (ea.trans eb.symm)
  have es := x_fine hs a0 a1
  have et := x_fine ht b0 b1
  rw [ea] at es
  rw [eb] at et
  rw [ea, eb] at k2
  rw [es, et]
  refine ⟨k1, fun e => ?_⟩
  have fs : ¬ s.Flat := hs.steep
  have ft : ¬ t.Flat := ht.steep
  rcases k2 e with ⟨e1, e2⟩ | ⟨e1, e2⟩
  · left
    refine ⟨?_, by rw [s1]; exact e1⟩
    have x1 := (Side.ends_x (s := s)).1
    have x2 := (Side.ends_x (s := t)).1
    rw [s1, ← e1, es] at x1
    rw [t1, ← e2, et] at x2
    exact Vec2.ext_iff.2 ⟨by rw [← x1, ← x2, e], by rw [s1, t1, ← e1, ← e2]⟩
  · right
    refine ⟨?_, by rw [s2]; exact e1⟩
    have x1 := (Side.ends_x (s := s)).2 fs
    have x2 := (Side.ends_x (s := t)).2 ft
    rw [s2, ← e1, es] at x1
    rw [t2, ← e2, et] at x2
    exact Vec2.ext_iff.2 ⟨by rw [← x1, ← x2, e], by rw [s2, t2, ← e1, ← e2]⟩

/-! ## intake -/

theorem bodySegs_fine (p : Vec2 K) (segs : List (Seg K)) (h : ∀ s ∈ chain p segs, Fine s) : bodySegs p (segs.map drawCmd) = segs := by
  induction segs generalizing p with
  | nil => rfl
  | cons g segs ih =>
    have hg : Fine (p, g) := h _ (by simp [chain])
    have hst : p.y ≠ g.target.y := hg.steep
    have hne : p ≠ g.target := fun e => hst (congrArg Vec2.y e)
    have iht := ih g.target (fun s hs => h s (by simp [chain, hs]))
    rw [bodySegs] at iht ⊢
    rw [List.map_cons, bodyEdges, List.map_append]
    have htg : (drawCmd g).target = g.target := by cases g <;> rfl
    rw [htg, iht]
    have : (cmdEdges p (drawCmd g)).map Prod.snd = [g] := by
      cases g with
      | line q =>
        have hb : Vec2.bne p q = true := by
          rw [Vec2.bne, Bool.not_eq_true', Bool.eq_false_iff]
          intro hb
          exact hne ((Vec2.beq_iff p q).mp hb)
        simp [drawCmd, cmdEdges, hb]
      | cubic c1 c2 q =>
        have hc : ((p.y ==. c1.y) && (c1.y ==. c2.y) && (c2.y ==. q.y)) = false := by
          rw [Bool.eq_false_iff]
          intro hc
          simp only [Bool.and_eq_true, eq_eq_decide, decide_eq_true_eq] at hc
          exact hst (hc.1.1.trans (hc.1.2.trans hc.2))
        simp only [drawCmd, cmdEdges, hc, Bool.false_eq_true, if_false, hg.traced.1, List.map_cons, List.map_nil]
    rw [this]; rfl

theorem intake_loop (pt : PathType) (l : Loop K) (hc : l.Closed) (h : ∀ s ∈ l.sides, Fine s) :
    ∃ r, insertVertexList (Drawn.contour ⟨l.start, l.segs.map drawCmd⟩) pt = some r ∧ StoresLoop pt l r := by
  obtain ⟨p, segs⟩ := l
  obtain ⟨last, hl, he⟩ := hc
  simp only at hl he
  have hcon : Drawn.contour (⟨p, segs.map drawCmd⟩ : Drawn K) = ⟨p, segs⟩ := by
    unfold Drawn.contour
    rw [bodySegs_fine p segs h]
  rw [hcon]
  have hlen : segs.length ≠ 1 := by
    intro h1
    obtain ⟨g, rfl⟩ := List.length_eq_one_iff.1 h1
    have : g = last := by simpa using hl
    subst this
    exact (h (p, g) (by simp [Loop.sides, chain])).steep (congrArg Vec2.y he.symm)
  have hb : Vec2.bne p p = false := by
    rw [Vec2.bne, (Vec2.beq_iff p p).mpr rfl]; rfl
  have hcc : closeContour ⟨p, segs⟩ = some ((chain p segs).map (fun q => (⟨q.1, q.2, false, false⟩ : Vtx K))) := by
    unfold closeContour
    simp only [hl, hb, Bool.false_eq_true, if_false, if_neg hlen, he, chain_zip]
  have hsome : insertVertexList ⟨p, segs⟩ pt ≠ none := by
    rw [Ne, insertVertexList_none_iff]
    intro hall
    have := hall _ hcc
    cases segs with
    | nil => simp at hl
    | cons g segs =>
      cases segs with
      | nil => simp at hlen
      | cons g' segs =>
        have e := this ⟨p, g, false, false⟩ (by simp [chain]) ⟨g.target, g', false, false⟩ (by simp [chain])
        exact (h (p, g) (by simp [Loop.sides, chain])).steep e
  cases hr : insertVertexList ⟨p, segs⟩ pt with
  | none => exact absurd hr hsome
  | some r =>
    obtain ⟨nodes, n1, n2, n3⟩ := insertVertexList_nodes _ pt r hr
    rw [hcc] at n1
    obtain ⟨_, _, hlink⟩ := closeContour_spec _ _ hcc
    cases Option.some.inj n1
    refine ⟨r, rfl, n3, ?_, ?_, insertVertexList_flags _ pt r hr⟩
    · rw [n2, List.map_map]
      simp [Function.comp_def, Loop.sides]
    · have hlen2 : r.nodes.length = ((chain p segs).map (fun q => (⟨q.1, q.2, false, false⟩ : Vtx K))).length := by
        have := congrArg List.length n2
        simpa using this
      intro i v w hv hw
      have key : ∀ {j : Nat} {v : Vtx K}, r.nodes[j]? = some v → ∃ v', ((chain p segs).map (fun q => (⟨q.1, q.2, false, false⟩ : Vtx K)))[j]? = some v' ∧
          v'.pt = v.pt ∧ v'.seg = v.seg := by
        intro j v hv
        have e := congrArg (fun l => l[j]?) n2
        simp only [List.getElem?_map, hv, Option.map_some] at e
        obtain ⟨v', hv', e'⟩ := Option.map_eq_some_iff.1 e.symm
        exact ⟨v', by rw [List.getElem?_map]; exact hv', congrArg Prod.fst e', congrArg Prod.snd e'⟩
      obtain ⟨v', a1, a2, a3⟩ := key hv
      obtain ⟨w', b1, b2, b3⟩ := key hw
      rw [hlen2] at b1
      rw [← a3, ← b2]
      exact hlink i v' w' a1 b1

/-! ## sides meet only in ends -/

/-- Two sides do not cross. -/
def Clear2 (s t : Vec2 K × Seg K) : Prop := lowest s < highest t → lowest t < highest s → Beside s t ∨ Beside t s

omit [FTrans K] [LawfulOrd K] [Exact K] [IsStrictOrderedRing K] in
theorem Clear2.symm {s t : Vec2 K × Seg K} (h : Clear2 s t) : Clear2 t s := fun h1 h2 => (h h2 h1).symm

omit [LawfulOrd K] [Exact K] in
theorem meet_ends {s t : Vec2 K × Seg K} (hs : Fine s) (ht : Fine t) (h : Clear2 s t) {a b : K} (a0 : 0 ≤ a) (a1 : a ≤ 1) (b0 : 0 ≤ b) (b1 : b ≤ 1)
    (e : sidePoint s a = sidePoint t b) : (a = 0 ∨ a = 1) ∧ (b = 0 ∨ b = 1) := by
  obtain ⟨s1, s2⟩ := hs.range a0 a1
  obtain ⟨t1, t2⟩ := ht.range b0 b1
  have hy : (sidePoint s a).y = (sidePoint t b).y := by rw [e]
  have hx : (sidePoint s a).x = (sidePoint t b).x := by rw [e]
  suffices h : ((sidePoint s a).y = lowest s ∨ (sidePoint s a).y = highest s) ∧ ((sidePoint t b).y = lowest t ∨ (sidePoint t b).y = highest t) from
    ⟨hs.ends a0 a1 h.1, ht.ends b0 b1 h.2⟩
  by_cases c1 : lowest s < highest t
  · by_cases c2 : lowest t < highest s
    · rcases h c1 c2 with hb | hb
      · rcases (hb a b a0 a1 b0 b1 hy).2 hx with ⟨e1, e2⟩ | ⟨e1, e2⟩
        · exact ⟨Or.inl e1, Or.inl e2⟩
        · exact ⟨Or.inr e1, Or.inr e2⟩
      · rcases (hb b a b0 b1 a0 a1 hy.symm).2 hx.symm with ⟨e1, e2⟩ | ⟨e1, e2⟩
        · exact ⟨Or.inl e2, Or.inl e1⟩
        · exact ⟨Or.inr e2, Or.inr e1⟩
    · rw [not_lt] at c2
      exact ⟨Or.inr (by linarith), Or.inl (by linarith)⟩
  · rw [not_lt] at c1
    exact ⟨Or.inl (by linarith), Or.inr (by linarith)⟩

/-! ## no breaks -/

theorem lines_quiet {v w : Vtx K} {q r : Vec2 K} (hv : v.seg = .line q) (hw : w.seg = .line r) (fv : Fine (v.pt, v.seg)) (fw : Fine (w.pt, w.seg))
    (rv : ∀ z ∈ sidePoints (v.pt, v.seg), InDoubles z) (rw' : ∀ z ∈ sidePoints (w.pt, w.seg), InDoubles z)
    (h : Clear2 (v.pt, v.seg) (w.pt, w.seg)) : ∃ l, lineIntersect v.pt q w.pt r = some l ∧ ∀ d ∈ l, inUnit d.t0 = false ∧ inUnit d.t1 = false := by
  rw [hv] at fv rv h
  rw [hw] at fw rw' h
  have ends : ∀ t : K, t = 0 ∨ t = 1 → inUnit t = false := by
    rintro t (rfl | rfl) <;> exact nearEnd_inUnit (by unfold NearEnd; norm_num)
  have key : ∀ d : Info K, 0 ≤ d.t0 → d.t0 ≤ 1 → 0 ≤ d.t1 → d.t1 ≤ 1 → d.p = lerp v.pt q d.t0 → d.p = lerp w.pt r d.t1 →
      inUnit d.t0 = false ∧ inUnit d.t1 = false := by
    intro d a0 a1 b0 b1 e1 e2
    obtain ⟨k1, k2⟩ := meet_ends fv fw h a0 a1 b0 b1 (show lerp v.pt q d.t0 = lerp w.pt r d.t1 by rw [← e1, ← e2])
    exact ⟨ends _ k1, ends _ k2⟩
  by_cases hp : Parallel v.pt q w.pt r
  · have n1 : v.pt ≠ q := fun e => fv.steep (congrArg Vec2.y e)
    have n2 : w.pt ≠ r := fun e => fw.steep (congrArg Vec2.y e)
    obtain ⟨l, e1, e2⟩ := lineIntersect_along hp n1 n2 (rv _ (by simp [sidePoints])) (rv _ (by simp [sidePoints])) (rw' _ (by simp [sidePoints]))
      (rw' _ (by simp [sidePoints]))
    refine ⟨l, e1, fun d hd => ?_⟩
    obtain ⟨a0, a1, b0, b1, p1, p2, _⟩ := e2 d hd
    exact key d a0 a1 b0 b1 p1 p2
  · obtain ⟨l, e1, e2, _⟩ := lineIntersect_exact hp
    refine ⟨l, e1, fun d hd => ?_⟩
    obtain ⟨a0, a1, b0, b1, p1, p2⟩ := e2 d hd
    exact key d a0 a1 b0 b1 p1 p2

theorem intersectVtx_quiet {csort : List (Cell K × Cell K) → List (Cell K × Cell K)} (hc : IsSort csort) (i j : Nat) {v w : Vtx K}
    (fv : Fine (v.pt, v.seg)) (fw : Fine (w.pt, w.seg)) (rv : ∀ z ∈ sidePoints (v.pt, v.seg), InDoubles z)
    (rw' : ∀ z ∈ sidePoints (w.pt, w.seg), InDoubles z) (h : Clear2 (v.pt, v.seg) (w.pt, w.seg))
    (hq : NoReport (v.pt, v.seg) (w.pt, w.seg) ∨ NoReport (w.pt, w.seg) (v.pt, v.seg)) : intersectVtx csort i j v w = some [] := by
  have ne : ∀ l : List (Info K), (∀ d ∈ l, NearEnd d.t0 ∧ NearEnd d.t1) → ∀ i j, pushBreaks i j l = [] := by
    intro l hl i j
    exact pushBreaks_nil i j l (fun d hd => ⟨nearEnd_inUnit (hl d hd).1, nearEnd_inUnit (hl d hd).2⟩)
  unfold intersectVtx
  cases hv : v.seg with
  | line q =>
    cases hw : w.seg with
    | line r =>
      obtain ⟨l, e, hl⟩ := lines_quiet hv hw fv fw rv rw' h
      simp only [e, Option.map_some, pushBreaks_nil i j l hl]
    | cubic d1 d2 r =>
      obtain ⟨l, e, _⟩ := lineCubicIntersect_fits v.pt q (Seg.getCubic d1 d2 r w.pt)
      simp only [e, Option.map_some]
      rw [hv, hw] at hq
      rw [ne l]
      rcases hq with hq | hq <;> exact hq l e
  | cubic c1 c2 q =>
    cases hw : w.seg with
    | line r =>
      obtain ⟨l, e, _⟩ := lineCubicIntersect_fits w.pt r (Seg.getCubic c1 c2 q v.pt)
      simp only [e, Option.map_some]
      rw [hv, hw] at hq
      rw [ne l]
      rcases hq with hq | hq <;> exact hq l e
    | cubic d1 d2 r =>
      rw [hv, hw] at hq
      simp only
      rw [ne]
      rcases hq with hq | hq
      · exact (hq csort hc).1
      · exact (hq csort hc).2

/-- The sides of the vertices do not cross. -/
structure NodesClear (N : List (Vtx K)) : Prop where
  fine : ∀ v ∈ N, Fine (v.pt, v.seg)
  range : ∀ v ∈ N, ∀ z ∈ sidePoints (v.pt, v.seg), InDoubles z
  clear : ∀ (i j : Nat) (v w : Vtx K), i ≠ j → N[i]? = some v → N[j]? = some w → Clear2 (v.pt, v.seg) (w.pt, w.seg)
  quiet : ∀ (i j : Nat) (v w : Vtx K), i ≠ j → N[i]? = some v → N[j]? = some w →
    (Far (v.pt, v.seg) (w.pt, w.seg) ∨ Far (w.pt, w.seg) (v.pt, v.seg)) ∨ NoReport (v.pt, v.seg) (w.pt, w.seg) ∨ NoReport (w.pt, w.seg) (v.pt, v.seg)

theorem collectBreaks_quiet {N : List (Vtx K)} (h : NodesClear N) (env : Env K) (hok : env.Ok) : collectBreaks env N = some [] := by
  obtain ⟨s1, s2, s3⟩ := scanProcess_spec env.segAddr hok.segAddr (N.map (fun v => v.seg.boundary v.pt))
    ⟨⟨FNum.lit 0, FNum.lit 0⟩, ⟨FNum.lit 0, FNum.lit 0⟩⟩
  unfold collectBreaks
  obtain ⟨calls, hcalls⟩ : ∃ calls, calls = scanProcess env.segAddr (N.map (fun v => v.seg.boundary v.pt))
    ⟨⟨FNum.lit 0, FNum.lit 0⟩, ⟨FNum.lit 0, FNum.lit 0⟩⟩ := ⟨_, rfl⟩
  rw [← hcalls] at s1 s2 s3 ⊢
  have hc : ∀ c ∈ calls, ∃ v w, N[c.1]? = some v ∧ N[c.2]? = some w ∧ intersectVtx env.csort c.1 c.2 v w = some [] := by
    intro c hc
    obtain ⟨h1, h2, h3, _⟩ := s2 c.1 c.2 hc
    have hbox := (s3 c.1 c.2 h1 h2 h3).1 (Or.inl hc)
    rw [List.getElem_map, List.getElem_map] at hbox
    rw [List.length_map] at h1 h2
    have hv := List.getElem?_eq_getElem h1
    have hw := List.getElem?_eq_getElem h2
    have mv := List.mem_of_getElem? hv
    have mw := List.mem_of_getElem? hw
    refine ⟨_, _, hv, hw, intersectVtx_quiet hok.csort _ _ (h.fine _ mv) (h.fine _ mw) (h.range _ mv) (h.range _ mw) (h.clear _ _ _ _ h3 hv hw) ?_⟩
    rcases h.quiet _ _ _ _ h3 hv hw with (hf | hf) | hq
    · rw [far_boxes (h.range _ mv) (h.range _ mw) hf] at hbox; cases hbox
    · have hsym := (s3 c.2 c.1 (by simpa using h2) (by simpa using h1) h3.symm).1 (Or.inr hc)
      rw [List.getElem_map, List.getElem_map, far_boxes (h.range _ mw) (h.range _ mv) hf] at hsym; cases hsym
    · exact hq
  clear s1 s2 s3 hcalls
  have : ∀ (l : List (Nat × Nat)), (∀ c ∈ l, c ∈ calls) → l.foldlM (fun acc c =>
      match N[c.1]?, N[c.2]? with
      | some vl, some vr => (intersectVtx env.csort c.1 c.2 vl vr).map (acc ++ ·)
      | _, _ => some acc) [] = some ([] : List (Brk K)) := by
    intro l
    induction l with
    | nil => intro _; rfl
    | cons c l ih =>
      intro hl
      obtain ⟨v, w, e1, e2, e3⟩ := hc c (hl c (by simp))
      rw [List.foldlM_cons]
      simp only [e1, e2, e3, Option.map_some, List.append_nil]
      exact ih (fun c hc => hl c (by simp [hc]))
  exact this calls (fun c hc => hc)

theorem processIntersect_quiet {rings : List (Ring K)} (h : NodesClear (allNodes rings)) (env : Env K) (hok : env.Ok) :
    processIntersect env rings = some rings := by
  unfold processIntersect
  rw [collectBreaks_quiet h env hok, Option.map_some, breakRings_none env hok]

/-! ## arrangement -/

omit [IsStrictOrderedRing K] [LawfulOrd K] [Exact K] in
theorem NonCrossing.fine {Ls : List (Loop K)} (h : NonCrossing Ls) {s : Vec2 K × Seg K} (hs : s ∈ Ls.flatMap Loop.sides) : Fine s :=
  ⟨h.runs s hs, h.reach s hs, h.traced s hs⟩

omit [LawfulOrd K] in
theorem NonCrossing.inDoubles {Ls : List (Loop K)} (h : NonCrossing Ls) {s : Vec2 K × Seg K} (hs : s ∈ Ls.flatMap Loop.sides) :
    ∀ z ∈ sidePoints s, InDoubles z := by
  intro z hz
  obtain ⟨r1, r2, r3, r4⟩ := h.range s hs z hz
  unfold InDoubles
  rw [Exact.neg_eq, show (FNum.maxNum : K) = (dblMax : K) from Exact.max_eq]
  exact ⟨r1, r2, r3.le, r4⟩

theorem storesLoops_clear {L : List (PathType × Loop K)} {rings : List (Ring K)} (h : StoresLoops L rings) (N : NonCrossing (L.map Prod.snd)) :
    NodesClear (allNodes rings) := by
  have hm : ∀ v ∈ allNodes rings, (v.pt, v.seg) ∈ (L.map Prod.snd).flatMap Loop.sides := by
    intro v hv
    rw [← h.nodes]; exact List.mem_map.2 ⟨v, hv, rfl⟩
  have pw : ∀ {R : Vec2 K × Seg K → Vec2 K × Seg K → Prop}, ((L.map Prod.snd).flatMap Loop.sides).Pairwise R → ∀ (i j : Nat) (v w : Vtx K), i ≠ j →
      (allNodes rings)[i]? = some v → (allNodes rings)[j]? = some w → R (v.pt, v.seg) (w.pt, w.seg) ∨ R (w.pt, w.seg) (v.pt, v.seg) := by
    intro R hR i j v w hij hi hj
    rw [← h.nodes, List.pairwise_map, List.pairwise_iff_getElem] at hR
    obtain ⟨h1, e1⟩ := List.getElem?_eq_some_iff.1 hi
    obtain ⟨h2, e2⟩ := List.getElem?_eq_some_iff.1 hj
    rcases Nat.lt_or_gt_of_ne hij with hlt | hlt
    · left; have := hR i j h1 h2 hlt; rwa [e1, e2] at this
    · right; have := hR j i h2 h1 hlt; rwa [e1, e2] at this
  refine ⟨fun v hv => N.fine (hm v hv), fun v hv => N.inDoubles (hm v hv), ?_, ?_⟩
  · intro i j v w hij hi hj
    rcases pw N.apart i j v w hij hi hj with h | h
    · exact h
    · exact Clear2.symm h
  · intro i j v w hij hi hj
    rcases pw N.quiet i j v w hij hi hj with (h | h) | h | h
    · exact Or.inl (Or.inl h)
    · exact Or.inr (Or.inl h)
    · exact Or.inl (Or.inr h)
    · exact Or.inr (Or.inr h)

omit [LawfulOrd K] [Exact K] in
theorem clear_not_same {s t : Side K} (fs : Fine (s.frm, s.seg)) (ft : Fine (t.frm, t.seg)) (h : Clear2 (s.frm, s.seg) (t.frm, t.seg)) :
    ¬ SameSpan s t := by
  intro hss
  rcases (meet_ends fs ft h (by norm_num) (by norm_num) (by norm_num) (by norm_num) (sameSpan_half hss)).1 with e | e <;> norm_num at e

/-- Rings of sides that do not cross. -/
structure Tidy (rings : List (Ring K)) : Prop where
  linked : ∀ r ∈ rings, Linked r.nodes
  flags : ∀ r ∈ rings, Cyc FlagStep r.nodes
  low : ∀ s ∈ sides rings, -(dblMax : K) < s.frm.y
  fine : ∀ s ∈ sides rings, Fine (s.frm, s.seg)
  clear : ∀ s ∈ sides rings, ∀ t ∈ sides rings, s ≠ t → Clear2 (s.frm, s.seg) (t.frm, t.seg)
  feet : ∀ s ∈ sides rings, ∀ t ∈ sides rings, ∀ u ∈ sides rings, foot (s.frm, s.seg) = foot (t.frm, t.seg) →
    foot (t.frm, t.seg) = foot (u.frm, u.seg) → s = t ∨ s = u ∨ t = u

theorem Tidy.arranged {rings : List (Ring K)} (T : Tidy rings) : Arranged rings := by
  have hfine := T.fine
  have hst : ∀ s ∈ sides rings, ¬ s.Flat := fun s hs => (hfine s hs).steep
  have hclear := T.clear
  have hsame : ∀ s ∈ sides rings, ∀ t ∈ sides rings, s ≠ t → ¬ SameSpan s t :=
    fun s hs t ht hne => clear_not_same (hfine s hs) (hfine t ht) (hclear s hs t ht hne)
  have hlink := T.linked
  refine ⟨hlink, ?_, ?_, ?_, ?_, ?_, ?_, fun f hf hfl => absurd hfl (hst f hf), fun f hf hfl => absurd hfl (hst f hf), fun f hf hfl => absurd hfl (hst f hf),
    fun f hf hfl => absurd hfl (hst f hf), ?_, fun _ _ _ _ _ _ _ _ => rfl, fun _ _ _ _ _ _ _ _ => rfl, fun f hf _ _ hfl => absurd hfl (hst f hf)⟩
  · intro s hs
    rw [Exact.neg_eq, show (FNum.maxNum : K) = (dblMax : K) from Exact.max_eq]
    exact T.low s hs
  · intro t ht v hv
    obtain ⟨r, v', h1, h2, h3, h4, _⟩ := (mem_sides rings t).1 ht
    rw [(nodeAt_eq h1 _).1, h2] at hv
    cases Option.some.inj hv
    have hfl := hst t ht
    obtain ⟨s, hadj⟩ := Adj.exists false ht
    have hf : Follows rings s t := (follows_iff hadj.1 ht).2 ⟨hst s hadj.1, hfl, [], .nil (hadj.rev ht)⟩
    have uniq : ∀ u : Bool, (∃ z ∈ sides rings, Follows rings z t ∧ z.up = u) ↔ s.up = u := by
      intro u
      constructor
      · rintro ⟨z, hz, hzf, hzu⟩
        rw [Follows.unique hadj.1 hz ht hf hzf]; exact hzu
      · exact fun q => ⟨s, hadj.1, hf, q⟩
    rw [uniq, uniq]
    obtain ⟨r', u, k1, k2, k3, k4, _⟩ := (mem_sides rings s).1 hadj.1
    rw [hadj.2.1, h1] at k1
    cases Option.some.inj k1
    have hidx : t.idx = (s.idx + 1) % r.nodes.length := by
      have := (hadj.rev ht).2.2
      rw [Bool.not_false, if_pos rfl, hadj.2.1, (nodeAt_eq h1 0).2] at this
      exact this
    obtain ⟨g1, g2⟩ := T.flags r (List.mem_of_getElem? h1) s.idx u v k2 (hidx ▸ h2)
    have hup : ∀ z : Side K, ¬ z.Flat → (z.up = true ↔ z.frm.y < z.seg.target.y) ∧ (z.up = false ↔ z.seg.target.y < z.frm.y) := by
      intro z hz
      unfold Side.up
      rw [decide_eq_true_eq, decide_eq_false_iff_not, not_lt]
      exact ⟨Iff.rfl, ⟨fun q => lt_of_le_of_ne q (Ne.symm hz), le_of_lt⟩⟩
    rw [(hup t hfl).1, (hup t hfl).2, (hup s (hst s hadj.1)).1, (hup s (hst s hadj.1)).2, h3, h4, k3, k4, g1, g2]
    exact ⟨and_comm, and_comm⟩
  · intro s hs t ht _ _ hne h1 h2
    rw [s.ends_y.1, t.ends_y.2.1] at h1
    rw [t.ends_y.1, s.ends_y.2.1] at h2
    rcases hclear s hs t ht hne h1 h2 with hb | hb
    · exact Or.inl (leftOf_of_beside (hfine s hs) (hfine t ht) hb)
    · exact Or.inr (Or.inl (leftOf_of_beside (hfine t ht) (hfine s hs) hb))
  · intro s hs t ht fs ft hne hb
    have h1 := Side.ht fs
    have h2 := Side.ht ft
    rw [← hb] at h2
    rw [fmin_eq_min, Exact.div_eq, Exact.add_eq, Exact.lit_eq]
    have h3 := lt_min h1 h2
    push_cast
    constructor
    · rw [lt_div_iff₀ (by norm_num)]; linarith
    · rw [div_lt_iff₀ (by norm_num)]; linarith
  · exact fun s hs t ht _ _ hne hss => absurd hss (hsame s hs t ht hne)
  · intro a ha b hb hf ha' hb' u hu hua hub habove hbu hor
    have hab : a.bot = b.bot := by
      obtain ⟨sa, sb, fl, hw⟩ := (follows_iff ha hb).1 hf
      cases hw with
      | nil hadj =>
        have : b.frm = a.seg.target := (hadj.point hlink ha).symm
        rw [Side.bot, Side.bot, ha', hb', if_neg (by simp), if_pos rfl, this]
      | cons hadj hfl _ => exact absurd hfl (hst _ hadj.1)
    have fa := hst a ha
    have fb := hst b hb
    have fu := hst u hu
    have hbt := Side.ht fb
    have hat := Side.ht fa
    obtain ⟨l1, l2⟩ := hbu b.bot.y le_rfl habove.1 hbt.le habove.2.le
    have hxa : u.x b.bot.y ≤ a.x b.bot.y := by
      rcases hor with hl | hl
      · exact (hl b.bot.y habove.1 (by rw [hab]) habove.2.le (by rw [← hab]; exact hat.le)).1
      · exact absurd hl.1 (hsame u hu a ha hua)
    have hxb : b.x b.bot.y = b.bot.x := Side.ends_x.1
    have hxa' : a.x b.bot.y = b.bot.x := by rw [← hab]; exact Side.ends_x.1
    have heq : b.x b.bot.y = u.x b.bot.y := le_antisymm l1 (by rw [hxb, ← hxa']; exact hxa)
    have hfoot : b.bot = u.bot := by
      rcases l2 heq with ⟨e, _⟩ | ⟨_, e⟩
      · exact e
      · exact absurd e hbt.ne
    have hab0 : a ≠ b := by
      rintro rfl
      rw [ha'] at hb'; cases hb'
    rcases T.feet a ha b hb u hu (by rw [← a.ends_y.2.2, ← b.ends_y.2.2, hab]) (by rw [← b.ends_y.2.2, ← u.ends_y.2.2, hfoot]) with e | e | e
    · exact hab0 e
    · exact hua e.symm
    · exact hub e.symm
  · rintro s hs t ht _ _ _ _ ⟨f, hf, hfl, _⟩ _
    exact hst f hf hfl

theorem storesLoops_arranged {L : List (PathType × Loop K)} {rings : List (Ring K)} (h : StoresLoops L rings) (N : NonCrossing (L.map Prod.snd)) :
    Arranged rings := by
  have hfine : ∀ s ∈ sides rings, Fine (s.frm, s.seg) := fun s hs => N.fine (h.side hs)
  have hclear : ∀ s ∈ sides rings, ∀ t ∈ sides rings, s ≠ t → Clear2 (s.frm, s.seg) (t.frm, t.seg) :=
    h.pairwise (fun _ _ h => Clear2.symm h) N.apart
  have hgeo : ∀ s ∈ sides rings, ∀ t ∈ sides rings, (s.frm, s.seg) = (t.frm, t.seg) → s = t := by
    intro s hs t ht e
    by_contra hne
    have hfr := meet_ends (hfine s hs) (hfine t ht) (hclear s hs t ht hne) (a := 1 / 2) (b := 1 / 2) (by norm_num) (by norm_num) (by norm_num) (by norm_num)
      (by rw [e])
    rcases hfr.1 with e | e <;> norm_num at e
  have hring : ∀ r ∈ rings, ∃ p ∈ L, StoresLoop p.1 p.2 r := by
    intro r hr
    obtain ⟨k, hk⟩ := List.getElem?_of_mem hr
    obtain ⟨p, hp, hS⟩ := h.get hk
    exact ⟨p, List.mem_of_getElem? hp, hS⟩
  refine Tidy.arranged ⟨?_, ?_, ?_, hfine, hclear, ?_⟩
  · intro r hr
    obtain ⟨p, _, hp⟩ := hring r hr
    exact hp.linked
  · intro r hr
    obtain ⟨p, hpL, hp⟩ := hring r hr
    refine hp.steps (fun s hs => (N.fine ?_).steep)
    exact List.mem_flatMap.2 ⟨p.2, List.mem_map.2 ⟨p, hpL, rfl⟩, hs⟩
  · intro s hs
    have hm : s.frm ∈ sidePoints (s.frm, s.seg) := by
      unfold sidePoints; cases s.seg <;> simp
    exact (N.range _ (h.side hs) _ hm).2.2.1
  · intro a ha b hb u hu e1 e2
    rcases N.feet _ (h.side ha) _ (h.side hb) _ (h.side hu) e1 e2 with e | e | e
    · exact Or.inl (hgeo _ ha _ hb e)
    · exact Or.inr (Or.inl (hgeo _ ha _ hu e))
    · exact Or.inr (Or.inr (hgeo _ hb _ hu e))

theorem crossing_curve (X y : K) {v : Vtx K} (h : Fine (v.pt, v.seg)) : crossing X y v = curveWinding X y (v.pt, v.seg) := by
  obtain ⟨s, hs⟩ : ∃ s : Side K, s = ⟨0, 0, v.pt, v.seg, .subject⟩ := ⟨_, rfl⟩
  have fs : Fine (s.frm, s.seg) := by rw [hs]; exact h
  have key : (if s.Above y ∧ s.x y < X then s.dx else 0) = curveWinding X y (s.frm, s.seg) := by
    obtain ⟨e1, e2, _⟩ := s.ends_y
    have hst : s.frm.y ≠ s.seg.target.y := fs.steep
    unfold curveWinding
    have hab : s.Above y ↔ lowest (s.frm, s.seg) ≤ y ∧ y < highest (s.frm, s.seg) := by unfold Side.Above; rw [e1, e2]
    unfold Side.dx Side.up
    simp only [hab]
    by_cases ha : lowest (s.frm, s.seg) ≤ y ∧ y < highest (s.frm, s.seg)
    · obtain ⟨r, r0, r1, er⟩ := fs.reach y ha.1 ha.2.le
      have ex := x_fine fs r0 r1
      rw [er] at ex
      have hl : LeftAt X y (s.frm, s.seg) ↔ s.x y < X := by
        rw [ex]
        refine ⟨?_, fun q => ⟨r, r0, r1, er, q⟩⟩
        rintro ⟨z, z0, z1, ez, q⟩
        rwa [fs.inj z0 z1 r0 r1 (ez.trans er.symm)] at q
      rw [hl]
      unfold lowest highest at ha
      simp only at ha ⊢
      by_cases hx : s.x y < X
      · rw [if_pos ⟨ha, hx⟩, if_pos hx]
        rcases lt_or_gt_of_ne hst with hl | hl
        · rw [min_eq_left hl.le, max_eq_right hl.le] at ha
          simp [hl, ha, not_le.2 ha.2]
        · rw [min_eq_right hl.le, max_eq_left hl.le] at ha
          simp [not_lt.2 hl.le, ha]
      · rw [if_neg (fun h => hx h.2), if_neg hx]
    · rw [if_neg (fun h => ha h.1)]
      unfold lowest highest at ha
      simp only at ha ⊢
      have n1 : ¬ (s.seg.target.y ≤ y ∧ y < s.frm.y) := fun h => ha ⟨(min_le_right _ _).trans h.1, h.2.trans_le (le_max_left _ _)⟩
      have n2 : ¬ (s.frm.y ≤ y ∧ y < s.seg.target.y) := fun h => ha ⟨(min_le_left _ _).trans h.1, h.2.trans_le (le_max_right _ _)⟩
      simp only [if_neg n1, if_neg n2, ite_self]
  rw [hs] at key
  exact key

theorem storesLoops_winding {L : List (PathType × Loop K)} {rings : List (Ring K)} (h : StoresLoops L rings)
    (hf : ∀ s ∈ (L.map Prod.snd).flatMap Loop.sides, Fine s) (t : PathType) (X y : K) :
    wnS t ((sides rings).filter (fun s => decide (s.Above y ∧ s.x y < X))) =
      loopWinding ((L.filter (fun p => decide (p.1 = t))).map Prod.snd) X y := by
  rw [wnS_crossing]
  unfold loopWinding sidesWinding
  induction h with
  | nil => rfl
  | @cons p r L rs h1 _ ih =>
    have e : (r.nodes.map (crossing X y)).sum = (p.2.sides.map (curveWinding X y)).sum := by
      rw [← h1.geo, List.map_map]
      congr 1
      refine List.map_congr_left (fun v hv => crossing_curve X y (hf _ ?_))
      rw [List.map_cons, List.flatMap_cons, ← h1.geo]
      exact List.mem_append_left _ (List.mem_map.2 ⟨v, hv, rfl⟩)
    rw [List.map_cons, List.sum_cons, ih (fun s hs => hf s (by rw [List.map_cons, List.flatMap_cons]; exact List.mem_append_right _ hs)), h1.ptype, e,
      List.filter_cons]
    by_cases hp : p.1 = t
    · simp [hp]
    · simp [hp]

theorem addLoops (pt : PathType) (Ls : List (Loop K)) (hc : ∀ l ∈ Ls, l.Closed) (hf : ∀ s ∈ Ls.flatMap Loop.sides, Fine s) (rings : List (Ring K)) :
    ∃ rs, addPaths pt rings (Ls.map (fun l => Path.build l.cmds)) = some (rings ++ rs) ∧ StoresLoops (Ls.map (fun l => (pt, l))) rs := by
  obtain ⟨ds, hds, hok⟩ : ∃ ds : List (Drawn K), Ls.map (fun l => Path.build l.cmds) = (ds.map (fun d => [d])).map (fun ds => Path.build (ds.flatMap Drawn.cmds)) ∧
      (∀ d ∈ ds, d.Ok) ∧ StoresLoops (Ls.map (fun l => (pt, l))) (ds.filterMap (fun d => insertVertexList d.contour pt)) := by
    induction Ls with
    | nil => exact ⟨[], rfl, by simp, List.Forall₂.nil⟩
    | cons l Ls ih =>
      obtain ⟨ds, h1, h2, h3⟩ := ih (fun Q hQ => hc Q (by simp [hQ])) (fun s hs => hf s (by rw [List.flatMap_cons]; exact List.mem_append_right _ hs))
      obtain ⟨r, hr, hS⟩ := intake_loop pt l (hc l (by simp)) (fun s hs => hf s (by rw [List.flatMap_cons]; exact List.mem_append_left _ hs))
      refine ⟨⟨l.start, l.segs.map drawCmd⟩ :: ds, ?_, ?_, ?_⟩
      · rw [List.map_cons, List.map_cons, List.map_cons, h1]
        simp [Drawn.cmds, Loop.cmds]
      · intro d hd
        rcases List.mem_cons.1 hd with rfl | hd
        · intro c hc q
          obtain ⟨x, _, rfl⟩ := List.mem_map.1 hc
          cases x <;> simp [drawCmd]
        · exact h2 d hd
      · rw [List.filterMap_cons, hr, List.map_cons]
        exact List.Forall₂.cons hS h3
  refine ⟨_, ?_, hok.2⟩
  rw [hds, addPaths_spec pt rings _ (by
    intro x hx d hd
    obtain ⟨e, he, rfl⟩ := List.mem_map.1 hx
    rw [List.mem_singleton.1 hd]; exact hok.1 e he)]
  rw [show (ds.map (fun d => [d])).flatten = ds from flatten_singletons ds]

end

end River.Upright
