import Verif.Spec.Curved
import Verif.Lemmas.PolygonGeneral

/-! # Curved sides with equally spaced heights: abscissa, intake -/

namespace River
variable {K : Type}

attribute [local instance 10000] FTrans.toFNum

section
variable [Field K] [LinearOrder K] [IsStrictOrderedRing K] [FTrans K] [LawfulOrd K] [Exact K]

theorem pointAt_exact (c : Cubic K) (t : K) : c.pointAt t = c.eval t := by
  have l1 : (FNum.lit 1 : K) = 1 := by rw [Exact.lit_eq]; norm_num
  have l3 : (FNum.lit 3 : K) = 3 := by rw [Exact.lit_eq]; norm_num
  unfold Cubic.pointAt Cubic.eval bern
  simp only [Vec2.add, Vec2.smul, Exact.add_eq, Exact.sub_eq, Exact.mul_eq, l1, l3, Vec2.mk.injEq]
  constructor <;> ring

theorem isZero_exact (v : K) : isZero v = true ↔ |v| < 1 / 100000000 := by
  unfold isZero
  simp only [Bool.and_eq_true, lt_eq_decide, decide_eq_true_eq, Exact.neg_eq, Exact.lit_eq]
  rw [abs_lt]
  norm_num

theorem even_heights {p c1 c2 q : Vec2 K} (h : Even (p, Seg.cubic c1 c2 q)) :
    (Cubic.polT3 ⟨p, c1, c2, q⟩).y = 0 ∧ (Cubic.polT2 ⟨p, c1, c2, q⟩).y = 0 ∧ (Cubic.polT1 ⟨p, c1, c2, q⟩).y = q.y - p.y := by
  have l3 : (FNum.lit 3 : K) = 3 := by rw [Exact.lit_eq]; norm_num
  have l6 : (FNum.lit 6 : K) = 6 := by rw [Exact.lit_eq]; norm_num
  obtain ⟨h1, h2⟩ := h
  simp only at h1 h2
  unfold Cubic.polT3 Cubic.polT2 Cubic.polT1
  simp only [Vec2.add, Vec2.sub, Vec2.smul, Exact.add_eq, Exact.sub_eq, Exact.mul_eq, l3, l6, h1, h2]
  refine ⟨?_, ?_, ?_⟩ <;> ring

theorem even_der {p c1 c2 q : Vec2 K} (h : Even (p, Seg.cubic c1 c2 q)) :
    (Cubic.derA ⟨p, c1, c2, q⟩).y = 0 ∧ (Cubic.derB ⟨p, c1, c2, q⟩).y = 0 := by
  have l3 : (FNum.lit 3 : K) = 3 := by rw [Exact.lit_eq]; norm_num
  have l6 : (FNum.lit 6 : K) = 6 := by rw [Exact.lit_eq]; norm_num
  have l9 : (FNum.lit 9 : K) = 9 := by rw [Exact.lit_eq]; norm_num
  have l12 : (FNum.lit 12 : K) = 12 := by rw [Exact.lit_eq]; norm_num
  obtain ⟨h1, h2⟩ := h
  simp only at h1 h2
  unfold Cubic.derA Cubic.derB
  simp only [Vec2.add, Vec2.sub, Vec2.smul, Exact.add_eq, Exact.sub_eq, Exact.mul_eq, l3, l6, l9, l12, h1, h2]
  refine ⟨?_, ?_⟩ <;> ring

theorem even_pieces {p c1 c2 q : Vec2 K} (h : Even (p, Seg.cubic c1 c2 q)) :
    Cubic.readPieces ⟨p, c1, c2, q⟩ = [⟨p, c1, c2, q⟩] := by
  obtain ⟨h1, h2⟩ := even_der h
  have hz : isZero (0 : K) = true := by rw [isZero_exact]; norm_num
  have hs : Cubic.splitY ⟨p, c1, c2, q⟩ = [] := by
    unfold Cubic.splitY
    simp only [h1, h2, hz, if_true]
  unfold Cubic.readPieces
  rw [hs]
  rfl

omit [LinearOrder K] [IsStrictOrderedRing K] [FTrans K] [LawfulOrd K] [Exact K] in
theorem sidePoint_ends (s : Vec2 K × Seg K) : sidePoint s 0 = s.1 ∧ sidePoint s 1 = s.2.target := by
  obtain ⟨p, g⟩ := s
  cases g with
  | line q => simp [sidePoint, lerp, Seg.target]
  | cubic c1 c2 q => simp [sidePoint, Cubic.eval, bern, Seg.target]

omit [LinearOrder K] [IsStrictOrderedRing K] [FTrans K] [LawfulOrd K] [Exact K] in
theorem sidePoint_y [CharZero K] {s : Vec2 K × Seg K} (h : Even s) (r : K) : (sidePoint s r).y = s.1.y + r * (s.2.target.y - s.1.y) := by
  obtain ⟨p, g⟩ := s
  cases g with
  | line q => rfl
  | cubic c1 c2 q =>
    obtain ⟨h1, h2⟩ := h
    simp only at h1 h2
    simp only [sidePoint, Cubic.eval, bern, Seg.target, h1, h2]
    field_simp
    ring

omit [LinearOrder K] [IsStrictOrderedRing K] [FTrans K] [LawfulOrd K] [Exact K] in
theorem abscissa_ends {s : Vec2 K × Seg K} (h : s.1.y ≠ s.2.target.y) : abscissa s s.1.y = s.1.x ∧ abscissa s s.2.target.y = s.2.target.x := by
  unfold abscissa
  rw [sub_self, zero_div, div_self (sub_ne_zero.2 h.symm), (sidePoint_ends s).1, (sidePoint_ends s).2]
  exact ⟨rfl, rfl⟩

/-- What is asked of one side. -/
structure Fine (s : Vec2 K × Seg K) : Prop where
  steep : s.1.y ≠ s.2.target.y
  tall : s.2.isCubic = true → 1 / 100000000 ≤ |s.2.target.y - s.1.y|
  even : Even s

omit [FTrans K] [LawfulOrd K] [Exact K] in
theorem param_unit {a b y : K} (h : a ≠ b) (h1 : min a b ≤ y) (h2 : y ≤ max a b) : 0 ≤ (y - a) / (b - a) ∧ (y - a) / (b - a) ≤ 1 := by
  rcases lt_or_gt_of_ne h with hl | hl
  · rw [min_eq_left hl.le] at h1
    rw [max_eq_right hl.le] at h2
    have hp := sub_pos.2 hl
    exact ⟨div_nonneg (sub_nonneg.2 h1) hp.le, (div_le_one hp).2 (by linarith)⟩
  · rw [min_eq_right hl.le] at h1
    rw [max_eq_left hl.le] at h2
    have hp := sub_neg.2 hl
    exact ⟨div_nonneg_of_nonpos (by linarith) hp.le, (div_le_one_of_neg hp).2 (by linarith)⟩

theorem currX_fine {p : Vec2 K} {g : Seg K} (h : Fine (p, g)) {y : K} (h1 : min p.y g.target.y ≤ y) (h2 : y ≤ max p.y g.target.y) :
    g.currX p y = abscissa (p, g) y := by
  have hst : p.y ≠ g.target.y := h.steep
  cases g with
  | line q =>
    simp only [Seg.target] at hst
    simp only [Seg.currX, Seg.linX, abscissa, sidePoint, lerp, Seg.target, Exact.add_eq, Exact.sub_eq, Exact.mul_eq, Exact.div_eq]
    rw [mul_comm (q.x - p.x), add_comm, div_mul_eq_mul_div]
  | cubic c1 c2 q =>
    obtain ⟨e3, e2, e1⟩ := even_heights h.even
    have hz : isZero (0 : K) = true := by rw [isZero_exact]; norm_num
    have hd : isZero (q.y - p.y) = false := by
      rw [Bool.eq_false_iff, Ne, isZero_exact, not_lt]
      exact h.tall rfl
    obtain ⟨u0, u1⟩ := param_unit hst h1 h2
    simp only [Seg.target] at u0 u1
    have hr : Cubic.pointAtY ⟨p, c1, c2, q⟩ y = [(y - p.y) / (q.y - p.y)] := by
      unfold Cubic.pointAtY
      rw [e3, e2, e1]
      unfold resolvCubic resolvQuad
      simp only [hz, hd, if_true, Bool.false_eq_true, if_false, Exact.neg_eq, Exact.div_eq, Exact.add_eq]
      rw [show -(p.y + -y) = y - p.y by ring]
      rw [List.filter_cons_of_pos]
      · rfl
      · simp only [Bool.and_eq_true, le_eq_decide, decide_eq_true_eq, exact_zero, exact_one]
        exact ⟨u0, u1⟩
    simp only [Seg.currX, Seg.getCubic, hr, pointAt_exact]
    rfl

theorem Side.x_fine {s : Side K} (h : Fine (s.frm, s.seg)) {y : K} (h1 : lowest (s.frm, s.seg) ≤ y) (h2 : y ≤ highest (s.frm, s.seg)) :
    s.x y = abscissa (s.frm, s.seg) y := by
  have hst : s.frm.y ≠ s.seg.target.y := h.steep
  obtain ⟨a1, a2⟩ := abscissa_ends (s := (s.frm, s.seg)) hst
  have hb : s.bot = s.frm ∧ s.top = s.seg.target ∨ s.bot = s.seg.target ∧ s.top = s.frm := by
    unfold Side.bot Side.top
    cases s.up <;> simp
  unfold Side.x
  split
  · next e =>
    rw [e]
    rcases hb with ⟨hb, _⟩ | ⟨hb, _⟩ <;> rw [hb]
    · exact a1.symm
    · exact a2.symm
  · split
    · next e =>
      rw [e]
      rcases hb with ⟨_, hb⟩ | ⟨_, hb⟩ <;> rw [hb]
      · exact a2.symm
      · exact a1.symm
    · exact currX_fine h h1 h2

omit [Field K] [IsStrictOrderedRing K] [FTrans K] [LawfulOrd K] [Exact K] in
theorem Side.ends_y (s : Side K) : s.bot.y = lowest (s.frm, s.seg) ∧ s.top.y = highest (s.frm, s.seg) ∧ s.bot = foot (s.frm, s.seg) := by
  unfold Side.bot Side.top Side.up lowest highest foot
  simp only [decide_eq_true_eq]
  by_cases h : s.frm.y < s.seg.target.y
  · simp only [if_pos h, min_eq_left h.le, max_eq_right h.le, and_self]
  · simp only [if_neg h, min_eq_right (not_lt.1 h), max_eq_left (not_lt.1 h), and_self]

omit [Field K] [IsStrictOrderedRing K] [LawfulOrd K] [Exact K] in
theorem Side.ends_x {s : Side K} : s.x s.bot.y = s.bot.x ∧ (¬ s.Flat → s.x s.top.y = s.top.x) := by
  unfold Side.x
  refine ⟨if_pos rfl, fun h => ?_⟩
  split
  · next e =>
    exfalso
    apply h
    unfold Side.Flat
    unfold Side.bot Side.top at e
    cases hu : s.up <;> simp [hu] at e
    · exact e
    · exact e.symm
  · exact if_pos rfl

theorem leftOf_of_beside {s t : Side K} (hs : Fine (s.frm, s.seg)) (ht : Fine (t.frm, t.seg)) (h : Beside (s.frm, s.seg) (t.frm, t.seg)) :
    LeftOf s t := by
  intro y h1 h2 h3 h4
  obtain ⟨s1, s2, _⟩ := s.ends_y
  obtain ⟨t1, t2, _⟩ := t.ends_y
  rw [s1] at h1
  rw [t1] at h2
  rw [s2] at h3
  rw [t2] at h4
  obtain ⟨b1, b2⟩ := h y h1 h2 h3 h4
  have es := Side.x_fine hs h1 h3
  have et := Side.x_fine ht h2 h4
  rw [es, et]
  refine ⟨b1, fun e => ?_⟩
  have fs : ¬ s.Flat := hs.steep
  have ft : ¬ t.Flat := ht.steep
  rcases b2 e with ⟨e1, e2⟩ | ⟨e1, e2⟩
  · left
    refine ⟨?_, by rw [s1]; exact e1⟩
    have x1 := (Side.ends_x (s := s)).1
    have x2 := (Side.ends_x (s := t)).1
    rw [s1, ← e1, es] at x1
    rw [t1, ← e2, et] at x2
    exact Vec2.ext_iff.2 ⟨by rw [← x1, ← x2, e], by rw [s1, t1, ← e1, ← e2]⟩
  · right
    refine ⟨?_, by rw [s2]; exact e1⟩
    have x1 := (Side.ends_x (s := s)).2 fs
    have x2 := (Side.ends_x (s := t)).2 ft
    rw [s2, ← e1, es] at x1
    rw [t2, ← e2, et] at x2
    exact Vec2.ext_iff.2 ⟨by rw [← x1, ← x2, e], by rw [s2, t2, ← e1, ← e2]⟩

/-! ## intake -/

theorem bodySegs_fine (p : Vec2 K) (segs : List (Seg K)) (h : ∀ s ∈ chain p segs, Fine s) : bodySegs p (segs.map drawCmd) = segs := by
  induction segs generalizing p with
  | nil => rfl
  | cons g segs ih =>
    have hg : Fine (p, g) := h _ (by simp [chain])
    have hst : p.y ≠ g.target.y := hg.steep
    have hne : p ≠ g.target := fun e => hst (congrArg Vec2.y e)
    have iht := ih g.target (fun s hs => h s (by simp [chain, hs]))
    rw [bodySegs] at iht ⊢
    rw [List.map_cons, bodyEdges, List.map_append]
    have htg : (drawCmd g).target = g.target := by cases g <;> rfl
    rw [htg, iht]
    have : (cmdEdges p (drawCmd g)).map Prod.snd = [g] := by
      cases g with
      | line q =>
        have hb : Vec2.bne p q = true := by
          rw [Vec2.bne, Bool.not_eq_true', Bool.eq_false_iff]
          intro hb
          exact hne ((Vec2.beq_iff p q).mp hb)
        simp [drawCmd, cmdEdges, hb]
      | cubic c1 c2 q =>
        obtain ⟨e1, e2⟩ := hg.even
        simp only at e1 e2
        have hc : ((p.y ==. c1.y) && (c1.y ==. c2.y) && (c2.y ==. q.y)) = false := by
          rw [Bool.eq_false_iff]
          intro hc
          simp only [Bool.and_eq_true, eq_eq_decide, decide_eq_true_eq] at hc
          exact hst (hc.1.1.trans (hc.1.2.trans hc.2))
        simp only [drawCmd, cmdEdges, hc, Bool.false_eq_true, if_false, even_pieces hg.even, List.map_cons, List.map_nil]
    rw [this]; rfl

omit [Field K] [LinearOrder K] [IsStrictOrderedRing K] [FTrans K] [LawfulOrd K] [Exact K] in
theorem chain_zip (p : Vec2 K) (segs : List (Seg K)) : (p :: segs.map Seg.target).zip segs = chain p segs := by
  induction segs generalizing p with
  | nil => rfl
  | cons g segs ih => rw [List.map_cons, List.zip_cons_cons, ih]; rfl

/-- The ring `r` stores the contour `l`. -/
structure StoresLoop [LT K] (pt : PathType) (l : Loop K) (r : Ring K) : Prop where
  ptype : r.ptype = pt
  geo : r.nodes.map (fun v => (v.pt, v.seg)) = l.sides
  linked : Linked r.nodes
  flags : ∀ Y : ℤ → K, IsCyc (r.nodes.map Vtx.y) Y → ∀ (i : Nat) (v : Vtx K), r.nodes[i]? = some v →
    (v.lmin = true ↔ LocalMin Y i) ∧ (v.lmax = true ↔ LocalMax Y i)

theorem intake_loop (pt : PathType) (l : Loop K) (hc : l.Closed) (h : ∀ s ∈ l.sides, Fine s) :
    ∃ r, insertVertexList (Drawn.contour ⟨l.start, l.segs.map drawCmd⟩) pt = some r ∧ StoresLoop pt l r := by
  obtain ⟨p, segs⟩ := l
  obtain ⟨last, hl, he⟩ := hc
  simp only at hl he
  have hcon : Drawn.contour (⟨p, segs.map drawCmd⟩ : Drawn K) = ⟨p, segs⟩ := by
    unfold Drawn.contour
    rw [bodySegs_fine p segs h]
  rw [hcon]
  have hlen : segs.length ≠ 1 := by
    intro h1
    obtain ⟨g, rfl⟩ := List.length_eq_one_iff.1 h1
    have : g = last := by simpa using hl
    subst this
    exact (h (p, g) (by simp [Loop.sides, chain])).steep (congrArg Vec2.y he.symm)
  have hb : Vec2.bne p p = false := by
    rw [Vec2.bne, (Vec2.beq_iff p p).mpr rfl]; rfl
  have hcc : closeContour ⟨p, segs⟩ = some ((chain p segs).map (fun q => (⟨q.1, q.2, false, false⟩ : Vtx K))) := by
    unfold closeContour
    simp only [hl, hb, Bool.false_eq_true, if_false, if_neg hlen, he, chain_zip]
  have hsome : insertVertexList ⟨p, segs⟩ pt ≠ none := by
    rw [Ne, insertVertexList_none_iff]
    intro hall
    have := hall _ hcc
    cases segs with
    | nil => simp at hl
    | cons g segs =>
      cases segs with
      | nil => simp at hlen
      | cons g' segs =>
        have e := this ⟨p, g, false, false⟩ (by simp [chain]) ⟨g.target, g', false, false⟩ (by simp [chain])
        exact (h (p, g) (by simp [Loop.sides, chain])).steep e
  cases hr : insertVertexList ⟨p, segs⟩ pt with
  | none => exact absurd hr hsome
  | some r =>
    obtain ⟨nodes, n1, n2, n3⟩ := insertVertexList_nodes _ pt r hr
    rw [hcc] at n1
    obtain ⟨_, _, hlink⟩ := closeContour_spec _ _ hcc
    cases Option.some.inj n1
    refine ⟨r, rfl, n3, ?_, ?_, insertVertexList_flags _ pt r hr⟩
    · rw [n2, List.map_map]
      simp [Function.comp_def, Loop.sides]
    · have hlen2 : r.nodes.length = ((chain p segs).map (fun q => (⟨q.1, q.2, false, false⟩ : Vtx K))).length := by
        have := congrArg List.length n2
        simpa using this
      intro i v w hv hw
      have key : ∀ {j : Nat} {v : Vtx K}, r.nodes[j]? = some v → ∃ v', ((chain p segs).map (fun q => (⟨q.1, q.2, false, false⟩ : Vtx K)))[j]? = some v' ∧
          v'.pt = v.pt ∧ v'.seg = v.seg := by
        intro j v hv
        have e := congrArg (fun l => l[j]?) n2
        simp only [List.getElem?_map, hv, Option.map_some] at e
        obtain ⟨v', hv', e'⟩ := Option.map_eq_some_iff.1 e.symm
        exact ⟨v', by rw [List.getElem?_map]; exact hv', congrArg Prod.fst e', congrArg Prod.snd e'⟩
      obtain ⟨v', a1, a2, a3⟩ := key hv
      obtain ⟨w', b1, b2, b3⟩ := key hw
      rw [hlen2] at b1
      rw [← a3, ← b2]
      exact hlink i v' w' a1 b1

end

end River
