import Verif.Lemmas.CurvedSide
import Verif.Props.Segment

/-! # Contours that do not cross are not broken -/

namespace River
variable {K : Type}

attribute [local instance 10000] FTrans.toFNum

section
variable [Field K] [LinearOrder K] [IsStrictOrderedRing K] [FTrans K] [LawfulOrd K] [Exact K]

omit [FTrans K] [LawfulOrd K] [Exact K] in
theorem bern_hull {a b c d t lo hi : K} (t0 : 0 ≤ t) (t1 : t ≤ 1) (ha : lo ≤ a ∧ a ≤ hi) (hb : lo ≤ b ∧ b ≤ hi) (hc : lo ≤ c ∧ c ≤ hi)
    (hd : lo ≤ d ∧ d ≤ hi) : lo ≤ bern a b c d t ∧ bern a b c d t ≤ hi := by
  unfold bern
  have k0 : 0 ≤ 1 - t := sub_nonneg.2 t1
  have w1 : 0 ≤ (1 - t) ^ 3 := by positivity
  have w2 : 0 ≤ 3 * (1 - t) ^ 2 * t := by positivity
  have w3 : 0 ≤ 3 * (1 - t) * t ^ 2 := by positivity
  have w4 : 0 ≤ t ^ 3 := by positivity
  have hs : (1 - t) ^ 3 + 3 * (1 - t) ^ 2 * t + 3 * (1 - t) * t ^ 2 + t ^ 3 = 1 := by ring
  constructor
  · have := mul_le_mul_of_nonneg_left ha.1 w1
    have := mul_le_mul_of_nonneg_left hb.1 w2
    have := mul_le_mul_of_nonneg_left hc.1 w3
    have := mul_le_mul_of_nonneg_left hd.1 w4
    have : lo * ((1 - t) ^ 3 + 3 * (1 - t) ^ 2 * t + 3 * (1 - t) * t ^ 2 + t ^ 3) = lo := by rw [hs, mul_one]
    linarith
  · have := mul_le_mul_of_nonneg_left ha.2 w1
    have := mul_le_mul_of_nonneg_left hb.2 w2
    have := mul_le_mul_of_nonneg_left hc.2 w3
    have := mul_le_mul_of_nonneg_left hd.2 w4
    have : hi * ((1 - t) ^ 3 + 3 * (1 - t) ^ 2 * t + 3 * (1 - t) * t ^ 2 + t ^ 3) = hi := by rw [hs, mul_one]
    linarith

/-- The values the bounding box of a curve is made of are within the range of the coordinates of its four points. -/
theorem candidates_hull (c : Cubic K) (sel : Vec2 K → K) (hsel : ∀ t, sel (c.eval t) = bern (sel c.p0) (sel c.p1) (sel c.p2) (sel c.p3) t) {lo hi : K}
    (h : ∀ p ∈ [c.p0, c.p1, c.p2, c.p3], lo ≤ sel p ∧ sel p ≤ hi) :
    (lo ≤ (c.candidates sel).1 ∧ (c.candidates sel).1 ≤ hi) ∧ (lo ≤ (c.candidates sel).2 ∧ (c.candidates sel).2 ≤ hi) := by
  have h0 := h c.p0 (by simp)
  have h1 := h c.p1 (by simp)
  have h2 := h c.p2 (by simp)
  have h3 := h c.p3 (by simp)
  have pt : ∀ t, ((FNum.lit 0 <. t) && (t <. FNum.lit 1)) = true → lo ≤ sel (c.pointAt t) ∧ sel (c.pointAt t) ≤ hi := by
    intro t ht
    simp only [Bool.and_eq_true, lt_eq_decide, decide_eq_true_eq, exact_zero, exact_one] at ht
    rw [pointAt_exact, hsel]
    exact bern_hull ht.1.le ht.2.le h0 h1 h2 h3
  unfold Cubic.candidates
  dsimp only
  split
  · split
    · exact ⟨h0, h3⟩
    · split
      · next ht => exact ⟨pt _ ht, pt _ ht⟩
      · exact ⟨h0, h3⟩
  · split
    · exact ⟨h0, h3⟩
    · refine ⟨?_, ?_⟩
      · dsimp only
        split
        · next ht => exact pt _ ht
        · exact h0
      · dsimp only
        split
        · next ht => exact pt _ ht
        · exact h3

theorem fminmax_hull {a b lo hi : K} (ha : lo ≤ a ∧ a ≤ hi) (hb : lo ≤ b ∧ b ≤ hi) :
    (lo ≤ fmin a b ∧ fmin a b ≤ hi) ∧ (lo ≤ fmax a b ∧ fmax a b ≤ hi) := by
  rw [fmin_eq_min, fmax_eq_max]
  exact ⟨⟨le_min ha.1 hb.1, (min_le_left _ _).trans ha.2⟩, ⟨ha.1.trans (le_max_left _ _), max_le ha.2 hb.2⟩⟩

/-- Every box of numbers that contains the points of a side contains the bounding box computed for it. -/
theorem boundary_hull {p : Vec2 K} {g : Seg K} (hr : ∀ q ∈ sidePoints (p, g), InDoubles q) :
    (g.boundary p).Valid ∧ ∀ lx hx ly hy : K, (∀ q ∈ sidePoints (p, g), lx ≤ q.x ∧ q.x ≤ hx ∧ ly ≤ q.y ∧ q.y ≤ hy) →
      lx ≤ (g.boundary p).min.x ∧ (g.boundary p).max.x ≤ hx ∧ ly ≤ (g.boundary p).min.y ∧ (g.boundary p).max.y ≤ hy := by
  obtain ⟨ps, hps, hne, hb⟩ : ∃ ps : List (Vec2 K), g.boundary p = Rect.of ps ∧ ps ≠ [] ∧
      ∀ lx hx ly hy : K, (∀ q ∈ sidePoints (p, g), lx ≤ q.x ∧ q.x ≤ hx ∧ ly ≤ q.y ∧ q.y ≤ hy) →
        ∀ q ∈ ps, lx ≤ q.x ∧ q.x ≤ hx ∧ ly ≤ q.y ∧ q.y ≤ hy := by
    cases g with
    | line q =>
      refine ⟨[q, p], rfl, by simp, fun lx hx ly hy h z hz => h z ?_⟩
      simp only [List.mem_cons, List.not_mem_nil, or_false] at hz
      simp only [sidePoints, List.mem_cons, List.not_mem_nil, or_false]
      exact hz.symm
    | cubic c1 c2 q =>
      obtain ⟨c, hc⟩ : ∃ c : Cubic K, c = ⟨p, c1, c2, q⟩ := ⟨_, rfl⟩
      refine ⟨_, rfl, by simp, fun lx hx ly hy h z hz => ?_⟩
      rw [show (Seg.getCubic c1 c2 q p) = c from hc.symm] at hz
      have hpts : sidePoints (p, Seg.cubic c1 c2 q) = [c.p0, c.p1, c.p2, c.p3] := by rw [hc]; rfl
      rw [hpts] at h
      obtain ⟨x1, x2⟩ := candidates_hull c Vec2.x (fun t => rfl) (lo := lx) (hi := hx) (fun z hz => ⟨(h z hz).1, (h z hz).2.1⟩)
      obtain ⟨y1, y2⟩ := candidates_hull c Vec2.y (fun t => rfl) (lo := ly) (hi := hy) (fun z hz => ⟨(h z hz).2.2.1, (h z hz).2.2.2⟩)
      obtain ⟨m1, m2⟩ := fminmax_hull x1 x2
      obtain ⟨m3, m4⟩ := fminmax_hull y1 y2
      simp only [List.mem_cons, List.not_mem_nil, or_false] at hz
      rcases hz with rfl | rfl | rfl | rfl
      · exact h _ (by simp)
      · exact h _ (by simp)
      · exact ⟨m1.1, m1.2, m3.1, m3.2⟩
      · exact ⟨m2.1, m2.2, m4.1, m4.2⟩
  have bb := Rect.of_isBBox ps hne (fun q hq => hb _ _ _ _ (fun q hq => hr q hq) q hq)
  rw [hps]
  refine ⟨?_, fun lx hx ly hy h => ?_⟩
  · obtain ⟨q, hq, _⟩ := bb.left
    obtain ⟨a, b, c, d⟩ := bb.mem q hq
    exact ⟨a.trans b, c.trans d⟩
  · obtain ⟨q1, h1, e1⟩ := bb.left
    obtain ⟨q2, h2, e2⟩ := bb.right
    obtain ⟨q3, h3, e3⟩ := bb.bottom
    obtain ⟨q4, h4, e4⟩ := bb.top
    have k := hb lx hx ly hy h
    exact ⟨e1 ▸ (k q1 h1).1, e2 ▸ (k q2 h2).2.1, e3 ▸ (k q3 h3).2.2.1, e4 ▸ (k q4 h4).2.2.2⟩

omit [Field K] [IsStrictOrderedRing K] [FTrans K] [LawfulOrd K] [Exact K] in
theorem exists_top {α : Type} (f : α → K) (l : List α) (h : l ≠ []) : ∃ p ∈ l, ∀ q ∈ l, f q ≤ f p := by
  induction l with
  | nil => exact absurd rfl h
  | cons a l ih =>
    by_cases hl : l = []
    · subst hl; exact ⟨a, by simp, by simp⟩
    · obtain ⟨p, hp, hq⟩ := ih hl
      rcases le_total (f a) (f p) with h1 | h1
      · refine ⟨p, by simp [hp], fun q hq' => ?_⟩
        rcases List.mem_cons.1 hq' with rfl | hq'
        · exact h1
        · exact hq q hq'
      · refine ⟨a, by simp, fun q hq' => ?_⟩
        rcases List.mem_cons.1 hq' with rfl | hq'
        · exact le_rfl
        · exact (hq q hq').trans h1

omit [Field K] [IsStrictOrderedRing K] [FTrans K] [LawfulOrd K] [Exact K] in
theorem exists_low {α : Type} (f : α → K) (l : List α) (h : l ≠ []) : ∃ p ∈ l, ∀ q ∈ l, f p ≤ f q :=
  exists_top (K := Kᵒᵈ) f l h

omit [Field K] [LinearOrder K] [IsStrictOrderedRing K] [FTrans K] [LawfulOrd K] [Exact K] in
theorem sidePoints_ne (s : Vec2 K × Seg K) : sidePoints s ≠ [] := by
  obtain ⟨p, g⟩ := s
  cases g <;> simp [sidePoints]

/-- The smallest box around the points of a side. -/
theorem boundary_tight {p : Vec2 K} {g : Seg K} (hr : ∀ q ∈ sidePoints (p, g), InDoubles q) :
    (∃ q ∈ sidePoints (p, g), (g.boundary p).max.x ≤ q.x) ∧ (∃ q ∈ sidePoints (p, g), q.x ≤ (g.boundary p).min.x) ∧
    (∃ q ∈ sidePoints (p, g), (g.boundary p).max.y ≤ q.y) ∧ ∃ q ∈ sidePoints (p, g), q.y ≤ (g.boundary p).min.y := by
  have hne := sidePoints_ne (p, g)
  obtain ⟨a, ha, ha'⟩ := exists_top Vec2.x _ hne
  obtain ⟨b, hb, hb'⟩ := exists_low Vec2.x _ hne
  obtain ⟨c, hc, hc'⟩ := exists_top Vec2.y _ hne
  obtain ⟨d, hd, hd'⟩ := exists_low Vec2.y _ hne
  obtain ⟨k1, k2, k3, k4⟩ := (boundary_hull hr).2 b.x a.x d.y c.y (fun q hq => ⟨hb' q hq, ha' q hq, hd' q hq, hc' q hq⟩)
  exact ⟨⟨a, ha, k2⟩, ⟨b, hb, k1⟩, ⟨c, hc, k4⟩, d, hd, k3⟩

theorem far_boxes {p p' : Vec2 K} {g g' : Seg K} (h : ∀ q ∈ sidePoints (p, g), InDoubles q) (h' : ∀ q ∈ sidePoints (p', g'), InDoubles q)
    (hf : Far (p, g) (p', g')) : (g.boundary p).intersect (g'.boundary p') = false := by
  rw [Bool.eq_false_iff]
  intro hi
  obtain ⟨m, ⟨a1, a2, a3, a4⟩, b1, b2, b3, b4⟩ := (Rect.intersect_iff _ _ (boundary_hull h).1 (boundary_hull h').1).1 hi
  obtain ⟨⟨q1, m1, e1⟩, ⟨q2, m2, e2⟩, ⟨q3, m3, e3⟩, q4, m4, e4⟩ := boundary_tight h
  obtain ⟨⟨r1, n1, f1⟩, ⟨r2, n2, f2⟩, ⟨r3, n3, f3⟩, r4, n4, f4⟩ := boundary_tight h'
  rcases hf with hf | hf | hf | hf
  · exact absurd (hf q1 m1 r2 n2) (by linarith)
  · exact absurd (hf q2 m2 r1 n1) (by linarith)
  · exact absurd (hf q3 m3 r4 n4) (by linarith)
  · exact absurd (hf q4 m4 r3 n3) (by linarith)

/-! ## sides meet only in ends -/

/-- Two sides do not cross. -/
def Clear2 (s t : Vec2 K × Seg K) : Prop := lowest s < highest t → lowest t < highest s → Beside s t ∨ Beside t s

omit [FTrans K] [LawfulOrd K] [Exact K] [IsStrictOrderedRing K] in
theorem Clear2.symm {s t : Vec2 K × Seg K} (h : Clear2 s t) : Clear2 t s := fun h1 h2 => (h h2 h1).symm

omit [FTrans K] [LawfulOrd K] [Exact K] in
theorem height_range {s : Vec2 K × Seg K} (h : Even s) {a : K} (a0 : 0 ≤ a) (a1 : a ≤ 1) :
    lowest s ≤ (sidePoint s a).y ∧ (sidePoint s a).y ≤ highest s := by
  rw [sidePoint_y h]
  unfold lowest highest
  rcases le_total s.1.y s.2.target.y with hl | hl
  · rw [min_eq_left hl, max_eq_right hl]
    have hd := sub_nonneg.2 hl
    exact ⟨by nlinarith [mul_nonneg a0 hd], by nlinarith [mul_nonneg (sub_nonneg.2 a1) hd]⟩
  · rw [min_eq_right hl, max_eq_left hl]
    have hd := sub_nonneg.2 hl
    exact ⟨by nlinarith [mul_nonneg (sub_nonneg.2 a1) hd], by nlinarith [mul_nonneg a0 hd]⟩

omit [FTrans K] [LawfulOrd K] [Exact K] in
theorem height_end {s : Vec2 K × Seg K} (h : Even s) (hs : s.1.y ≠ s.2.target.y) {a : K} (he : (sidePoint s a).y = lowest s ∨ (sidePoint s a).y = highest s) :
    a = 0 ∨ a = 1 := by
  rw [sidePoint_y h] at he
  have hd : s.2.target.y - s.1.y ≠ 0 := sub_ne_zero.2 hs.symm
  have key : s.1.y + a * (s.2.target.y - s.1.y) = s.1.y ∨ s.1.y + a * (s.2.target.y - s.1.y) = s.2.target.y := by
    unfold lowest highest at he
    rcases le_total s.1.y s.2.target.y with hl | hl
    · rwa [min_eq_left hl, max_eq_right hl] at he
    · rw [min_eq_right hl, max_eq_left hl] at he; exact he.symm
  rcases key with e | e
  · left
    have : a * (s.2.target.y - s.1.y) = 0 := by linear_combination e
    exact (mul_eq_zero.1 this).resolve_right hd
  · right
    have : (a - 1) * (s.2.target.y - s.1.y) = 0 := by linear_combination e
    exact sub_eq_zero.1 ((mul_eq_zero.1 this).resolve_right hd)

omit [FTrans K] [LawfulOrd K] [Exact K] in
theorem abscissa_at {s : Vec2 K × Seg K} (h : Even s) (hs : s.1.y ≠ s.2.target.y) (a : K) : abscissa s (sidePoint s a).y = (sidePoint s a).x := by
  have hd : s.2.target.y - s.1.y ≠ 0 := sub_ne_zero.2 hs.symm
  unfold abscissa
  rw [sidePoint_y h, add_sub_cancel_left, mul_div_cancel_right₀ _ hd]

omit [FTrans K] [LawfulOrd K] [Exact K] in
theorem meet_ends {s t : Vec2 K × Seg K} (hs : Fine s) (ht : Fine t) (h : Clear2 s t) {a b : K} (a0 : 0 ≤ a) (a1 : a ≤ 1) (b0 : 0 ≤ b) (b1 : b ≤ 1)
    (e : sidePoint s a = sidePoint t b) : (a = 0 ∨ a = 1) ∧ (b = 0 ∨ b = 1) := by
  obtain ⟨s1, s2⟩ := height_range hs.even a0 a1
  obtain ⟨t1, t2⟩ := height_range ht.even b0 b1
  have hy : (sidePoint s a).y = (sidePoint t b).y := by rw [e]
  suffices h : ((sidePoint s a).y = lowest s ∨ (sidePoint s a).y = highest s) ∧ ((sidePoint t b).y = lowest t ∨ (sidePoint t b).y = highest t) from
    ⟨height_end hs.even hs.steep h.1, height_end ht.even ht.steep h.2⟩
  by_cases c1 : lowest s < highest t
  · by_cases c2 : lowest t < highest s
    · have ex : abscissa s (sidePoint s a).y = abscissa t (sidePoint s a).y := by
        rw [abscissa_at hs.even hs.steep, hy, abscissa_at ht.even ht.steep, e]
      rcases h c1 c2 with hb | hb
      · rcases (hb _ s1 (hy ▸ t1) s2 (hy ▸ t2)).2 ex with ⟨e1, e2⟩ | ⟨e1, e2⟩
        · exact ⟨Or.inl e1, Or.inl (hy ▸ e2)⟩
        · exact ⟨Or.inr e1, Or.inr (hy ▸ e2)⟩
      · rcases (hb _ (hy ▸ t1) s1 (hy ▸ t2) s2).2 ex.symm with ⟨e1, e2⟩ | ⟨e1, e2⟩
        · exact ⟨Or.inl e2, Or.inl (hy ▸ e1)⟩
        · exact ⟨Or.inr e2, Or.inr (hy ▸ e1)⟩
    · rw [not_lt] at c2
      exact ⟨Or.inr (by linarith), Or.inl (by linarith)⟩
  · rw [not_lt] at c1
    exact ⟨Or.inl (by linarith), Or.inr (by linarith)⟩

/-! ## no breaks -/

theorem nearEnd_inUnit {r : K} (h : NearEnd r) : inUnit r = false := by
  rw [Bool.eq_false_iff, Ne, inUnit_iff]; exact h

omit [Field K] [LinearOrder K] [IsStrictOrderedRing K] [Exact K] [LawfulOrd K] in
theorem pushBreaks_nil (i j : Nat) (l : List (Info K)) (h : ∀ d ∈ l, inUnit d.t0 = false ∧ inUnit d.t1 = false) : pushBreaks i j l = [] := by
  unfold pushBreaks
  rw [List.flatMap_eq_nil_iff]
  intro d hd
  simp [h d hd]

theorem lines_quiet {v w : Vtx K} {q r : Vec2 K} (hv : v.seg = .line q) (hw : w.seg = .line r) (fv : Fine (v.pt, v.seg)) (fw : Fine (w.pt, w.seg))
    (rv : ∀ z ∈ sidePoints (v.pt, v.seg), InDoubles z) (rw' : ∀ z ∈ sidePoints (w.pt, w.seg), InDoubles z)
    (h : Clear2 (v.pt, v.seg) (w.pt, w.seg)) : ∃ l, lineIntersect v.pt q w.pt r = some l ∧ ∀ d ∈ l, inUnit d.t0 = false ∧ inUnit d.t1 = false := by
  rw [hv] at fv rv h
  rw [hw] at fw rw' h
  have ends : ∀ t : K, t = 0 ∨ t = 1 → inUnit t = false := by
    rintro t (rfl | rfl) <;> exact nearEnd_inUnit (by unfold NearEnd; norm_num)
  have key : ∀ d : Info K, 0 ≤ d.t0 → d.t0 ≤ 1 → 0 ≤ d.t1 → d.t1 ≤ 1 → d.p = lerp v.pt q d.t0 → d.p = lerp w.pt r d.t1 →
      inUnit d.t0 = false ∧ inUnit d.t1 = false := by
    intro d a0 a1 b0 b1 e1 e2
    obtain ⟨k1, k2⟩ := meet_ends fv fw h a0 a1 b0 b1 (show lerp v.pt q d.t0 = lerp w.pt r d.t1 by rw [← e1, ← e2])
    exact ⟨ends _ k1, ends _ k2⟩
  by_cases hp : Parallel v.pt q w.pt r
  · have n1 : v.pt ≠ q := fun e => fv.steep (congrArg Vec2.y e)
    have n2 : w.pt ≠ r := fun e => fw.steep (congrArg Vec2.y e)
    obtain ⟨l, e1, e2⟩ := lineIntersect_along hp n1 n2 (rv _ (by simp [sidePoints])) (rv _ (by simp [sidePoints])) (rw' _ (by simp [sidePoints]))
      (rw' _ (by simp [sidePoints]))
    refine ⟨l, e1, fun d hd => ?_⟩
    obtain ⟨a0, a1, b0, b1, p1, p2, _⟩ := e2 d hd
    exact key d a0 a1 b0 b1 p1 p2
  · obtain ⟨l, e1, e2, _⟩ := lineIntersect_exact hp
    refine ⟨l, e1, fun d hd => ?_⟩
    obtain ⟨a0, a1, b0, b1, p1, p2⟩ := e2 d hd
    exact key d a0 a1 b0 b1 p1 p2

theorem intersectVtx_quiet {csort : List (Cell K × Cell K) → List (Cell K × Cell K)} (hc : IsSort csort) (i j : Nat) {v w : Vtx K}
    (fv : Fine (v.pt, v.seg)) (fw : Fine (w.pt, w.seg)) (rv : ∀ z ∈ sidePoints (v.pt, v.seg), InDoubles z)
    (rw' : ∀ z ∈ sidePoints (w.pt, w.seg), InDoubles z) (h : Clear2 (v.pt, v.seg) (w.pt, w.seg))
    (hq : NoReport (v.pt, v.seg) (w.pt, w.seg) ∨ NoReport (w.pt, w.seg) (v.pt, v.seg)) : intersectVtx csort i j v w = some [] := by
  have ne : ∀ l : List (Info K), (∀ d ∈ l, NearEnd d.t0 ∧ NearEnd d.t1) → ∀ i j, pushBreaks i j l = [] := by
    intro l hl i j
    exact pushBreaks_nil i j l (fun d hd => ⟨nearEnd_inUnit (hl d hd).1, nearEnd_inUnit (hl d hd).2⟩)
  unfold intersectVtx
  cases hv : v.seg with
  | line q =>
    cases hw : w.seg with
    | line r =>
      obtain ⟨l, e, hl⟩ := lines_quiet hv hw fv fw rv rw' h
      simp only [e, Option.map_some, pushBreaks_nil i j l hl]
    | cubic d1 d2 r =>
      obtain ⟨l, e, _⟩ := lineCubicIntersect_fits v.pt q (Seg.getCubic d1 d2 r w.pt)
      simp only [e, Option.map_some]
      rw [hv, hw] at hq
      rw [ne l]
      rcases hq with hq | hq <;> exact hq l e
  | cubic c1 c2 q =>
    cases hw : w.seg with
    | line r =>
      obtain ⟨l, e, _⟩ := lineCubicIntersect_fits w.pt r (Seg.getCubic c1 c2 q v.pt)
      simp only [e, Option.map_some]
      rw [hv, hw] at hq
      rw [ne l]
      rcases hq with hq | hq <;> exact hq l e
    | cubic d1 d2 r =>
      rw [hv, hw] at hq
      simp only
      rw [ne]
      rcases hq with hq | hq
      · exact (hq csort hc).1
      · exact (hq csort hc).2

/-- The sides of the vertices do not cross. -/
structure NodesClear (N : List (Vtx K)) : Prop where
  fine : ∀ v ∈ N, Fine (v.pt, v.seg)
  range : ∀ v ∈ N, ∀ z ∈ sidePoints (v.pt, v.seg), InDoubles z
  clear : ∀ (i j : Nat) (v w : Vtx K), i ≠ j → N[i]? = some v → N[j]? = some w → Clear2 (v.pt, v.seg) (w.pt, w.seg)
  quiet : ∀ (i j : Nat) (v w : Vtx K), i ≠ j → N[i]? = some v → N[j]? = some w →
    (Far (v.pt, v.seg) (w.pt, w.seg) ∨ Far (w.pt, w.seg) (v.pt, v.seg)) ∨ NoReport (v.pt, v.seg) (w.pt, w.seg) ∨ NoReport (w.pt, w.seg) (v.pt, v.seg)

theorem collectBreaks_quiet {N : List (Vtx K)} (h : NodesClear N) (env : Env K) (hok : env.Ok) : collectBreaks env N = some [] := by
  obtain ⟨s1, s2, s3⟩ := scanProcess_spec env.segAddr hok.segAddr (N.map (fun v => v.seg.boundary v.pt))
    ⟨⟨FNum.lit 0, FNum.lit 0⟩, ⟨FNum.lit 0, FNum.lit 0⟩⟩
  unfold collectBreaks
  obtain ⟨calls, hcalls⟩ : ∃ calls, calls = scanProcess env.segAddr (N.map (fun v => v.seg.boundary v.pt))
    ⟨⟨FNum.lit 0, FNum.lit 0⟩, ⟨FNum.lit 0, FNum.lit 0⟩⟩ := ⟨_, rfl⟩
  rw [← hcalls] at s1 s2 s3 ⊢
  have hc : ∀ c ∈ calls, ∃ v w, N[c.1]? = some v ∧ N[c.2]? = some w ∧ intersectVtx env.csort c.1 c.2 v w = some [] := by
    intro c hc
    obtain ⟨h1, h2, h3, _⟩ := s2 c.1 c.2 hc
    have hbox := (s3 c.1 c.2 h1 h2 h3).1 (Or.inl hc)
    rw [List.getElem_map, List.getElem_map] at hbox
    rw [List.length_map] at h1 h2
    have hv := List.getElem?_eq_getElem h1
    have hw := List.getElem?_eq_getElem h2
    have mv := List.mem_of_getElem? hv
    have mw := List.mem_of_getElem? hw
    refine ⟨_, _, hv, hw, intersectVtx_quiet hok.csort _ _ (h.fine _ mv) (h.fine _ mw) (h.range _ mv) (h.range _ mw) (h.clear _ _ _ _ h3 hv hw) ?_⟩
    rcases h.quiet _ _ _ _ h3 hv hw with (hf | hf) | hq
    · rw [far_boxes (h.range _ mv) (h.range _ mw) hf] at hbox; cases hbox
    · have hsym := (s3 c.2 c.1 (by simpa using h2) (by simpa using h1) h3.symm).1 (Or.inr hc)
      rw [List.getElem_map, List.getElem_map, far_boxes (h.range _ mw) (h.range _ mv) hf] at hsym; cases hsym
    · exact hq
  clear s1 s2 s3 hcalls
  have : ∀ (l : List (Nat × Nat)), (∀ c ∈ l, c ∈ calls) → l.foldlM (fun acc c =>
      match N[c.1]?, N[c.2]? with
      | some vl, some vr => (intersectVtx env.csort c.1 c.2 vl vr).map (acc ++ ·)
      | _, _ => some acc) [] = some ([] : List (Brk K)) := by
    intro l
    induction l with
    | nil => intro _; rfl
    | cons c l ih =>
      intro hl
      obtain ⟨v, w, e1, e2, e3⟩ := hc c (hl c (by simp))
      rw [List.foldlM_cons]
      simp only [e1, e2, e3, Option.map_some, List.append_nil]
      exact ih (fun c hc => hl c (by simp [hc]))
  exact this calls (fun c hc => hc)

omit [Field K] [LinearOrder K] [IsStrictOrderedRing K] [Exact K] [LawfulOrd K] in
theorem breakRings_none (env : Env K) (hok : env.Ok) (rings : List (Ring K)) (off : Nat) : breakRings env.tsort (breakGroups env []) off rings = rings := by
  have hg : breakGroups env [] = [] := by
    have := (hok.bsort []).1.eq_nil
    unfold breakGroups
    rw [this]
    simp [stdUnique, groupRuns]
  rw [hg]
  induction rings generalizing off with
  | nil => rfl
  | cons r rs ih =>
    rw [breakRings, ih]
    congr 1
    unfold breakRing
    obtain ⟨nodes, pt⟩ := r
    congr 1
    simp only [List.lookup_nil]
    rw [show (fun vi : Vtx K × Nat => [vi.1]) = (fun vi => pure vi.1) from rfl]
    exact (List.flatMap_pure_eq_map _ _).trans (by simp)

theorem processIntersect_quiet {rings : List (Ring K)} (h : NodesClear (allNodes rings)) (env : Env K) (hok : env.Ok) :
    processIntersect env rings = some rings := by
  unfold processIntersect
  rw [collectBreaks_quiet h env hok, Option.map_some, breakRings_none env hok]

end

end River
