import Verif.Lemmas.GeneralArranged

/-! # Contours in general position are arranged once they have been broken -/

namespace River
variable {K : Type}

attribute [local instance 10000] FTrans.toFNum

variable [Field K] [LinearOrder K] [IsStrictOrderedRing K] [FTrans K] [LawfulOrd K] [Exact K]

/-- The break records are those of the exact intersections. -/
structure ExactBreaks (N : List (Vtx K)) (brks : List (Brk K)) : Prop where
  sound : ∀ b ∈ brks, ∃ v, N[b.vert]? = some v ∧ inUnit b.t = true ∧ b.pt = lerp v.pt v.seg.target b.t ∧ ∃ w ∈ N, Source v w b.pt
  complete : ∀ (i j : Nat) (v w : Vtx K), i ≠ j → N[i]? = some v → N[j]? = some w → ¬ Parallel v.pt v.seg.target w.pt w.seg.target →
    ∀ a b, 0 ≤ a → a ≤ 1 → 0 ≤ b → b ≤ 1 → lerp v.pt v.seg.target a = lerp w.pt w.seg.target b → inUnit a = true →
      (⟨i, lerp v.pt v.seg.target a, a⟩ : Brk K) ∈ brks

omit [IsStrictOrderedRing K] [LawfulOrd K] [Exact K] in
theorem ExactBreaks.functional {N : List (Vtx K)} {brks : List (Brk K)} (h : ExactBreaks N brks) : Functional brks := by
  intro a ha b hb e1 e2
  obtain ⟨v, v1, _, v3, _⟩ := h.sound a ha
  obtain ⟨w, w1, _, w3, _⟩ := h.sound b hb
  rw [e1, w1] at v1
  cases Option.some.inj v1
  obtain ⟨_, _, _⟩ := a
  obtain ⟨_, _, _⟩ := b
  simp only at e1 e2 v3 w3
  subst e1; subst e2
  rw [v3, w3]

/-- `c` are the pieces of vertex `n`, the vertex `v`. -/
def PieceOf (brks : List (Brk K)) (n : Nat) (v : Vtx K) (c : List (Vtx K)) : Prop :=
  ∃ ts, Pieces v ts c ∧ ∀ t, t ∈ ts ↔ ∃ p, (⟨n, p, t⟩ : Brk K) ∈ brks

theorem pieceOf {N : List (Vtx K)} {brks : List (Brk K)} (hN : NodesOk N) (h : ExactBreaks N brks) {n : Nat} {v : Vtx K} {cuts : List (Vec2 K × K)}
    {c : List (Vtx K)} (hv : N[n]? = some v) (hc : IsCuts brks n cuts) (hch : Chain v cuts c) : PieceOf brks n v c := by
  refine ⟨cuts.map Prod.snd, hch.pieces (hN.line v (List.mem_of_getElem? hv)) (hc.2.2 h.functional) ?_, ?_⟩
  · rintro ⟨p, t⟩ hx
    obtain ⟨w, w1, w2, w3, _⟩ := h.sound _ ((hc.2.1 p t).1 hx)
    simp only at w1 w2 w3
    rw [hv] at w1
    cases Option.some.inj w1
    rw [inUnit_iff] at w2
    have : (0 : K) < 1 / 1000000 := by norm_num
    exact ⟨by simp only; linarith [w2.1], by simp only; linarith [w2.2], w3⟩
  · intro t
    rw [List.mem_map]
    constructor
    · rintro ⟨⟨p, t'⟩, hx, rfl⟩
      exact ⟨p, (hc.2.1 p t').1 hx⟩
    · rintro ⟨p, hx⟩
      exact ⟨(p, t), (hc.2.1 p t).2 hx, rfl⟩

omit [FTrans K] [LawfulOrd K] [Exact K] [LinearOrder K] [IsStrictOrderedRing K] in
theorem Parallel.swap {p0 p1 p2 p3 : Vec2 K} (h : Parallel p2 p3 p0 p1) : Parallel p0 p1 p2 p3 := by
  unfold Parallel at h ⊢
  linear_combination -h

omit [FTrans K] [LawfulOrd K] [Exact K] [LinearOrder K] [IsStrictOrderedRing K] in
/-- Parallel proper segments: the second direction is a multiple of the first. -/
theorem Parallel.factor {p0 p1 p2 p3 : Vec2 K} (h : Parallel p0 p1 p2 p3) (h01 : p0 ≠ p1) :
    ∃ c : K, p3.x - p2.x = c * (p1.x - p0.x) ∧ p3.y - p2.y = c * (p1.y - p0.y) := by
  unfold Parallel at h
  by_cases hx : p1.x - p0.x = 0
  · have hy : p1.y - p0.y ≠ 0 := by
      intro hy
      exact h01 (Vec2.ext (sub_eq_zero.1 hx).symm (sub_eq_zero.1 hy).symm)
    rw [hx, zero_mul] at h
    have h0 : p3.x - p2.x = 0 := (mul_eq_zero.1 h.symm).resolve_left hy
    exact ⟨(p3.y - p2.y) / (p1.y - p0.y), by rw [h0, hx, mul_zero], by field_simp⟩
  · refine ⟨(p3.x - p2.x) / (p1.x - p0.x), by field_simp, ?_⟩
    field_simp
    linear_combination h

omit [FTrans K] [LawfulOrd K] [Exact K] [LinearOrder K] [IsStrictOrderedRing K] in
theorem Parallel.trans {p0 p1 p2 p3 p4 p5 : Vec2 K} (h : Parallel p0 p1 p2 p3) (h' : Parallel p2 p3 p4 p5) (h23 : p2 ≠ p3) : Parallel p0 p1 p4 p5 := by
  obtain ⟨c, c1, c2⟩ := h.swap.factor h23
  obtain ⟨d, d1, d2⟩ := h'.factor h23
  unfold Parallel
  rw [c1, c2, d1, d2]; ring

/-- A common point of two segments that are not parallel is a cut or an end of the first. -/
theorem cut_mem {N : List (Vtx K)} {brks : List (Brk K)} (hN : NodesOk N) (h : ExactBreaks N brks) {n : Nat} {v w : Vtx K}
    (hv : N[n]? = some v) (hw : w ∈ N) {ts : List K} (hts : ∀ t, t ∈ ts ↔ ∃ p, (⟨n, p, t⟩ : Brk K) ∈ brks) {a b : K}
    (a0 : 0 ≤ a) (a1 : a ≤ 1) (b0 : 0 ≤ b) (b1 : b ≤ 1) (e : lerp v.pt v.seg.target a = lerp w.pt w.seg.target b)
    (hnp : ¬ Parallel v.pt v.seg.target w.pt w.seg.target) : a ∈ 0 :: (ts ++ [1]) := by
  obtain ⟨m, hw⟩ := List.getElem?_of_mem hw
  have hne : n ≠ m := by
    rintro rfl
    rw [hv] at hw
    cases Option.some.inj hw
    apply hnp
    unfold Parallel; ring
  have hc := (hN.meet n m v w hne hv hw hnp a b a0 a1 b0 b1 e).1
  by_cases h01 : a = 0 ∨ a = 1
  · rcases h01 with rfl | rfl <;> simp
  · have hu : inUnit a = true := by
      rw [inUnit_iff]
      rcases hc with h | h | h
      · exact absurd (Or.inl h) h01
      · exact absurd (Or.inr h) h01
      · exact h
    have := h.complete n m v w hne hv hw hnp a b a0 a1 b0 b1 e hu
    exact List.mem_cons_of_mem _ (List.mem_append_left _ ((hts a).2 ⟨_, this⟩))

/-- A cut or an end of a segment that lies on a parallel one is a cut or an end of that, too. -/
theorem cut_along {N : List (Vtx K)} {brks : List (Brk K)} (hN : NodesOk N) (h : ExactBreaks N brks) {n m : Nat} {v w : Vtx K}
    (hv : N[n]? = some v) (hw : N[m]? = some w) {ts ts' : List K} (hts : ∀ t, t ∈ ts ↔ ∃ p, (⟨n, p, t⟩ : Brk K) ∈ brks)
    (hts' : ∀ t, t ∈ ts' ↔ ∃ p, (⟨m, p, t⟩ : Brk K) ∈ brks) (hp : Parallel v.pt v.seg.target w.pt w.seg.target) (hl : w.pt.y ≠ w.seg.target.y)
    {a b : K} (ha : a ∈ 0 :: (ts ++ [1])) (b0 : 0 ≤ b) (b1 : b ≤ 1) (e : lerp v.pt v.seg.target a = lerp w.pt w.seg.target b) :
    b ∈ 0 :: (ts' ++ [1]) := by
  have mv := List.mem_of_getElem? hv
  have mw := List.mem_of_getElem? hw
  -- an end of a parallel segment
  have fin : ∀ u ∈ N, Parallel u.pt u.seg.target w.pt w.seg.target → (lerp w.pt w.seg.target b = u.pt ∨ lerp w.pt w.seg.target b = u.seg.target) →
      b ∈ 0 :: (ts' ++ [1]) := by
    intro u hu hpu he
    by_cases h01 : b = 0 ∨ b = 1
    · rcases h01 with rfl | rfl <;> simp
    have hin : InsideSeg (lerp w.pt w.seg.target b) w.pt w.seg.target := by
      refine ⟨⟨b, b0, b1, rfl⟩, fun q => h01 (Or.inl ?_), fun q => h01 (Or.inr ?_)⟩
      · exact lerp_inj (hN.proper w mw) (q.trans (lerp_zero _ _).symm)
      · exact lerp_inj (hN.proper w mw) (q.trans (lerp_one _ _).symm)
    obtain ⟨z, z1, z2, c, c0, c1, ec⟩ := hN.along u hu w mw hl hpu _ he hin
    exact cut_mem hN h hw z1 hts' b0 b1 c0 c1 ec (fun q => z2 q.swap)
  rcases List.mem_cons.1 ha with rfl | ha
  · exact fin v mv hp (Or.inl (by rw [← e, lerp_zero]))
  rcases List.mem_append.1 ha with ha | ha
  · obtain ⟨p, hb⟩ := (hts a).1 ha
    obtain ⟨v', v1, _, v3, u, hu, ⟨c, c0, c1, ec⟩, hs⟩ := h.sound _ hb
    simp only at v1 v3 ec hs
    rw [hv] at v1
    cases Option.some.inj v1
    by_cases hpu : Parallel v.pt v.seg.target u.pt u.seg.target
    · refine fin u hu (hpu.swap.trans hp (hN.proper v mv)) ?_
      rw [← e, ← v3]; exact hs hpu
    · refine cut_mem hN h hw hu hts' b0 b1 c0 c1 ?_ (fun q => hpu (hp.trans q (hN.proper w mw)))
      rw [← e, ← v3]; exact ec
  · rw [List.mem_singleton.1 ha] at e
    exact fin v mv hp (Or.inr (by rw [← e, lerp_one]))

omit [FTrans K] [LawfulOrd K] [Exact K] in
/-- Two intervals, the second seen through an affine map, that overlap and have no ends inside each other. -/
theorem interval_match {a b a' b' s t c τ : K} (hc : c ≠ 0) (h1 : a < τ) (h2 : τ < b) {r : K} (r1 : a' ≤ r) (r2 : r ≤ b') (er : s + (r - t) * c = τ)
    (H1 : ∀ q, q = a' ∨ q = b' → a ≤ s + (q - t) * c → s + (q - t) * c ≤ b → s + (q - t) * c = a ∨ s + (q - t) * c = b)
    (H2 : ∀ q, a' ≤ q → q ≤ b' → s + (q - t) * c = a ∨ s + (q - t) * c = b → q = a' ∨ q = b') :
    (s + (a' - t) * c = a ∧ s + (b' - t) * c = b) ∨ (s + (a' - t) * c = b ∧ s + (b' - t) * c = a) := by
  have inv : ∀ x : K, s + (t + (x - s) / c - t) * c = x := by
    intro x
    field_simp
    ring
  rcases lt_or_gt_of_ne hc with neg | pos
  · right
    have m1 : τ ≤ s + (a' - t) * c := by nlinarith
    have m2 : s + (b' - t) * c ≤ τ := by nlinarith
    have q1 : b ≤ s + (a' - t) * c := by
      by_contra hlt
      rw [not_le] at hlt
      rcases H1 a' (Or.inl rfl) (h1.le.trans m1) hlt.le with e | e <;> linarith
    have q2 : s + (b' - t) * c ≤ a := by
      by_contra hlt
      rw [not_le] at hlt
      rcases H1 b' (Or.inr rfl) hlt.le (m2.trans h2.le) with e | e <;> linarith
    have mono : ∀ x y : K, s + (x - t) * c ≤ s + (y - t) * c → y ≤ x := by
      intro x y hxy
      by_contra hlt
      rw [not_le] at hlt
      nlinarith
    constructor
    · rcases H2 (t + (b - s) / c) (mono _ _ (by rw [inv]; exact q1)) (mono _ _ (by rw [inv]; linarith)) (Or.inr (inv b)) with e | e
      · rw [← e, inv]
      · exfalso
        have := inv b
        rw [e] at this
        linarith
    · rcases H2 (t + (a - s) / c) (mono _ _ (by rw [inv]; linarith)) (mono _ _ (by rw [inv]; exact q2)) (Or.inl (inv a)) with e | e
      · exfalso
        have := inv a
        rw [e] at this
        linarith
      · rw [← e, inv]
  · left
    have m1 : s + (a' - t) * c ≤ τ := by nlinarith
    have m2 : τ ≤ s + (b' - t) * c := by nlinarith
    have q1 : s + (a' - t) * c ≤ a := by
      by_contra hlt
      rw [not_le] at hlt
      rcases H1 a' (Or.inl rfl) hlt.le (m1.trans h2.le) with e | e <;> linarith
    have q2 : b ≤ s + (b' - t) * c := by
      by_contra hlt
      rw [not_le] at hlt
      rcases H1 b' (Or.inr rfl) (h1.le.trans m2) hlt.le with e | e <;> linarith
    have mono : ∀ x y : K, s + (x - t) * c ≤ s + (y - t) * c → x ≤ y := by
      intro x y hxy
      by_contra hlt
      rw [not_le] at hlt
      nlinarith
    constructor
    · rcases H2 (t + (a - s) / c) (mono _ _ (by rw [inv]; exact q1)) (mono _ _ (by rw [inv]; linarith)) (Or.inl (inv a)) with e | e
      · rw [← e, inv]
      · exfalso
        have := inv a
        rw [e] at this
        linarith
    · rcases H2 (t + (b - s) / c) (mono _ _ (by rw [inv]; linarith)) (mono _ _ (by rw [inv]; exact q2)) (Or.inr (inv b)) with e | e
      · exfalso
        have := inv b
        rw [e] at this
        linarith
      · rw [← e, inv]

omit [FTrans K] [LawfulOrd K] [Exact K] in
theorem SubPiece.ys {A w : Vtx K} {a b : K} (h : SubPiece A w a b) :
    w.pt.y = A.pt.y + a * (A.seg.target.y - A.pt.y) ∧ w.seg.target.y = A.pt.y + b * (A.seg.target.y - A.pt.y) := by
  rw [h.pt, h.seg]
  exact ⟨rfl, rfl⟩

/-- Two vertices whose segments, unless both are horizontal, have the same ends or meet in ends only. -/
def PiecesOk (x y : Vtx K) : Prop :=
  (x.pt.y = x.seg.target.y ∧ y.pt.y = y.seg.target.y) ∨
    ((x.pt = y.pt ∧ x.seg.target = y.seg.target) ∨ (x.pt = y.seg.target ∧ x.seg.target = y.pt)) ∨ EndsOnly x y

/-- Pieces of different segments. -/
theorem pieces_across {N : List (Vtx K)} {brks : List (Brk K)} (hN : NodesOk N) (h : ExactBreaks N brks) {n m : Nat} {v w : Vtx K}
    (hv : N[n]? = some v) (hw : N[m]? = some w) {c d : List (Vtx K)} (hc : PieceOf brks n v c) (hd : PieceOf brks m w d) {x y : Vtx K}
    (hx : x ∈ c) (hy : y ∈ d) : PiecesOk x y := by
  have mv := List.mem_of_getElem? hv
  have mw := List.mem_of_getElem? hw
  obtain ⟨ts, p1, p2⟩ := hc
  obtain ⟨ts', q1, q2⟩ := hd
  obtain ⟨k, hk⟩ := List.getElem?_of_mem hx
  obtain ⟨l, hl⟩ := List.getElem?_of_mem hy
  obtain ⟨a, b, ha, hb, hw1⟩ := p1.piece k x hk
  obtain ⟨a', b', ha', hb', hw2⟩ := q1.piece l y hl
  by_cases hp : Parallel v.pt v.seg.target w.pt w.seg.target
  · obtain ⟨f, f1, f2⟩ := hp.factor (hN.proper v mv)
    have hf0 : f ≠ 0 := by
      rintro rfl
      rw [zero_mul, sub_eq_zero] at f1 f2
      exact hN.proper w mw (Vec2.ext f1.symm f2.symm)
    have yv := (hw1.ys)
    have yw := (hw2.ys)
    by_cases hflat : w.pt.y = w.seg.target.y
    · left
      have d2 : v.seg.target.y - v.pt.y = 0 := by
        rw [hflat, sub_self] at f2
        exact (mul_eq_zero.1 f2.symm).resolve_left hf0
      rw [yv.1, yv.2, yw.1, yw.2, d2, hflat, sub_self, mul_zero, mul_zero, mul_zero, mul_zero]
      exact ⟨rfl, rfl⟩
    have hflatv : v.pt.y ≠ v.seg.target.y := by
      intro e
      rw [e, sub_self, mul_zero, sub_eq_zero] at f2
      exact hflat f2.symm
    right
    by_cases hne : EndsOnly x y
    · exact Or.inr hne
    left
    -- a common point that is an inner point of one of the two
    have ma := List.mem_of_getElem? ha
    have mb := List.mem_of_getElem? hb
    have ma' := List.mem_of_getElem? ha'
    have mb' := List.mem_of_getElem? hb'
    obtain ⟨p, px, py, hpe⟩ : ∃ p, OnSeg p x.pt x.seg.target ∧ OnSeg p y.pt y.seg.target ∧
        ¬ ((p = x.pt ∨ p = x.seg.target) ∧ (p = y.pt ∨ p = y.seg.target)) := by
      unfold EndsOnly at hne
      push Not at hne
      obtain ⟨p, h1, h2, h3⟩ := hne
      exact ⟨p, h1, h2, fun q => absurd q.2 (by have := h3 q.1; tauto)⟩
    obtain ⟨τ, t0, t1, e⟩ := (hw1.onSeg p).1 px
    obtain ⟨r, r0, r1, e'⟩ := (hw2.onSeg p).1 py
    -- points of the second segment as points of the first
    have conv : ∀ q, lerp w.pt w.seg.target q = lerp v.pt v.seg.target (τ + (q - r) * f) := by
      intro q
      have ex : v.pt.x + τ * (v.seg.target.x - v.pt.x) = w.pt.x + r * (w.seg.target.x - w.pt.x) := congrArg Vec2.x (e.symm.trans e')
      have ey : v.pt.y + τ * (v.seg.target.y - v.pt.y) = w.pt.y + r * (w.seg.target.y - w.pt.y) := congrArg Vec2.y (e.symm.trans e')
      unfold lerp
      ext
      · simp only; linear_combination (q - r) * f1 - ex
      · simp only; linear_combination (q - r) * f2 - ey
    have H1 : ∀ q, q = a' ∨ q = b' → a ≤ τ + (q - r) * f → τ + (q - r) * f ≤ b → τ + (q - r) * f = a ∨ τ + (q - r) * f = b := by
      intro q hq g1 g2
      have hq' : q ∈ 0 :: (ts' ++ [1]) := by rcases hq with rfl | rfl <;> assumption
      exact p1.outside ha hb (cut_along hN h hw hv q2 p2 hp.swap hflatv hq' (hw1.low.trans g1) (g2.trans hw1.high) (conv q)) g1 g2
    have H2 : ∀ q, a' ≤ q → q ≤ b' → τ + (q - r) * f = a ∨ τ + (q - r) * f = b → q = a' ∨ q = b' := by
      intro q g1 g2 hq
      have hq' : τ + (q - r) * f ∈ 0 :: (ts ++ [1]) := by rcases hq with e | e <;> rw [e] <;> assumption
      exact q1.outside ha' hb' (cut_along hN h hv hw p2 q2 hp hflat hq' (hw2.low.trans g1) (g2.trans hw2.high) (conv q).symm) g1 g2
    have inner : (a < τ ∧ τ < b) := by
      -- if the point is an end of the first piece, it is one of the second piece, too
      by_contra hc
      have hτ : τ = a ∨ τ = b := by
        rcases eq_or_lt_of_le t0 with q | q
        · exact Or.inl q.symm
        · rcases eq_or_lt_of_le t1 with q' | q'
          · exact Or.inr q'
          · exact absurd ⟨q, q'⟩ hc
      apply hpe
      constructor
      · rw [e]; exact hw1.end hτ
      · rw [e']
        refine hw2.end (H2 r r0 r1 ?_)
        rw [sub_self, zero_mul, add_zero]; exact hτ
    have := interval_match (s := τ) (t := r) hf0 inner.1 inner.2 r0 r1 (by ring) H1 H2
    rw [hw1.pt, hw2.pt, hw1.seg, hw2.seg]
    show (lerp _ _ a = lerp _ _ a' ∧ lerp _ _ b = lerp _ _ b') ∨ (lerp _ _ a = lerp _ _ b' ∧ lerp _ _ b = lerp _ _ a')
    rw [conv a', conv b']
    rcases this with ⟨e1, e2⟩ | ⟨e1, e2⟩
    · left; rw [e1, e2]; exact ⟨rfl, rfl⟩
    · right; rw [e1, e2]; exact ⟨rfl, rfl⟩
  · right; right
    intro p hpx hq
    obtain ⟨t, t0, t1, e⟩ := (hw1.onSeg p).1 hpx
    obtain ⟨t', t0', t1', e'⟩ := (hw2.onSeg p).1 hq
    have z0 := hw1.low.trans t0
    have z1 := t1.trans hw1.high
    have z0' := hw2.low.trans t0'
    have z1' := t1'.trans hw2.high
    have eq := e.symm.trans e'
    have m1 := cut_mem hN h hv mw p2 z0 z1 z0' z1' eq hp
    have m2 := cut_mem hN h hw mv q2 z0' z1' z0 z1 eq.symm (fun q => hp q.swap)
    constructor
    · rw [e]; exact hw1.end (p1.outside ha hb m1 t0 t1)
    · rw [e']; exact hw2.end (q1.outside ha' hb' m2 t0' t1')

/-- The pieces of all segments. -/
theorem pieces_pairwise {N : List (Vtx K)} {brks : List (Brk K)} (hN : NodesOk N) (h : ExactBreaks N brks) {chunks : List (List (Vtx K))}
    (hlen : chunks.length = N.length) (hc : ∀ (i : Nat) (v : Vtx K) (c : List (Vtx K)), N[i]? = some v → chunks[i]? = some c → PieceOf brks i v c) :
    chunks.flatten.Pairwise PiecesOk := by
  rw [List.pairwise_flatten]
  constructor
  · intro c hcm
    obtain ⟨i, hi⟩ := List.getElem?_of_mem hcm
    have hl := (List.getElem?_eq_some_iff.1 hi).1
    obtain ⟨ts, p1, _⟩ := hc i _ c (List.getElem?_eq_getElem (hlen ▸ hl)) hi
    exact (p1.same (hN.proper _ (List.getElem_mem _))).imp (fun h => Or.inr (Or.inr h))
  · rw [List.pairwise_iff_getElem]
    intro i j hi hj hij x hx y hy
    exact pieces_across hN h (List.getElem?_eq_getElem (hlen ▸ hi)) (List.getElem?_eq_getElem (hlen ▸ hj))
      (hc i _ _ (List.getElem?_eq_getElem (hlen ▸ hi)) (List.getElem?_eq_getElem hi))
      (hc j _ _ (List.getElem?_eq_getElem (hlen ▸ hj)) (List.getElem?_eq_getElem hj)) hx hy

omit [FTrans K] [LawfulOrd K] [Exact K] in
theorem EndsOnly.symm {v w : Vtx K} (h : EndsOnly v w) : EndsOnly w v := fun p h1 h2 => (h p h2 h1).symm

/-! ## consecutive pieces -/

omit [FTrans K] [LawfulOrd K] [Exact K] in
theorem SubPiece.up {A w : Vtx K} {a b : K} (h : SubPiece A w a b) :
    (w.pt.y < w.seg.target.y ↔ A.pt.y < A.seg.target.y) ∧ (w.seg.target.y < w.pt.y ↔ A.seg.target.y < A.pt.y) := by
  obtain ⟨e1, e2⟩ := h.ys
  have hd : 0 < b - a := sub_pos.2 h.lt
  have e : w.seg.target.y - w.pt.y = (b - a) * (A.seg.target.y - A.pt.y) := by rw [e1, e2]; ring
  constructor
  · rw [← sub_pos, e, mul_pos_iff_of_pos_left hd, sub_pos]
  · rw [← sub_pos, show w.pt.y - w.seg.target.y = (b - a) * (A.pt.y - A.seg.target.y) by rw [e1, e2]; ring, mul_pos_iff_of_pos_left hd, sub_pos]

/-- Consecutive pieces of one segment. -/
structure NextPiece (A x y : Vtx K) (a b c : K) : Prop where
  left : SubPiece A x a b
  right : SubPiece A y b c
  flags : y.lmin = false ∧ y.lmax = false

omit [FTrans K] [LawfulOrd K] [Exact K] in
theorem Pieces.chain {A : Vtx K} {ts : List K} {c : List (Vtx K)} (h : Pieces A ts c) : c.IsChain (fun x y => ∃ a b d, NextPiece A x y a b d) := by
  rw [List.isChain_iff_getElem]
  intro k hk
  obtain ⟨a, b, ha, hb, hw⟩ := h.piece k _ (List.getElem?_eq_getElem (by omega))
  obtain ⟨a', b', ha', hb', hw'⟩ := h.piece (k + 1) _ (List.getElem?_eq_getElem hk)
  have f := h.flags (k + 1) _ (List.getElem?_eq_getElem hk)
  rw [if_neg (by omega)] at f
  have e : a' = b := Option.some.inj (ha'.symm.trans hb)
  subst e
  exact ⟨a, a', b', hw, hw', congrArg Prod.fst f, congrArg Prod.snd f⟩

omit [FTrans K] [LawfulOrd K] [Exact K] in
theorem NextPiece.link {A x y : Vtx K} {a b c : K} (h : NextPiece A x y a b c) : x.seg.target = y.pt := by
  rw [h.left.seg, h.right.pt]; rfl

omit [FTrans K] [LawfulOrd K] [Exact K] in
theorem Pieces.first {A : Vtx K} {ts : List K} {c : List (Vtx K)} (h : Pieces A ts c) {w : Vtx K} (hw : w ∈ c.head?) :
    ∃ b, SubPiece A w 0 b ∧ w.lmin = A.lmin ∧ w.lmax = A.lmax := by
  rw [List.head?_eq_getElem?] at hw
  obtain ⟨a, b, ha, hb, hp⟩ := h.piece 0 w hw
  have f := h.flags 0 w hw
  rw [if_pos rfl] at f
  have e : a = 0 := (Option.some.inj ha).symm
  subst e
  exact ⟨b, hp, congrArg Prod.fst f, congrArg Prod.snd f⟩

omit [FTrans K] [LawfulOrd K] [Exact K] in
theorem Pieces.last {A : Vtx K} {ts : List K} {c : List (Vtx K)} (h : Pieces A ts c) {w : Vtx K} (hw : w ∈ c.getLast?) :
    ∃ a, SubPiece A w a 1 := by
  rw [List.getLast?_eq_getElem?] at hw
  obtain ⟨a, b, ha, hb, hp⟩ := h.piece _ w hw
  rw [h.len, Nat.add_sub_cancel, List.getElem?_cons_succ, List.getElem?_append_right (le_refl _), Nat.sub_self] at hb
  have e : b = 1 := (Option.some.inj hb).symm
  subst e
  exact ⟨a, hp⟩

/-! ## the original contours -/

omit [Field K] [IsStrictOrderedRing K] [FTrans K] [LawfulOrd K] [Exact K] [LinearOrder K] in
theorem nodeAt_eq {rings : List (Ring K)} {k : Nat} {r : Ring K} (hr : rings[k]? = some r) (i : Nat) :
    nodeAt rings k i = r.nodes[i]? ∧ ringSize rings k = r.nodes.length := by
  unfold nodeAt ringSize
  rw [hr]
  exact ⟨rfl, rfl⟩

theorem prev_next_idx {n i : Nat} (h : i < n) : nextIdx n (prevIdx n i) = i ∧ prevIdx n (nextIdx n i) = i ∧ prevIdx n i < n := by
  unfold nextIdx prevIdx
  refine ⟨?_, ?_, Nat.mod_lt _ (by omega)⟩
  · rw [Nat.mod_add_mod, show i + (n - 1) + 1 = i + n by omega, Nat.add_mod_right, Nat.mod_eq_of_lt h]
  · rw [Nat.mod_add_mod, show i + 1 + (n - 1) = i + n by omega, Nat.add_mod_right, Nat.mod_eq_of_lt h]

omit [IsStrictOrderedRing K] [LawfulOrd K] [Exact K] in
theorem General.low {rings : List (Ring K)} (G : General rings) : ∀ v ∈ allNodes rings, FNum.neg FNum.maxNum < v.pt.y ∧ FNum.neg FNum.maxNum < v.seg.target.y := by
  have r1 : ∀ v ∈ allNodes rings, FNum.neg FNum.maxNum < v.pt.y := by
    intro v hv
    obtain ⟨i, hi⟩ := List.getElem?_of_mem hv
    obtain ⟨s, h1, h2, _⟩ := vtx_side hi
    rw [← h2]; exact (G.range s (List.mem_of_getElem? h1)).2
  intro v hv
  refine ⟨r1 v hv, ?_⟩
  obtain ⟨r, hr, hv'⟩ := List.mem_flatMap.1 hv
  obtain ⟨i, hi⟩ := List.getElem?_of_mem hv'
  have hlt := (List.getElem?_eq_some_iff.1 hi).1
  have hn : (i + 1) % r.nodes.length < r.nodes.length := Nat.mod_lt _ (by omega)
  rw [G.linked r hr i v _ hi (List.getElem?_eq_getElem hn)]
  exact r1 _ (List.mem_flatMap.2 ⟨r, hr, List.getElem_mem hn⟩)

/-! ## pieces of contours -/

/-- The vertex `x` comes from number `j`, the vertex `y`, that follows, from number `j'`. -/
def TagNext (nodes : List (Vtx K)) (x y : Nat × Vtx K) : Prop :=
  (x.1 = y.1 ∧ ∃ v a b c, nodes[x.1]? = some v ∧ NextPiece v x.2 y.2 a b c) ∨
    (y.1 = nextIdx nodes.length x.1 ∧ ∃ v w a b, nodes[x.1]? = some v ∧ nodes[y.1]? = some w ∧ SubPiece v x.2 a 1 ∧ SubPiece w y.2 0 b ∧
      y.2.lmin = w.lmin ∧ y.2.lmax = w.lmax)

omit [FTrans K] [LawfulOrd K] [Exact K] in
theorem tagged (nodes : List (Vtx K)) (chunks : List (List (Vtx K))) (hlen : chunks.length = nodes.length)
    (hprop : ∀ v ∈ nodes, v.pt ≠ v.seg.target)
    (h : ∀ (i : Nat) (v : Vtx K) (c : List (Vtx K)), nodes[i]? = some v → chunks[i]? = some c → ∃ ts, Pieces v ts c) :
    ∃ L : List (Nat × Vtx K), L.map Prod.snd = chunks.flatten ∧ Cyc (TagNext nodes) L ∧
      (∀ x ∈ L, ∃ v a b, nodes[x.1]? = some v ∧ SubPiece v x.2 a b) ∧ (∀ j, j < nodes.length → ∃ x ∈ L, x.1 = j) ∧
      L.Pairwise (fun x y => x.1 = y.1 → EndsOnly x.2 y.2) := by
  obtain ⟨ch, hch⟩ : ∃ ch : List (List (Nat × Vtx K)), ch = chunks.zipIdx.map (fun c => c.1.map (fun w => (c.2, w))) := ⟨_, rfl⟩
  have hget : ∀ (i : Nat) (c : List (Nat × Vtx K)), ch[i]? = some c → ∃ c0, chunks[i]? = some c0 ∧ c = c0.map (fun w => (i, w)) := by
    intro i c hc
    rw [hch, List.getElem?_map, List.getElem?_zipIdx] at hc
    obtain ⟨p, hp, e⟩ := Option.map_eq_some_iff.1 hc
    obtain ⟨c0, h0, e0⟩ := Option.map_eq_some_iff.1 hp
    subst e0
    exact ⟨c0, h0, by rw [← e]; simp⟩
  have hl : ch.length = nodes.zipIdx.length := by rw [hch]; simp [hlen]
  refine ⟨ch.flatten, ?_, ?_, ?_, ?_, ?_⟩
  · rw [hch]
    have : ∀ (cs : List (List (Vtx K))) (n : Nat), ((cs.zipIdx n).map (fun c => c.1.map (fun w => (c.2, w)))).flatten.map Prod.snd = cs.flatten := by
      intro cs
      induction cs with
      | nil => intro n; rfl
      | cons c cs ih =>
        intro n
        rw [List.zipIdx_cons, List.map_cons, List.flatten_cons, List.map_append, ih, List.flatten_cons, List.map_map]
        congr 1
        exact List.map_id' _
    exact this chunks 0
  · refine cyc_flatten (fun x y => nodes[x.2]? = some x.1 ∧ nodes[y.2]? = some y.1 ∧ y.2 = nextIdx nodes.length x.2) _
      (fun v c => ∃ c0 ts, c = c0.map (fun w => (v.2, w)) ∧ nodes[v.2]? = some v.1 ∧ Pieces v.1 ts c0) nodes.zipIdx ch hl ?_ ?_ ?_ ?_ ?_
    · intro i x y hx hy
      rw [List.getElem?_zipIdx] at hx hy
      obtain ⟨v, hv, e⟩ := Option.map_eq_some_iff.1 hx
      obtain ⟨w, hw, e'⟩ := Option.map_eq_some_iff.1 hy
      subst e; subst e'
      simp only [Nat.zero_add, List.length_zipIdx] at hw ⊢
      exact ⟨hv, hw, rfl⟩
    · intro i v c hv hc
      obtain ⟨c0, h1, h2⟩ := hget i c hc
      rw [List.getElem?_zipIdx] at hv
      obtain ⟨u, hu, e⟩ := Option.map_eq_some_iff.1 hv
      subst e
      obtain ⟨ts, hts⟩ := h i u c0 hu h1
      simp only [Nat.zero_add]
      exact ⟨c0, ts, h2, hu, hts⟩
    · rintro v c ⟨c0, ts, rfl, _, hp⟩ e
      have := hp.len
      rw [List.map_eq_nil_iff] at e
      rw [e] at this; simp at this
    · rintro v c ⟨c0, ts, rfl, hv, hp⟩
      rw [List.isChain_map]
      refine hp.chain.imp ?_
      rintro x y ⟨a, b, d, hn⟩
      exact Or.inl ⟨rfl, v.1, a, b, d, hv, hn⟩
    · rintro v w c d ⟨h1, h2, h3⟩ ⟨c0, ts, rfl, _, hp⟩ ⟨d0, ts', rfl, _, hp'⟩ z hz y hy
      rw [List.getLast?_map] at hz
      rw [List.head?_map] at hy
      obtain ⟨z0, hz0, rfl⟩ := Option.map_eq_some_iff.1 hz
      obtain ⟨y0, hy0, rfl⟩ := Option.map_eq_some_iff.1 hy
      obtain ⟨a, ha⟩ := hp.last hz0
      obtain ⟨b, hb, f1, f2⟩ := hp'.first hy0
      exact Or.inr ⟨h3, v.1, w.1, a, b, h1, h2, ha, hb, f1, f2⟩
  · intro x hx
    obtain ⟨c, hc, hxc⟩ := List.mem_flatten.1 hx
    obtain ⟨i, hi⟩ := List.getElem?_of_mem hc
    obtain ⟨c0, h1, rfl⟩ := hget i c hi
    obtain ⟨w, hw, rfl⟩ := List.mem_map.1 hxc
    have hlt := (List.getElem?_eq_some_iff.1 h1).1
    obtain ⟨ts, hts⟩ := h i _ c0 (List.getElem?_eq_getElem (hlen ▸ hlt)) h1
    obtain ⟨k, hk⟩ := List.getElem?_of_mem hw
    obtain ⟨a, b, _, _, hp⟩ := hts.piece k w hk
    exact ⟨_, a, b, List.getElem?_eq_getElem (hlen ▸ hlt), hp⟩
  · intro j hj
    have hjc : j < chunks.length := hlen ▸ hj
    obtain ⟨ts, hts⟩ := h j _ _ (List.getElem?_eq_getElem hj) (List.getElem?_eq_getElem hjc)
    have hl := hts.len
    refine ⟨(j, chunks[j][0]'(by omega)), List.mem_flatten.2 ⟨chunks[j].map (fun w => (j, w)), ?_, List.mem_map.2 ⟨_, List.getElem_mem _, rfl⟩⟩, rfl⟩
    rw [hch]
    exact List.mem_map.2 ⟨(chunks[j], j), List.mem_zipIdx_iff_getElem?.2 (List.getElem?_eq_getElem hjc), rfl⟩
  · rw [List.pairwise_flatten]
    constructor
    · intro c hcm
      obtain ⟨i, hi⟩ := List.getElem?_of_mem hcm
      obtain ⟨c0, h1, rfl⟩ := hget i c hi
      have hlt := (List.getElem?_eq_some_iff.1 h1).1
      obtain ⟨ts, hts⟩ := h i _ c0 (List.getElem?_eq_getElem (hlen ▸ hlt)) h1
      rw [List.pairwise_map]
      exact (hts.same (hprop _ (List.getElem_mem _))).imp (fun {a b} h (_ : (i, a).1 = (i, b).1) => h)
    · rw [List.pairwise_iff_getElem]
      intro i j hi hj hij x hx y hy e
      obtain ⟨c0, _, h2⟩ := hget i _ (List.getElem?_eq_getElem hi)
      obtain ⟨d0, _, h4⟩ := hget j _ (List.getElem?_eq_getElem hj)
      rw [h2] at hx
      rw [h4] at hy
      obtain ⟨x0, _, rfl⟩ := List.mem_map.1 hx
      obtain ⟨y0, _, rfl⟩ := List.mem_map.1 hy
      exact absurd e (Nat.ne_of_lt hij)

/-- `w` is the part of the side `s` between the parameters `a` and `b`. -/
structure SubSide (s w : Side K) (a b : K) : Prop where
  pt : w.frm = lerp s.frm s.seg.target a
  seg : w.seg = .line (lerp s.frm s.seg.target b)
  low : 0 ≤ a
  lt : a < b
  high : b ≤ 1

/-- What breaking delivers: every side is a piece of an original side, and the pieces follow each other as the original sides do. -/
structure Pieced (rings rings' : List (Ring K)) (par : Side K → Side K) : Prop where
  mem : ∀ s ∈ sides rings', par s ∈ sides rings ∧ (par s).ring = s.ring ∧ ∃ a b, SubSide (par s) s a b
  onto : ∀ s ∈ sides rings, ∃ s' ∈ sides rings', par s' = s
  same : ∀ s ∈ sides rings', ∀ t ∈ sides rings', s ≠ t → par s = par t → SideEnds s t
  next : ∀ s ∈ sides rings', ∀ t, Adj rings' true s t →
    (par t = par s ∧ (∃ a b c, SubSide (par s) s a b ∧ SubSide (par s) t b c) ∧
      ∀ v, nodeAt rings' t.ring t.idx = some v → v.lmin = false ∧ v.lmax = false) ∨
    (Adj rings true (par s) (par t) ∧ (∃ a, SubSide (par s) s a 1) ∧ (∃ b, SubSide (par t) t 0 b) ∧
      ∀ v w, nodeAt rings' t.ring t.idx = some v → nodeAt rings t.ring (par t).idx = some w → v.lmin = w.lmin ∧ v.lmax = w.lmax)

omit [FTrans K] [LawfulOrd K] [Exact K] in
theorem pieced {rings rings' : List (Ring K)} (hprop : ∀ s ∈ sides rings, s.frm ≠ s.seg.target)
    (h : List.Forall₂ (fun r r' => r'.ptype = r.ptype ∧ ∃ chunks : List (List (Vtx K)), r'.nodes = chunks.flatten ∧ chunks.length = r.nodes.length ∧
      ∀ (i : Nat) (v : Vtx K) (c : List (Vtx K)), r.nodes[i]? = some v → chunks[i]? = some c → ∃ ts, Pieces v ts c) rings rings') :
    ∃ par, Pieced rings rings' par := by
  rw [List.forall₂_iff_get] at h
  have hL : ∀ k : Nat, ∃ L : List (Nat × Vtx K), ∀ r', rings'[k]? = some r' → ∃ r, rings[k]? = some r ∧ L.map Prod.snd = r'.nodes ∧
      Cyc (TagNext r.nodes) L ∧ (∀ x ∈ L, ∃ v a b, r.nodes[x.1]? = some v ∧ SubPiece v x.2 a b) ∧ (∀ j, j < r.nodes.length → ∃ x ∈ L, x.1 = j) ∧
      L.Pairwise (fun x y => x.1 = y.1 → EndsOnly x.2 y.2) := by
    intro k
    by_cases hk : k < rings'.length
    · obtain ⟨h1, h2⟩ := h
      obtain ⟨_, ch, c1, c2, c3⟩ := h2 k (h1 ▸ hk) hk
      rw [List.get_eq_getElem] at c1
      obtain ⟨L, l1, l2, l3⟩ := tagged _ ch c2 (by
        intro v hv
        obtain ⟨i, hi⟩ := List.getElem?_of_mem hv
        have hk' : k < rings.length := h1 ▸ hk
        exact hprop ⟨k, i, v.pt, v.seg, rings[k].ptype⟩ ((mem_sides rings _).2 ⟨_, v, List.getElem?_eq_getElem hk', hi, rfl, rfl, rfl⟩)) c3
      refine ⟨L, fun r' hr' => ⟨_, List.getElem?_eq_getElem (h1 ▸ hk), ?_, l2, l3⟩⟩
      rw [(List.getElem?_eq_some_iff.1 hr').2] at c1
      rw [l1, c1]
    · refine ⟨[], fun r' hr' => ?_⟩
      exact absurd (List.getElem?_eq_some_iff.1 hr').1 hk
  choose L hL using hL
  -- the parent of a side
  have hpar : ∀ s' : Side K, ∃ s, s' ∈ sides rings' → s ∈ sides rings ∧ s.ring = s'.ring ∧
      ∃ x v, (L s'.ring)[s'.idx]? = some x ∧ x.1 = s.idx ∧ nodeAt rings s.ring s.idx = some v ∧ s.frm = v.pt ∧ s.seg = v.seg ∧
        nodeAt rings' s'.ring s'.idx = some x.2 ∧ s'.frm = x.2.pt ∧ s'.seg = x.2.seg ∧ ∃ a b, SubPiece v x.2 a b := by
    intro s'
    by_cases hs : s' ∈ sides rings'
    · obtain ⟨r', w, h1, h2, h3, h4, _⟩ := (mem_sides rings' s').1 hs
      obtain ⟨r, hr, e, _, l3, _⟩ := hL s'.ring r' h1
      have : ((L s'.ring).map Prod.snd)[s'.idx]? = some w := by rw [e]; exact h2
      rw [List.getElem?_map] at this
      obtain ⟨x, hx, rfl⟩ := Option.map_eq_some_iff.1 this
      obtain ⟨v, a, b, hv, hp⟩ := l3 x (List.mem_of_getElem? hx)
      refine ⟨⟨s'.ring, x.1, v.pt, v.seg, r.ptype⟩, fun _ => ⟨(mem_sides rings _).2 ⟨r, v, hr, hv, rfl, rfl, rfl⟩, rfl, x, v, hx, rfl, ?_, rfl, rfl, ?_, h3, h4, a, b, hp⟩⟩
      · rw [(nodeAt_eq hr _).1]; exact hv
      · rw [(nodeAt_eq h1 _).1]; exact h2
    · exact ⟨s', fun h => absurd h hs⟩
  choose par hpar using hpar
  have sub : ∀ {s s' : Side K} {v x : Vtx K} {a b : K}, s.frm = v.pt → s.seg = v.seg → s'.frm = x.pt → s'.seg = x.seg → SubPiece v x a b → SubSide s s' a b := by
    intro s s' v x a b e1 e2 e3 e4 h
    exact ⟨by rw [e1, e2, e3]; exact h.pt, by rw [e1, e2, e4]; exact h.seg, h.low, h.lt, h.high⟩
  refine ⟨par, ?_, ?_, ?_, ?_⟩
  · intro s hs
    obtain ⟨h1, h2, x, v, _, _, _, h6, h7, _, h9, h10, a, b, hp⟩ := hpar s hs
    exact ⟨h1, h2, a, b, sub h6 h7 h9 h10 hp⟩
  · intro s hs
    obtain ⟨r, v, h1, h2, _⟩ := (mem_sides rings s).1 hs
    have hlt := (List.getElem?_eq_some_iff.1 h1).1
    have h1' := List.getElem?_eq_getElem (l := rings') (h.1 ▸ hlt : s.ring < rings'.length)
    obtain ⟨r0, hr0, e, _, _, l4, _⟩ := hL s.ring _ h1'
    rw [h1] at hr0
    cases Option.some.inj hr0
    obtain ⟨x, hx, hxj⟩ := l4 s.idx (List.getElem?_eq_some_iff.1 h2).1
    obtain ⟨i, hi⟩ := List.getElem?_of_mem hx
    have hn : (rings'[s.ring]'(h.1 ▸ hlt)).nodes[i]? = some x.2 := by rw [← e, List.getElem?_map, hi]; rfl
    have hm : (⟨s.ring, i, x.2.pt, x.2.seg, (rings'[s.ring]'(h.1 ▸ hlt)).ptype⟩ : Side K) ∈ sides rings' :=
      (mem_sides rings' _).2 ⟨_, _, h1', hn, rfl, rfl, rfl⟩
    refine ⟨_, hm, ?_⟩
    obtain ⟨p1, p2, y, w, p3, p4, _⟩ := hpar _ hm
    refine side_ext rings _ _ p1 hs p2 ?_
    rw [← p4, ← hxj]
    have p3 : (L s.ring)[i]? = some y := p3
    rw [hi] at p3
    rw [Option.some.inj p3]
  · intro s hs t ht hne hp
    obtain ⟨_, s2, x, _, s3, s4, _, _, _, _, s9, s10, _⟩ := hpar s hs
    obtain ⟨_, t2, y, _, t3, t4, _, _, _, _, t9, t10, _⟩ := hpar t ht
    have er : t.ring = s.ring := by rw [← s2, ← t2, hp]
    obtain ⟨r', _, h1, _⟩ := (mem_sides rings' s).1 hs
    obtain ⟨_, _, _, _, _, _, l5⟩ := hL s.ring r' h1
    rw [er] at t3
    have hidx : s.idx ≠ t.idx := fun e => hne (side_ext rings' s t hs ht er.symm e)
    have e1 : x.1 = y.1 := by rw [s4, t4, hp]
    rw [List.pairwise_iff_getElem] at l5
    obtain ⟨i1, i2⟩ := List.getElem?_eq_some_iff.1 s3
    obtain ⟨j1, j2⟩ := List.getElem?_eq_some_iff.1 t3
    have key : EndsOnly x.2 y.2 := by
      rcases Nat.lt_or_gt_of_ne hidx with hlt | hlt
      · have := l5 _ _ i1 j1 hlt
        rw [i2, j2] at this
        exact this e1
      · have := l5 _ _ j1 i1 hlt
        rw [i2, j2] at this
        exact (this e1.symm).symm
    intro p h1 h2
    rw [s9, s10] at h1 ⊢
    rw [t9, t10] at h2 ⊢
    exact key p h1 h2
  · intro s hs t hadj
    obtain ⟨s1, s2, x, v, s3, s4, s5, s6, s7, s8, s9, s10, _⟩ := hpar s hs
    obtain ⟨t1, t2, y, w, t3, t4, t5, t6, t7, t8, t9, t10, _⟩ := hpar t hadj.1
    obtain ⟨r', _, h1, _⟩ := (mem_sides rings' s).1 hs
    obtain ⟨r, hr, e, l2, _⟩ := hL s.ring r' h1
    have hsz : ringSize rings' s.ring = (L s.ring).length := by
      rw [(nodeAt_eq h1 0).2, ← e, List.length_map]
    have hidx : t.idx = (s.idx + 1) % (L s.ring).length := by
      rw [hadj.2.2, if_pos rfl, hsz]; rfl
    rw [hadj.2.1, hidx] at t3
    have nx := l2 s.idx x y s3 t3
    rw [s2, (nodeAt_eq hr _).1] at s5
    rw [t2, hadj.2.1, (nodeAt_eq hr _).1] at t5
    rcases nx with ⟨n1, v', a, b, c, n2, n3⟩ | ⟨n1, v', w', a, b, n2, n3, n4, n5, n6, n7⟩
    · left
      have ep : par t = par s := side_ext rings _ _ t1 s1 (by rw [t2, s2, hadj.2.1]) (by rw [← t4, ← s4, n1])
      rw [s4, s5] at n2
      cases Option.some.inj n2
      refine ⟨ep, ⟨a, b, c, sub s6 s7 s9 s10 n3.left, sub s6 s7 t9 t10 n3.right⟩, fun z hz => ?_⟩
      rw [t8] at hz
      cases Option.some.inj hz
      exact n3.flags
    · right
      rw [s4, s5] at n2
      cases Option.some.inj n2
      rw [t4, t5] at n3
      cases Option.some.inj n3
      refine ⟨⟨t1, by rw [t2, s2, hadj.2.1], ?_⟩, ⟨a, sub s6 s7 s9 s10 n4⟩, ⟨b, sub t6 t7 t9 t10 n5⟩, fun z z' hz hz' => ?_⟩
      · rw [if_pos rfl, ← t4, n1, s2, (nodeAt_eq hr 0).2, s4]
      · rw [t8] at hz
        rw [hadj.2.1, (nodeAt_eq hr _).1, t5] at hz'
        cases Option.some.inj hz
        cases Option.some.inj hz'
        exact ⟨n6, n7⟩

/-! ## pieces and their sides -/

omit [FTrans K] [LawfulOrd K] [Exact K] in
theorem SubSide.onSeg {s w : Side K} {a b : K} (h : SubSide s w a b) (p : Vec2 K) :
    OnSeg p w.frm w.seg.target ↔ ∃ t, a ≤ t ∧ t ≤ b ∧ p = lerp s.frm s.seg.target t :=
  SubPiece.onSeg (A := ⟨s.frm, s.seg, false, false⟩) (w := ⟨w.frm, w.seg, false, false⟩) ⟨h.pt, h.seg, h.low, h.lt, h.high⟩ p

omit [FTrans K] [LawfulOrd K] [Exact K] in
theorem SubSide.target {s w : Side K} {a b : K} (h : SubSide s w a b) : w.seg.target = lerp s.frm s.seg.target b := by
  rw [h.seg]; rfl

omit [FTrans K] [LawfulOrd K] [Exact K] in
theorem SubSide.ys {s w : Side K} {a b : K} (h : SubSide s w a b) :
    w.frm.y = s.frm.y + a * (s.seg.target.y - s.frm.y) ∧ w.seg.target.y = s.frm.y + b * (s.seg.target.y - s.frm.y) := by
  rw [h.pt, h.target]
  exact ⟨rfl, rfl⟩

omit [FTrans K] [LawfulOrd K] [Exact K] in
theorem SubSide.on {s w : Side K} {a b : K} (h : SubSide s w a b) {p : Vec2 K} (hp : OnSeg p w.frm w.seg.target) : OnSeg p s.frm s.seg.target := by
  obtain ⟨t, h1, h2, e⟩ := (h.onSeg p).1 hp
  exact ⟨t, h.low.trans h1, h2.trans h.high, e⟩

omit [FTrans K] [LawfulOrd K] [Exact K] in
theorem SubSide.up {s w : Side K} {a b : K} (h : SubSide s w a b) : w.up = s.up := by
  obtain ⟨e1, e2⟩ := h.ys
  have hd : 0 < b - a := sub_pos.2 h.lt
  have e : w.seg.target.y - w.frm.y = (b - a) * (s.seg.target.y - s.frm.y) := by rw [e1, e2]; ring
  unfold Side.up
  rw [decide_eq_decide, ← sub_pos, e, mul_pos_iff_of_pos_left hd, sub_pos]

omit [FTrans K] [LawfulOrd K] [Exact K] in
theorem SubSide.flat {s w : Side K} {a b : K} (h : SubSide s w a b) : w.Flat ↔ s.Flat := by
  obtain ⟨e1, e2⟩ := h.ys
  have hd : 0 < b - a := sub_pos.2 h.lt
  have e : w.seg.target.y - w.frm.y = (b - a) * (s.seg.target.y - s.frm.y) := by rw [e1, e2]; ring
  unfold Side.Flat
  rw [eq_comm, ← sub_eq_zero, e, mul_eq_zero, or_iff_right hd.ne', sub_eq_zero, eq_comm]

omit [FTrans K] [LawfulOrd K] [Exact K] in
/-- Different pieces of one side do not overlap. -/
theorem SubSide.disjoint {S s t : Side K} (hS : S.frm ≠ S.seg.target) (hE : SideEnds s t) {a b a' b' : K} (h : SubSide S s a b) (h' : SubSide S t a' b') :
    b ≤ a' ∨ b' ≤ a := by
  by_contra hc
  push Not at hc
  obtain ⟨m, m1, m2⟩ := exists_between (show max a a' < min b b' from max_lt (lt_min h.lt hc.2) (lt_min hc.1 h'.lt))
  rw [max_lt_iff] at m1
  rw [lt_min_iff] at m2
  rcases (hE (lerp S.frm S.seg.target m) ((h.onSeg _).2 ⟨m, m1.1.le, m2.1.le, rfl⟩) ((h'.onSeg _).2 ⟨m, m1.2.le, m2.2.le, rfl⟩)).1 with e | e
  · rw [h.pt] at e
    exact m1.1.ne' (lerp_inj hS e)
  · rw [h.target] at e
    exact m2.1.ne (lerp_inj hS e)

omit [FTrans K] [LawfulOrd K] [Exact K] in
theorem SubSide.factor {S s : Side K} {a b : K} (h : SubSide S s a b) :
    s.seg.target.x - s.frm.x = (b - a) * (S.seg.target.x - S.frm.x) ∧ s.seg.target.y - s.frm.y = (b - a) * (S.seg.target.y - S.frm.y) := by
  rw [h.pt, h.target]
  unfold lerp
  constructor <;> simp only <;> ring

omit [FTrans K] [LawfulOrd K] [Exact K] in
/-- Pieces are parallel if the sides are. -/
theorem SubSide.parallel {S T s t : Side K} {a b a' b' : K} (h : SubSide S s a b) (h' : SubSide T t a' b') :
    Parallel s.frm s.seg.target t.frm t.seg.target ↔ Parallel S.frm S.seg.target T.frm T.seg.target := by
  unfold Parallel
  rw [h.factor.1, h.factor.2, h'.factor.1, h'.factor.2]
  have d1 : b - a ≠ 0 := (sub_pos.2 h.lt).ne'
  have d2 : b' - a' ≠ 0 := (sub_pos.2 h'.lt).ne'
  constructor
  · intro e
    refine mul_left_cancel₀ (mul_ne_zero d1 d2) ?_
    linear_combination e
  · intro e
    linear_combination (b - a) * (b' - a') * e

omit [FTrans K] [LawfulOrd K] [Exact K] in
/-- A piece runs along the line of its side. -/
theorem SubSide.atHeight {S s : Side K} {a b : K} (h : SubSide S s a b) (hS : ¬ S.Flat) (y : K) :
    River.atHeight s.frm s.seg.target y = River.atHeight S.frm S.seg.target y := by
  have d1 : b - a ≠ 0 := (sub_pos.2 h.lt).ne'
  have d2 : S.seg.target.y - S.frm.y ≠ 0 := fun e => hS (sub_eq_zero.1 e).symm
  unfold River.atHeight
  rw [h.factor.1, h.factor.2, h.pt]
  unfold lerp
  simp only
  field_simp
  ring

omit [FTrans K] [LawfulOrd K] [Exact K] in
theorem SubSide.min_max {S s : Side K} {a b : K} (h : SubSide S s a b) :
    min S.frm.y S.seg.target.y ≤ min s.frm.y s.seg.target.y ∧ max s.frm.y s.seg.target.y ≤ max S.frm.y S.seg.target.y ∧
    min S.frm.x S.seg.target.x ≤ min s.frm.x s.seg.target.x ∧ max s.frm.x s.seg.target.x ≤ max S.frm.x S.seg.target.x := by
  have conv : ∀ p q t : K, 0 ≤ t → t ≤ 1 → min p q ≤ p + t * (q - p) ∧ p + t * (q - p) ≤ max p q := by
    intro p q t t0 t1
    have e : p + t * (q - p) = (1 - t) * p + t * q := by ring
    have m1 := min_le_left p q
    have m2 := min_le_right p q
    have m3 := le_max_left p q
    have m4 := le_max_right p q
    have c0 := sub_nonneg.2 t1
    rw [e]
    constructor
    · nlinarith [mul_le_mul_of_nonneg_left m1 c0, mul_le_mul_of_nonneg_left m2 t0]
    · nlinarith [mul_le_mul_of_nonneg_left m3 c0, mul_le_mul_of_nonneg_left m4 t0]
  have a1 := h.lt.le.trans h.high
  have b0 := h.low.trans h.lt.le
  rw [h.pt, h.target]
  unfold lerp
  simp only
  exact ⟨le_min (conv _ _ a h.low a1).1 (conv _ _ b b0 h.high).1, max_le (conv _ _ a h.low a1).2 (conv _ _ b b0 h.high).2,
    le_min (conv _ _ a h.low a1).1 (conv _ _ b b0 h.high).1, max_le (conv _ _ a h.low a1).2 (conv _ _ b b0 h.high).2⟩

omit [FTrans K] [LawfulOrd K] [Exact K] in
theorem SubSide.goes {S s : Side K} {a b : K} (h : SubSide S s a b) {p : Vec2 K} (hp : GoesUp p s.frm s.seg.target) : GoesUp p S.frm S.seg.target := by
  have : ∀ x y : Vec2 K, GoesUp p x y ↔ p.y < max x.y y.y := fun x y => lt_max_iff.symm
  rw [this] at hp ⊢
  exact hp.trans_le h.min_max.2.1

omit [FTrans K] [LawfulOrd K] [Exact K] in
/-- From a piece over horizontal pieces to the next one that is not horizontal. -/
theorem Pieced.walk {rings rings' : List (Ring K)} {par : Side K → Side K} (P : Pieced rings rings' par) {s t : Side K} {fl : List (Side K)}
    (hs : s ∈ sides rings') (h : FWalk rings' true s fl t) (ht : ¬ t.Flat) :
    (par t = par s ∧ ∀ v, nodeAt rings' t.ring t.idx = some v → v.lmin = false ∧ v.lmax = false) ∨
    ((∃ fl0, FWalk rings true (par s) fl0 (par t)) ∧ (¬ s.Flat → ∃ a, SubSide (par s) s a 1) ∧ (∃ b, SubSide (par t) t 0 b) ∧
      ∀ v w, nodeAt rings' t.ring t.idx = some v → nodeAt rings t.ring (par t).idx = some w → v.lmin = w.lmin ∧ v.lmax = w.lmax) := by
  induction h with
  | nil h =>
    rcases P.next _ hs _ h with ⟨h1, _, h2⟩ | ⟨h1, h2, h3, h4⟩
    · exact Or.inl ⟨h1, h2⟩
    · exact Or.inr ⟨⟨[], .nil h1⟩, fun _ => h2, h3, h4⟩
  | @cons s f t fl h hf hw ih =>
    obtain ⟨_, _, a, b, hfp⟩ := P.mem f h.1
    obtain ⟨_, _, a', b', hsp⟩ := P.mem s hs
    obtain ⟨_, _, a'', b'', htp⟩ := P.mem t hw.mem.1
    rcases ih h.1 ht with ⟨h1, _⟩ | ⟨⟨fl0, h1⟩, _, h3, h4⟩
    · rw [htp.flat, h1, ← hfp.flat] at ht
      exact absurd hf ht
    · right
      rcases P.next s hs f h with ⟨g1, _⟩ | ⟨g1, g2, _⟩
      · refine ⟨⟨fl0, g1 ▸ h1⟩, fun q => ?_, h3, h4⟩
        rw [hsp.flat, ← g1, ← hfp.flat] at q
        exact absurd hf q
      · exact ⟨⟨par f :: fl0, .cons g1 (hfp.flat.1 hf) h1⟩, fun _ => g2, h3, h4⟩

omit [FTrans K] [LawfulOrd K] [Exact K] in
/-- Wherever one gets over horizontal pieces, one gets over horizontal sides. -/
theorem Pieced.reach {rings rings' : List (Ring K)} {par : Side K → Side K} (P : Pieced rings rings' par) {s t : Side K} {fl : List (Side K)}
    (hs : s ∈ sides rings') (h : FWalk rings' true s fl t) : par t = par s ∨ ∃ fl0, FWalk rings true (par s) fl0 (par t) := by
  induction h with
  | nil h =>
    rcases P.next _ hs _ h with ⟨h1, _⟩ | ⟨h1, _⟩
    · exact Or.inl h1
    · exact Or.inr ⟨[], .nil h1⟩
  | @cons s f t fl h hf hw ih =>
    obtain ⟨_, _, a, b, hfp⟩ := P.mem f h.1
    rcases P.next s hs f h with ⟨g1, _⟩ | ⟨g1, _⟩
    · rw [← g1]; exact ih h.1
    · right
      rcases ih h.1 with e | ⟨fl0, w⟩
      · rw [e]; exact ⟨[], .nil g1⟩
      · exact ⟨_, .cons g1 (hfp.flat.1 hf) w⟩

omit [FTrans K] [LawfulOrd K] [Exact K] in
theorem Pieced.through {rings rings' : List (Ring K)} {par : Side K → Side K} (P : Pieced rings rings' par) {f : Side K} (hf : f ∈ sides rings') (hfl : f.Flat)
    (h : Through rings' f) : Through rings (par f) := by
  obtain ⟨s, hs, t, ht, fs, ft, hu, r1, r2, w1, w2⟩ := h
  obtain ⟨fl1, w1⟩ := flatRun_chain w1 s f hs r1.symm rfl hf rfl rfl
  obtain ⟨fl2, w2⟩ := flatRun_chain w2 f t hf rfl rfl ht r2.symm rfl
  obtain ⟨f1, f2, _, _, hfp⟩ := P.mem f hf
  obtain ⟨s1, s2, _, _, hsp⟩ := P.mem s hs
  obtain ⟨t1, t2, _, _, htp⟩ := P.mem t ht
  have ps : ¬ (par s).Flat := fun q => fs (hsp.flat.2 q)
  have pt : ¬ (par t).Flat := fun q => ft (htp.flat.2 q)
  have pf : (par f).Flat := hfp.flat.1 hfl
  obtain ⟨l1, v1⟩ := (P.reach hs w1).resolve_left (fun e => ps (e ▸ pf))
  obtain ⟨l2, v2⟩ := (P.reach hf w2).resolve_left (fun e => pt (e ▸ pf))
  have e1 : (par s).ring = (par f).ring := by rw [s2, f2, r1]
  have e2 : (par t).ring = (par f).ring := by rw [t2, f2, r2]
  refine ⟨_, s1, _, t1, ps, pt, by rw [← hsp.up, ← htp.up]; exact hu, e1.symm, e2.symm, ?_, chain_flatRun v2⟩
  rw [← e1]; exact chain_flatRun v1

omit [FTrans K] [LawfulOrd K] [Exact K] in
theorem Pieced.goesOn {rings rings' : List (Ring K)} {par : Side K → Side K} (P : Pieced rings rings' par) {s : Side K} (hs : s ∈ sides rings') (fs : ¬ s.Flat)
    (h : GoesOn rings' s) : GoesOn rings (par s) ∧ (if s.up then ∃ a, SubSide (par s) s a 1 else ∃ b, SubSide (par s) s 0 b) := by
  obtain ⟨f, hf, hfl, hr, hth, hadj⟩ := h
  obtain ⟨f1, f2, _, _, hfp⟩ := P.mem f hf
  obtain ⟨s1, s2, _, _, hsp⟩ := P.mem s hs
  have ps : ¬ (par s).Flat := fun q => fs (hsp.flat.2 q)
  have pf : (par f).Flat := hfp.flat.1 hfl
  have hth' := P.through hf hfl hth
  have er : (par f).ring = (par s).ring := by rw [f2, s2, hr]
  have eu := hsp.up
  unfold GoesOn
  rw [← eu]
  cases hu : s.up with
  | true =>
    rw [hu, if_pos rfl] at hadj
    rcases P.next s hs f ⟨hf, hr, by rw [if_pos rfl]; exact hadj⟩ with ⟨e, _⟩ | ⟨g1, g2, _⟩
    · exact absurd (e ▸ pf) ps
    · refine ⟨⟨_, f1, pf, er, hth', ?_⟩, ?_⟩
      · simp only [if_true]; exact g1.2.2
      · simp only [if_true]; exact g2
  | false =>
    rw [hu, if_neg Bool.false_ne_true] at hadj
    rcases P.next f hf s ⟨hs, hr.symm, by rw [if_pos rfl, hr]; exact hadj⟩ with ⟨e, _⟩ | ⟨g1, _, g3, _⟩
    · exact absurd (e ▸ pf) ps
    · refine ⟨⟨_, f1, pf, er, hth', ?_⟩, ?_⟩
      · simp only [Bool.false_eq_true, if_false]
        rw [← er]; exact g1.2.2
      · simp only [Bool.false_eq_true, if_false]; exact g3

omit [IsStrictOrderedRing K] [LawfulOrd K] [Exact K] in
theorem General.low_side {rings : List (Ring K)} (G : General rings) : ∀ s ∈ sides rings, FNum.neg FNum.maxNum < s.seg.target.y := by
  intro s hs
  obtain ⟨v, hv, _, e⟩ := side_vtx hs
  rw [e]; exact (G.low v hv).2

/-- Pieces of contours in general position are in general position. -/
theorem General.pieced {rings rings' : List (Ring K)} (G : General rings) {par : Side K → Side K} (P : Pieced rings rings' par)
    (link : ∀ r ∈ rings', Linked r.nodes) (hE : EndsMeet rings') : General rings' := by
  have hprop : ∀ s ∈ sides rings', s.frm ≠ s.seg.target := by
    intro s hs e
    obtain ⟨h1, _, a, b, h⟩ := P.mem s hs
    rw [h.pt, h.target] at e
    exact h.lt.ne (lerp_inj (G.proper _ h1) e)
  -- the side before
  have hprev : ∀ t ∈ sides rings', ¬ t.Flat → ∃ s ∈ sides rings', Follows rings' s t := by
    intro t ht hst
    obtain ⟨fl, s, h1, h2, _⟩ := FWalk.exists false ht ht rfl hst
    exact ⟨s, h1.mem.1, (follows_iff h1.mem.1 ht).2 ⟨h2, hst, _, h1.rev ht⟩⟩
  refine ⟨?_, link, hprop, ?_, ?_, ?_, ?_, ?_, ?_, ?_, ?_, ?_⟩
  · intro s hs
    obtain ⟨_, _, a, b, h⟩ := P.mem s hs
    unfold Side.Straight
    rw [h.seg]; rfl
  · intro f hf hfl
    obtain ⟨h1, h2, a, b, h⟩ := P.mem f hf
    obtain ⟨s, hs, e, hst⟩ := G.turn _ h1 (h.flat.1 hfl)
    obtain ⟨s', hs', rfl⟩ := P.onto s hs
    obtain ⟨_, h2', a', b', h'⟩ := P.mem s' hs'
    exact ⟨s', hs', by rw [← h2', e, h2], fun q => hst (h'.flat.1 q)⟩
  · intro s hs
    obtain ⟨h1, _, a, b, h⟩ := P.mem s hs
    obtain ⟨v, hv, e1, e2⟩ := side_vtx h1
    obtain ⟨d1, d2⟩ := G.nodesOk.range v hv
    rw [← e1] at d1
    rw [← e2] at d2
    have ha1 : 0 ≤ 1 - a := sub_nonneg.2 (h.lt.le.trans h.high)
    have ha1' : 0 < 1 - a := sub_pos.2 (h.lt.trans_le h.high)
    have ha0 := h.low
    constructor
    · rw [h.pt]
      unfold InDoubles lerp
      obtain ⟨p1, p2, p3, p4⟩ := d1
      obtain ⟨q1, q2, q3, q4⟩ := d2
      refine ⟨?_, ?_, ?_, ?_⟩ <;> simp only <;> nlinarith
    · have l1 := (G.range _ h1).2
      have l2 := G.low_side _ h1
      rw [h.ys.1]
      nlinarith [mul_nonneg ha0 (sub_nonneg.2 l2.le), mul_pos ha1' (sub_pos.2 l1)]
  · intro t ht v hv
    obtain ⟨t1, t2, a, b, h⟩ := P.mem t ht
    by_cases hfl : t.Flat
    · have f1 : v.lmin = false ∧ v.lmax = false := by
        obtain ⟨s, hs⟩ := Adj.exists false ht
        rcases P.next s hs.1 t (hs.rev ht) with ⟨_, _, g⟩ | ⟨_, _, _, g⟩
        · exact g v hv
        · obtain ⟨_, w, _, hw, _⟩ := side_node t1
          obtain ⟨e1, e2⟩ := g v w hv (t2 ▸ hw)
          obtain ⟨g1, g2⟩ := G.flags (par t) t1 w hw
          have hpf : (par t).Flat := h.flat.1 hfl
          have n1 : w.lmin = false := Bool.eq_false_iff.2 (fun q => by
            obtain ⟨_, s, _, hf, _⟩ := g1.1 q
            exact hf.2.1 hpf)
          have n2 : w.lmax = false := Bool.eq_false_iff.2 (fun q => by
            obtain ⟨_, s, _, hf, _⟩ := g2.1 q
            exact hf.2.1 hpf)
          rw [e1, e2]; exact ⟨n1, n2⟩
      rw [f1.1, f1.2]
      constructor
      · constructor
        · intro q; cases q
        · rintro ⟨_, s, _, hf, _⟩; exact absurd hfl hf.2.1
      · constructor
        · intro q; cases q
        · rintro ⟨_, s, _, hf, _⟩; exact absurd hfl hf.2.1
    · obtain ⟨s, hs, hf⟩ := hprev t ht hfl
      obtain ⟨sst, _, fl, hw⟩ := (follows_iff hs ht).1 hf
      obtain ⟨s1, s2, a', b', h'⟩ := P.mem s hs
      have uniq : ∀ u : Bool, (∃ s ∈ sides rings', Follows rings' s t ∧ s.up = u) ↔ s.up = u := by
        intro u
        constructor
        · rintro ⟨z, hz, hzf, hzu⟩
          rw [Follows.unique hs hz ht hf hzf]; exact hzu
        · exact fun q => ⟨s, hs, hf, q⟩
      rw [uniq, uniq]
      rcases P.walk hs hw hfl with ⟨e, g⟩ | ⟨⟨fl0, w0⟩, _, _, g⟩
      · obtain ⟨g1, g2⟩ := g v hv
        rw [g1, g2, h.up, h'.up, e]
        cases (par s).up <;> simp
      · obtain ⟨_, w, _, hw', _⟩ := side_node t1
        obtain ⟨e1, e2⟩ := g v w hv (t2 ▸ hw')
        have hf0 : Follows rings (par s) (par t) := (follows_iff s1 t1).2 ⟨fun q => sst (h'.flat.2 q), fun q => hfl (h.flat.2 q), _, w0⟩
        have uniq0 : ∀ u : Bool, (∃ z ∈ sides rings, Follows rings z (par t) ∧ z.up = u) ↔ (par s).up = u := by
          intro u
          constructor
          · rintro ⟨z, hz, hzf, hzu⟩
            rw [Follows.unique s1 hz t1 hf0 hzf]; exact hzu
          · exact fun q => ⟨_, s1, hf0, q⟩
        have g := G.flags (par t) t1 w hw'
        rw [uniq0, uniq0] at g
        rw [e1, e2, h.up, h'.up]
        exact g
  · intro s hs t ht hne hnp a b a0 a1 b0 b1 e
    have hse : SideEnds s t := by
      rcases hE s hs t ht hne with h | h | h
      · refine absurd ?_ hnp
        obtain ⟨h1, h2⟩ := h
        unfold Side.Flat at h1 h2
        unfold Parallel
        rw [h1, h2]; ring
      · refine absurd ?_ hnp
        unfold Parallel
        rcases h with ⟨h1, h2⟩ | ⟨h1, h2⟩ <;> rw [h1, h2] <;> ring
      · exact h
    obtain ⟨o1, o2⟩ := hse _ ⟨a, a0, a1, rfl⟩ ⟨b, b0, b1, e⟩
    have ea : a = 0 ∨ a = 1 := by
      rcases o1 with o | o
      · left; exact lerp_inj (hprop s hs) (by rw [o, lerp_zero])
      · right; exact lerp_inj (hprop s hs) (by rw [o, lerp_one])
    have eb : b = 0 ∨ b = 1 := by
      rw [e] at o2
      rcases o2 with o | o
      · left; exact lerp_inj (hprop t ht) (by rw [o, lerp_zero])
      · right; exact lerp_inj (hprop t ht) (by rw [o, lerp_one])
    exact ⟨ea.elim Or.inl (fun h => Or.inr (Or.inl h)), eb.elim Or.inl (fun h => Or.inr (Or.inl h))⟩
  · intro s hs t ht lt hp p hpe hin
    have onp : OnSeg p s.frm s.seg.target := by
      rcases hpe with rfl | rfl
      · exact ⟨0, le_refl _, zero_le_one, (lerp_zero _ _).symm⟩
      · exact ⟨1, zero_le_one, le_refl _, (lerp_one _ _).symm⟩
    obtain ⟨h1, h2, h3⟩ := hin
    exfalso
    by_cases hne : s = t
    · subst hne
      rcases hpe with e | e
      · exact h2 e
      · exact h3 e
    · rcases hE s hs t ht hne with h | h | h
      · exact lt h.2
      · rcases h with ⟨e1, e2⟩ | ⟨e1, e2⟩ <;> rcases hpe with e | e
        · exact h2 (e.trans e1)
        · exact h3 (e.trans e2)
        · exact h3 (e.trans e1)
        · exact h2 (e.trans e2)
      · rcases (h p onp h1).2 with e | e
        · exact h2 e
        · exact h3 e
  · intro f hf hfl hth p hp s hs t ht hne ps pt gs gt
    obtain ⟨f1, _, _, _, hfp⟩ := P.mem f hf
    obtain ⟨s1, _, _, _, hsp⟩ := P.mem s hs
    obtain ⟨t1, _, _, _, htp⟩ := P.mem t ht
    rw [hsp.parallel htp]
    by_cases e : par s = par t
    · rw [e]; unfold Parallel; ring
    · exact G.corner _ f1 (hfp.flat.1 hfl) (P.through hf hfl hth) p (hfp.on hp) _ s1 _ t1 e (hsp.on ps) (htp.on pt) (hsp.goes gs) (htp.goes gt)
  · intro s hs t ht ls lt hne etop gs gt
    obtain ⟨s1, _, _, _, hsp⟩ := P.mem s hs
    obtain ⟨t1, _, _, _, htp⟩ := P.mem t ht
    obtain ⟨gs, es⟩ := P.goesOn hs ls gs
    obtain ⟨gt, et⟩ := P.goesOn ht lt gt
    have top : ∀ s S : Side K, s.up = S.up → (if s.up then ∃ a, SubSide S s a 1 else ∃ b, SubSide S s 0 b) → s.top = S.top := by
      intro s S hu h
      unfold Side.top
      rw [← hu]
      cases hb : s.up with
      | true =>
        rw [hb, if_pos rfl] at h
        obtain ⟨a, ha⟩ := h
        simp only [if_true]
        rw [ha.target, lerp_one]
      | false =>
        rw [hb, if_neg Bool.false_ne_true] at h
        obtain ⟨a, ha⟩ := h
        simp only [Bool.false_eq_true, if_false]
        rw [ha.pt, lerp_zero]
    by_cases e : par s = par t
    · have hse := P.same s hs t ht hne e
      have eu : t.up = s.up := by rw [hsp.up, htp.up, e]
      rw [eu, ← e] at et
      cases hb : s.up with
      | true =>
        rw [hb, if_pos rfl] at es et
        obtain ⟨a, ha⟩ := es
        obtain ⟨b, hb⟩ := et
        rcases SubSide.disjoint (G.proper _ s1) hse ha hb with h | h
        · exact absurd hb.lt (not_lt.2 h)
        · exact absurd ha.lt (not_lt.2 h)
      | false =>
        rw [hb, if_neg Bool.false_ne_true] at es et
        obtain ⟨a, ha⟩ := es
        obtain ⟨b, hb⟩ := et
        rcases SubSide.disjoint (G.proper _ s1) hse ha hb with h | h
        · exact absurd ha.lt (not_lt.2 h)
        · exact absurd hb.lt (not_lt.2 h)
    · refine G.start _ s1 _ t1 (fun q => ls (hsp.flat.2 q)) (fun q => lt (htp.flat.2 q)) e ?_ gs gt
      rw [← top s _ hsp.up es, ← top t _ htp.up et, etop]
  · intro f hf g hg ff fg hne tf tg hy
    obtain ⟨f1, _, a, b, hfp⟩ := P.mem f hf
    obtain ⟨g1, _, a', b', hgp⟩ := P.mem g hg
    by_cases e : par f = par g
    · have hse := P.same f hf g hg hne e
      rw [← e] at hgp
      have key : ∀ {S f g : Side K} {a b a' b' : K}, SubSide S f a b → SubSide S g a' b' → b ≤ a' →
          max f.frm.x f.seg.target.x ≤ min g.frm.x g.seg.target.x ∨ max g.frm.x g.seg.target.x ≤ min f.frm.x f.seg.target.x := by
        intro S f g a b a' b' h h' hle
        have l1 := h.lt
        have l2 := h'.lt
        rw [h.pt, h.target, h'.pt, h'.target]
        unfold lerp
        simp only
        generalize S.seg.target.x - S.frm.x = D
        rcases le_total 0 D with hD | hD
        · left
          refine max_le (le_min ?_ ?_) (le_min ?_ ?_) <;> nlinarith
        · right
          refine max_le (le_min ?_ ?_) (le_min ?_ ?_) <;> nlinarith
      rcases SubSide.disjoint (G.proper _ f1) hse hfp hgp with h | h
      · exact key hfp hgp h
      · exact (key hgp hfp h).symm
    · have pf := hfp.flat.1 ff
      have pg := hgp.flat.1 fg
      have hyy : ∀ {S s : Side K} {a b : K}, SubSide S s a b → S.Flat → s.frm.y = S.frm.y := by
        intro S s a b h hS
        rw [h.ys.1, show S.seg.target.y = S.frm.y from hS.symm, sub_self, mul_zero, add_zero]
      rw [hyy hfp pf, hyy hgp pg] at hy
      have m1 := hfp.min_max.2.2
      have m2 := hgp.min_max.2.2
      rcases G.overlap _ f1 _ g1 pf pg e (P.through hf ff tf) (P.through hg fg tg) hy with h | h
      · left; exact m1.2.trans (h.trans m2.1)
      · right; exact m2.2.trans (h.trans m1.1)
  · intro a ha b hb hf hau hbu u hu hua hub ⟨r1, r2, z, r3, r4⟩
    obtain ⟨sa, sb, fl, hw⟩ := (follows_iff ha hb).1 hf
    obtain ⟨a1, _, _, _, hap⟩ := P.mem a ha
    obtain ⟨b1, _, _, _, hbp⟩ := P.mem b hb
    obtain ⟨u1, _, α, β, hup'⟩ := P.mem u hu
    simp only at r1 r2 r3 r4
    rcases P.walk ha hw sb with ⟨e, _⟩ | ⟨⟨fl0, w0⟩, g2, ⟨τb, g3⟩, _⟩
    · rw [hap.up, ← e, ← hbp.up, hbu] at hau
      cases hau
    · obtain ⟨τa, g2⟩ := g2 sa
      have ea : a.seg.target = (par a).seg.target := by rw [g2.target, lerp_one]
      have eb : b.frm = (par b).frm := by rw [g3.pt, lerp_zero]
      have pa : ¬ (par a).Flat := fun q => sa (hap.flat.2 q)
      have pb : ¬ (par b).Flat := fun q => sb (hbp.flat.2 q)
      have hf0 : Follows rings (par a) (par b) := (follows_iff a1 b1).2 ⟨pa, pb, _, w0⟩
      have hya : b.frm.y = (par a).seg.target.y := by
        rw [← ea]
        exact (hw.height link ha).1
      have hau' : (par a).up = false := by rw [← hap.up]; exact hau
      have hbu' : (par b).up = true := by rw [← hbp.up]; exact hbu
      obtain ⟨y1, y2⟩ := hup'.ys
      have lt := hup'.lt
      by_cases ca : par u = par a
      · have hse := P.same u hu a ha hua ca
        rw [ca] at hup' y1 y2
        have hD : (par a).seg.target.y < (par a).frm.y := by
          rw [Side.up, decide_eq_false_iff_not, not_lt] at hau'
          exact lt_of_le_of_ne hau' (fun e => pa e.symm)
        have : (1 : K) ≤ β := by
          by_contra hlt
          rw [not_le] at hlt
          refine absurd r1 (not_le.2 (lt_min ?_ ?_))
          · rw [y1, hya]; nlinarith
          · rw [y2, hya]; nlinarith
        rcases SubSide.disjoint (G.proper _ a1) hse hup' g2 with h | h
        · exact absurd g2.lt (not_lt.2 (this.trans h))
        · exact absurd lt (not_lt.2 (hup'.high.trans h))
      by_cases cb : par u = par b
      · have hse := P.same u hu b hb hub cb
        rw [cb] at hup' y1 y2
        have hD : (par b).frm.y < (par b).seg.target.y := by simpa [Side.up] using hbu'
        have : α ≤ 0 := by
          by_contra hlt
          rw [not_le] at hlt
          refine absurd r1 (not_le.2 (lt_min ?_ ?_))
          · rw [y1, eb]; nlinarith
          · rw [y2, eb]; nlinarith
        rcases SubSide.disjoint (G.proper _ b1) hse hup' g3 with h | h
        · exact absurd lt (not_lt.2 (h.trans hup'.low))
        · exact absurd g3.lt (not_lt.2 (h.trans this))
      have pu : ¬ (par u).Flat := by
        intro q
        have q : u.frm.y = u.seg.target.y := hup'.flat.2 q
        rw [q, min_self] at r1
        rw [q, max_self] at r2
        exact absurd r2 (not_lt.2 r1)
      refine G.minima _ a1 _ b1 hf0 hau' hbu' _ u1 ca cb ⟨?_, ?_, z, ?_, ?_⟩
      · rw [← eb]; exact hup'.min_max.1.trans r1
      · rw [← eb]; exact r2.trans_le hup'.min_max.2.1
      · rw [← eb]; exact r3
      · intro y' z1 z2
        rw [← eb] at z1
        have := r4 y' z1 z2
        rw [hbp.atHeight pb, hup'.atHeight pu, hap.atHeight pa] at this
        exact this

omit [FTrans K] [LawfulOrd K] [Exact K] in
/-- Breaking makes no overlaps. -/
theorem Pieced.overlap {rings rings' : List (Ring K)} (hprop : ∀ s ∈ sides rings, s.frm ≠ s.seg.target) {par : Side K → Side K}
    (P : Pieced rings rings' par) {s t : Side K} (hs : s ∈ sides rings') (ht : t ∈ sides rings') (hne : s ≠ t)
    (h : Overlap s.frm s.seg.target t.frm t.seg.target) :
    par s ≠ par t ∧ Overlap (par s).frm (par s).seg.target (par t).frm (par t).seg.target := by
  obtain ⟨p, q, hpq, p1, q1, p2, q2⟩ := h
  obtain ⟨s1, _, a, b, hsp⟩ := P.mem s hs
  obtain ⟨t1, _, a', b', htp⟩ := P.mem t ht
  refine ⟨fun e => ?_, p, q, hpq, hsp.on p1, hsp.on q1, htp.on p2, htp.on q2⟩
  have hse := P.same s hs t ht hne e
  rw [← e] at htp
  obtain ⟨τ, u1, u2, e1⟩ := (hsp.onSeg p).1 p1
  obtain ⟨τ', u1', u2', e1'⟩ := (htp.onSeg p).1 p2
  obtain ⟨ρ, v1, v2, e2⟩ := (hsp.onSeg q).1 q1
  obtain ⟨ρ', v1', v2', e2'⟩ := (htp.onSeg q).1 q2
  have h1 : τ = τ' := lerp_inj (hprop _ s1) (e1.symm.trans e1')
  have h2 : ρ = ρ' := lerp_inj (hprop _ s1) (e2.symm.trans e2')
  have hne : τ ≠ ρ := fun h => hpq (by rw [e1, e2, h])
  subst h1; subst h2
  rcases SubSide.disjoint (hprop _ s1) hse hsp htp with h | h
  · exact hne (le_antisymm (u2.trans (h.trans v1')) (v2.trans (h.trans u1')))
  · exact hne (le_antisymm (u2'.trans (h.trans v1)) (v2'.trans (h.trans u1)))

theorem Apart.pieced {rings rings' : List (Ring K)} (hA : Apart rings) (hprop : ∀ s ∈ sides rings, s.frm ≠ s.seg.target) {par : Side K → Side K}
    (P : Pieced rings rings' par) : Apart rings' := by
  intro s hs t ht ls hne ho
  obtain ⟨s1, _, a, b, hsp⟩ := P.mem s hs
  obtain ⟨h1, h2⟩ := P.overlap hprop hs ht hne ho
  exact hA _ s1 _ (P.mem t ht).1 (fun q => ls (hsp.flat.2 q)) h1 h2

theorem ApartIn.pieced {rings rings' : List (Ring K)} {k : Nat} (hA : ApartIn rings k) (hprop : ∀ s ∈ sides rings, s.frm ≠ s.seg.target)
    {par : Side K → Side K} (P : Pieced rings rings' par) : ApartIn rings' k := by
  intro s hs t ht ks kt ls hne ho
  obtain ⟨s1, rs, a, b, hsp⟩ := P.mem s hs
  obtain ⟨t1, rt, _⟩ := P.mem t ht
  obtain ⟨h1, h2⟩ := P.overlap hprop hs ht hne ho
  exact hA _ s1 _ t1 (rs.trans ks) (rt.trans kt) (fun q => ls (hsp.flat.2 q)) h1 h2

/-! ## the broken contours -/

/-- Where a segment is broken: at its ends and where it meets other segments. -/
def BreakAt (N : List (Vtx K)) (v : Vtx K) (a : K) : Prop := a = 0 ∨ a = 1 ∨ ∃ u ∈ N, Source v u (lerp v.pt v.seg.target a)

/-- What breaking delivers: every contour is made of the pieces of its sides. -/
structure BrokenInto (rings rings' : List (Ring K)) : Prop where
  pieces : List.Forall₂ (fun r r' => r'.ptype = r.ptype ∧ ∃ chunks : List (List (Vtx K)), r'.nodes = chunks.flatten ∧ chunks.length = r.nodes.length ∧
    ∀ (i : Nat) (v : Vtx K) (c : List (Vtx K)), r.nodes[i]? = some v → chunks[i]? = some c → ∃ ts, Pieces v ts c) rings rings'
  linked : ∀ r ∈ rings', Linked r.nodes
  straight : ∀ s ∈ sides rings', s.Straight
  ends : EndsMeet rings'
  general : General rings'
  apart : Apart rings → Apart rings'
  apartIn : ∀ k, ApartIn rings k → ApartIn rings' k
  knots : ∀ w ∈ allNodes rings', ∃ v ∈ allNodes rings, ∃ a b, SubPiece v w a b ∧ BreakAt (allNodes rings) v a ∧ BreakAt (allNodes rings) v b

theorem BrokenInto.noTwin {rings rings' : List (Ring K)} (B : BrokenInto rings rings') (hA : Apart rings) :
    ∀ s ∈ sides rings', ∀ t ∈ sides rings', ¬ s.Flat → ¬ t.Flat → s ≠ t → ¬ Twin s t :=
  fun _ hs _ ht ls lt hne => (B.apart hA).noTwin B.straight hs ht ls lt hne

/-- Breaking along the exact intersections. -/
theorem broken_of {rings rings' : List (Ring K)} (G : General rings) {brks : List (Brk K)} (hX : ExactBreaks (allNodes rings) brks)
    (hrr : List.Forall₂ (fun r r' => r'.ptype = r.ptype ∧ ∃ chunks : List (List (Vtx K)), r'.nodes = chunks.flatten ∧ chunks.length = r.nodes.length ∧
      ∀ (i : Nat) (v : Vtx K) (c : List (Vtx K)), r.nodes[i]? = some v → chunks[i]? = some c →
        ∃ n cuts, (allNodes rings)[n]? = some v ∧ IsCuts brks n cuts ∧ Chain v cuts c) rings rings')
    {chunks : List (List (Vtx K))} (a1 : allNodes rings' = chunks.flatten) (a2 : chunks.length = (allNodes rings).length)
    (a3 : ∀ (i : Nat) (v : Vtx K) (c : List (Vtx K)), (allNodes rings)[i]? = some v → chunks[i]? = some c → ∃ cuts, IsCuts brks i cuts ∧ Chain v cuts c)
    (link' : ∀ r ∈ rings', Linked r.nodes) : Arranged rings' ∧ BrokenInto rings rings' := by
  have hN := G.nodesOk
  have a3' : ∀ (i : Nat) (v : Vtx K) (c : List (Vtx K)), (allNodes rings)[i]? = some v → chunks[i]? = some c → PieceOf brks i v c := by
    intro i v c hv hc
    obtain ⟨cuts, h1, h2⟩ := a3 i v c hv hc
    exact pieceOf hN hX hv h1 h2
  have hpw : (allNodes rings').Pairwise PiecesOk := by rw [a1]; exact pieces_pairwise hN hX a2 a3'
  have hends : EndsMeet rings' := by
    intro s hs t ht hne
    have key : ((sides rings').map (fun s => (s.frm, s.seg))).Pairwise (fun a b => PiecesOk ⟨a.1, a.2, false, false⟩ ⟨b.1, b.2, false, false⟩) := by
      rw [sides_geo, List.pairwise_map]
      exact hpw
    rw [List.pairwise_map] at key
    have : Std.Symm (fun a b : Side K => PiecesOk ⟨a.frm, a.seg, false, false⟩ ⟨b.frm, b.seg, false, false⟩) := by
      refine ⟨fun a b h => ?_⟩
      rcases h with h | (h | h) | h
      · exact Or.inl h.symm
      · exact Or.inr (Or.inl (Or.inl ⟨h.1.symm, h.2.symm⟩))
      · exact Or.inr (Or.inl (Or.inr ⟨h.2.symm, h.1.symm⟩))
      · exact Or.inr (Or.inr (EndsOnly.symm h))
    exact key.forall hs ht hne
  have hpc : List.Forall₂ (fun r r' => r'.ptype = r.ptype ∧ ∃ chunks : List (List (Vtx K)), r'.nodes = chunks.flatten ∧ chunks.length = r.nodes.length ∧
      ∀ (i : Nat) (v : Vtx K) (c : List (Vtx K)), r.nodes[i]? = some v → chunks[i]? = some c → ∃ ts, Pieces v ts c) rings rings' := by
    refine hrr.imp ?_
    rintro r r' ⟨e, ch, c1, c2, c3⟩
    refine ⟨e, ch, c1, c2, fun i v c hv hc => ?_⟩
    obtain ⟨n, cuts, h1, h2, h3⟩ := c3 i v c hv hc
    obtain ⟨ts, h4, _⟩ := pieceOf hN hX h1 h2 h3
    exact ⟨ts, h4⟩
  obtain ⟨par, P⟩ := pieced G.proper hpc
  have hgen : General rings' := G.pieced P link' hends
  refine ⟨hgen.arranged hends, hpc, link', hgen.straight, hends, hgen, fun hA => hA.pieced G.proper P, fun _ hA => hA.pieced G.proper P, ?_⟩
  intro w hw
  rw [a1] at hw
  obtain ⟨c, hc, hwc⟩ := List.mem_flatten.1 hw
  obtain ⟨i, hi⟩ := List.getElem?_of_mem hc
  have hl := (List.getElem?_eq_some_iff.1 hi).1
  have hv := List.getElem?_eq_getElem (a2 ▸ hl : i < (allNodes rings).length)
  obtain ⟨ts, p1, p2⟩ := a3' i _ c hv hi
  obtain ⟨k, hk⟩ := List.getElem?_of_mem hwc
  obtain ⟨a, b, ha, hb, hab⟩ := p1.piece k w hk
  have hbr : ∀ x ∈ (0 :: (ts ++ [1]) : List K), BreakAt (allNodes rings) (allNodes rings)[i] x := by
    intro x hx
    rw [List.mem_cons, List.mem_append, List.mem_singleton] at hx
    rcases hx with hx | hx | hx
    · exact Or.inl hx
    · obtain ⟨p, hp⟩ := (p2 x).1 hx
      obtain ⟨v, v1, _, v3, u, hu, hs⟩ := hX.sound _ hp
      simp only at v1 v3 hs
      rw [hv] at v1
      cases Option.some.inj v1
      exact Or.inr (Or.inr ⟨u, hu, v3 ▸ hs⟩)
    · exact Or.inr (Or.inl hx)
  exact ⟨_, List.mem_of_getElem? hv, a, b, hab, hbr a (List.mem_of_getElem? ha), hbr b (List.mem_of_getElem? hb)⟩

theorem general_broken {rings : List (Ring K)} (G : General rings) (env : Env K) (hok : env.Ok) :
    ∃ rings', processIntersect env rings = some rings' ∧ Arranged rings' ∧ BrokenInto rings rings' := by
  have hN := G.nodesOk
  obtain ⟨brks, hb, b1, b2⟩ := collectBreaks_exact hN env hok
  have hX : ExactBreaks (allNodes rings) brks := ⟨b1, b2⟩
  obtain ⟨rings', hr'⟩ : ∃ rings', rings' = breakRings env.tsort (breakGroups env brks) 0 rings := ⟨_, rfl⟩
  have hp : processIntersect env rings = some rings' := by rw [processIntersect, hb, hr']; rfl
  have hrr := breakRings_rings env hok brks rings G.linked []
  rw [List.nil_append, show (allNodes ([] : List (Ring K))).length = 0 from rfl, ← hr'] at hrr
  obtain ⟨brks', chunks, hb', a1, a2, a3, a4⟩ := processIntersect_spec env hok rings rings' G.linked hp
  rw [hb] at hb'
  cases Option.some.inj hb'
  have link' : ∀ r ∈ rings', Linked r.nodes := by
    intro r' hr'
    obtain ⟨i, hi⟩ := List.getElem?_of_mem hr'
    have := a4
    rw [List.forall₂_iff_get] at this
    have hl := (List.getElem?_eq_some_iff.1 hi).1
    have h := (this.2 i (this.1 ▸ hl) hl).2.2.1
    rw [List.get_eq_getElem, (List.getElem?_eq_some_iff.1 hi).2] at h
    exact h
  exact ⟨rings', hp, broken_of G hX hrr a1 a2 a3 link'⟩

end River
