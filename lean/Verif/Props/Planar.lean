import Verif.Lemmas.Slices

/-! # C68: the half edges divide the plane (exact arithmetic) -/

namespace River
variable {K : Type}

attribute [local instance 10000] FTrans.toFNum

section geometry
variable [Field K] [LinearOrder K]

omit [LinearOrder K] in
theorem parallel_symm {a b c e : Vec2 K} (h : Parallel a b c e) : Parallel c e a b := by
  unfold Parallel at *; linear_combination -h

theorem meetAtEnds_symm {a b c e : Vec2 K} (h : MeetAtEnds a b c e) : MeetAtEnds c e a b := fun X h1 h2 => (h X h2 h1).symm

theorem noOverlap_symm {l m : Vec2 K × Vec2 K} (h : NoOverlap l m) : NoOverlap m l := fun hp => meetAtEnds_symm (h (parallel_symm hp))

end geometry

variable [Field K] [LinearOrder K] [IsStrictOrderedRing K] [FTrans K] [LawfulOrd K] [Exact K]

omit [IsStrictOrderedRing K] in
theorem lineIntersect_single {p0 p1 p2 p3 : Vec2 K} (hn : ¬ Parallel p0 p1 p2 p3) {l : List (Info K)}
    (h : lineIntersect p0 p1 p2 p3 = some l) : l.length ≤ 1 := by
  obtain ⟨D, hD⟩ : ∃ D, D = (p1.y - p0.y) * (p2.x - p3.x) - (p1.x - p0.x) * (p2.y - p3.y) := ⟨_, rfl⟩
  have hD0 : D ≠ 0 := by
    intro h; apply hn; unfold Parallel; rw [hD] at h; linear_combination h
  unfold lineIntersect at h
  simp only [Vec2.sub, Vec2.add, Vec2.smul, Exact.add_eq, Exact.sub_eq, Exact.mul_eq, Exact.div_eq, exact_one, exact_zero, Exact.fin_eq,
    le_eq_decide, eq_eq_decide, ← hD] at h
  rw [if_neg (by simp [hD0])] at h
  split at h
  · simp only [Option.some.injEq] at h
    subst h; simp
  · simp only [Option.some.injEq] at h
    subst h; simp

/-- What is recorded for two lines: points on them, and every common point unless it is an end of both. -/
theorem dcelIntersect_exact {p0 p1 p2 p3 : Vec2 K} (hn : NoOverlap (p0, p1) (p2, p3)) (n01 : p0 ≠ p1) (n23 : p2 ≠ p3)
    (r0 : InDoubles p0) (r1 : InDoubles p1) (r2 : InDoubles p2) (r3 : InDoubles p3) :
    ∃ bl br, dcelIntersect p0 p1 p2 p3 = some (bl, br) ∧ (∀ z ∈ bl, OnSeg z p0 p1) ∧ (∀ z ∈ br, OnSeg z p2 p3) ∧
      ∀ X, OnSeg X p0 p1 → OnSeg X p2 p3 → (X ∈ bl ∧ X ∈ br) ∨ ((X = p0 ∨ X = p1) ∧ (X = p2 ∨ X = p3)) := by
  by_cases hp : Parallel p0 p1 p2 p3
  · have hm := hn hp
    refine ⟨[], [], ?_, by simp, by simp, fun X h1 h2 => .inr (hm X h1 h2)⟩
    unfold dcelIntersect
    rw [lineIntersect_apart hp n01 n23 r0 r1 r2 r3]
    · rfl
    · intro a b a0 a1 b0 b1 he
      obtain ⟨k1, k2⟩ := hm (lerp p0 p1 a) ⟨a, a0, a1, rfl⟩ ⟨b, b0, b1, he⟩
      constructor
      · rcases k1 with k | k
        · exact .inl (lerp_inj n01 (by rw [lerp_at_zero]; exact k))
        · exact .inr (lerp_inj n01 (by rw [lerp_at_one]; exact k))
      · rw [he] at k2
        rcases k2 with k | k
        · exact .inl (lerp_inj n23 (by rw [lerp_at_zero]; exact k))
        · exact .inr (lerp_inj n23 (by rw [lerp_at_one]; exact k))
  · obtain ⟨l, hl, h1, h2⟩ := lineIntersect_exact hp
    have hlen := lineIntersect_single hp hl
    rcases l with _ | ⟨i, _ | ⟨j, l⟩⟩
    · refine ⟨[], [], ?_, by simp, by simp, ?_⟩
      · unfold dcelIntersect; rw [hl]; rfl
      · rintro X ⟨a, a0, a1, rfl⟩ ⟨b, b0, b1, he⟩
        exact absurd (h2 a b a0 a1 b0 b1 he) (by simp)
    · obtain ⟨k1, k2, k3, k4, k5, k6⟩ := h1 i List.mem_cons_self
      refine ⟨[i.p], [i.p], ?_, ?_, ?_, ?_⟩
      · unfold dcelIntersect; rw [hl]; rfl
      · intro z hz
        rw [List.mem_singleton.1 hz]
        exact ⟨_, k1, k2, k5⟩
      · intro z hz
        rw [List.mem_singleton.1 hz]
        exact ⟨_, k3, k4, k6⟩
      · rintro X ⟨a, a0, a1, rfl⟩ ⟨b, b0, b1, he⟩
        have := List.mem_singleton.1 (h2 a b a0 a1 b0 b1 he)
        rw [← this]
        simp
    · simp at hlen

/-! ## The broad phase finds every pair with a common point -/

omit [Exact K] [IsStrictOrderedRing K] in
theorem box_mem {s e X : Vec2 K} [IsStrictOrderedRing K] (hX : OnSeg X s e) : (Rect.of [s, e]).Mem X := by
  obtain ⟨_, _, _, _, h, _⟩ := Rect.foldl_extend [s, e] Rect.start
  obtain ⟨a1, a2, a3, a4⟩ := h s (by simp)
  obtain ⟨b1, b2, b3, b4⟩ := h e (by simp)
  obtain ⟨t, h0, h1, rfl⟩ := hX
  have key : ∀ u v lo hi : K, lo ≤ u → u ≤ hi → lo ≤ v → v ≤ hi → lo ≤ u + t * (v - u) ∧ u + t * (v - u) ≤ hi := by
    intro u v lo hi c1 c2 c3 c4
    have e1 : u + t * (v - u) - lo = (1 - t) * (u - lo) + t * (v - lo) := by ring
    have e2 : hi - (u + t * (v - u)) = (1 - t) * (hi - u) + t * (hi - v) := by ring
    have h1' : 0 ≤ 1 - t := sub_nonneg.2 h1
    have m1 := add_nonneg (mul_nonneg h1' (sub_nonneg.2 c1)) (mul_nonneg h0 (sub_nonneg.2 c3))
    have m2 := add_nonneg (mul_nonneg h1' (sub_nonneg.2 c2)) (mul_nonneg h0 (sub_nonneg.2 c4))
    constructor <;> linarith
  obtain ⟨x1, x2⟩ := key s.x e.x _ _ a1 a2 b1 b2
  obtain ⟨y1, y2⟩ := key s.y e.y _ _ a3 a4 b3 b4
  exact ⟨x1, x2, y1, y2⟩

theorem pairs_complete {o : DOrder K} (ho : o.Ok) {d : Dcel K} {ids : List Nat} {i j : Nat} (hi : i ∈ ids) (hj : j ∈ ids) (hij : i ≠ j)
    {a b c e X : Vec2 K} (h1 : d.ends i = some (a, b)) (h2 : d.ends j = some (c, e)) (hX : OnSeg X a b) (hX' : OnSeg X c e) :
    (i, j) ∈ d.pairs o ids ∨ (j, i) ∈ d.pairs o ids := by
  obtain ⟨m, hm, rfl⟩ := List.getElem_of_mem hi
  obtain ⟨n, hn, rfl⟩ := List.getElem_of_mem hj
  obtain ⟨box, hbox, hpairs⟩ : ∃ box : Nat → Rect K, (∀ i s f, d.ends i = some (s, f) → box i = Rect.of [s, f]) ∧
      d.pairs o ids = (scanProcess o.scanAddr (ids.map box) Rect.start).map (fun c => (ids.getD c.1 0, ids.getD c.2 0)) :=
    ⟨_, fun i s f h => by simp only [h], rfl⟩
  rw [hpairs]
  have hmn : m ≠ n := fun hh => hij (by subst hh; rfl)
  obtain ⟨_, _, hs⟩ := scanProcess_spec o.scanAddr ho.addr (ids.map box) Rect.start
  have hm' : m < (ids.map box).length := by simpa using hm
  have hn' : n < (ids.map box).length := by simpa using hn
  have hb1 : (ids.map box)[m] = Rect.of [a, b] := by rw [List.getElem_map]; exact hbox _ _ _ h1
  have hb2 : (ids.map box)[n] = Rect.of [c, e] := by rw [List.getElem_map]; exact hbox _ _ _ h2
  have hm1 := box_mem hX
  have hm2 := box_mem hX'
  have hint : ((ids.map box)[m]).intersect (ids.map box)[n] = true := by
    rw [hb1, hb2]
    exact (Rect.intersect_iff _ _ ⟨hm1.1.trans hm1.2.1, hm1.2.2.1.trans hm1.2.2.2⟩ ⟨hm2.1.trans hm2.2.1, hm2.2.2.1.trans hm2.2.2.2⟩).2
      ⟨X, hm1, hm2⟩
  have g1 : ids.getD m 0 = ids[m] := by rw [List.getD_eq_getElem?_getD, List.getElem?_eq_getElem hm]; rfl
  have g2 : ids.getD n 0 = ids[n] := by rw [List.getD_eq_getElem?_getD, List.getElem?_eq_getElem hn]; rfl
  rcases (hs m n hm' hn' hmn).2 hint with h | h
  · exact .inl (List.mem_map.2 ⟨_, h, by rw [g1, g2]⟩)
  · exact .inr (List.mem_map.2 ⟨_, h, by rw [g1, g2]⟩)

/-! ## The theorem -/

/-- The lines that were added have finite coordinates and do not overlap. -/
structure Spread (lines : List (Vec2 K × Vec2 K)) : Prop where
  range : ∀ l ∈ lines, InDoubles l.1 ∧ InDoubles l.2
  apart : lines.Pairwise NoOverlap

omit [IsStrictOrderedRing K] [LawfulOrd K] [Exact K] in
theorem linesOf_proper {calls : List (DCall K)} {l : Vec2 K × Vec2 K} (h : l ∈ linesOf calls) : l.1 ≠ l.2 := by
  unfold linesOf at h
  obtain ⟨c, _, hc⟩ := List.mem_filterMap.1 h
  cases c with
  | type t => simp at hc
  | line x1 y1 x2 y2 =>
    simp only at hc
    split at hc
    · simp at hc
    · next hne =>
      simp only [Option.some.injEq] at hc
      subst hc
      intro he
      exact hne ⟨congrArg Vec2.x he, congrArg Vec2.y he⟩

theorem fits_of_spread {calls : List (DCall K)} (hs : Spread (linesOf calls)) : (Dcel.after calls).Fits := by
  intro i j p0 p1 p2 p3 hij h1 h2
  have H := holds_after calls
  rw [H.ends] at h1 h2
  obtain ⟨l1, e1⟩ := List.getElem?_eq_some_iff.1 h1
  obtain ⟨l2, e2⟩ := List.getElem?_eq_some_iff.1 h2
  have m1 : (p0, p1) ∈ linesOf calls := List.mem_of_getElem? h1
  have m2 : (p2, p3) ∈ linesOf calls := List.mem_of_getElem? h2
  have hno : NoOverlap (p0, p1) (p2, p3) := by
    rcases Nat.lt_or_gt_of_ne hij with h | h
    · have := List.pairwise_iff_getElem.1 hs.apart i j l1 l2 h
      rwa [e1, e2] at this
    · have := List.pairwise_iff_getElem.1 hs.apart j i l2 l1 h
      rw [e1, e2] at this
      exact noOverlap_symm this
  obtain ⟨bl, br, h, _⟩ := dcelIntersect_exact hno (linesOf_proper m1) (linesOf_proper m2) (hs.range _ m1).1 (hs.range _ m1).2 (hs.range _ m2).1
    (hs.range _ m2).2
  unfold dcelIntersect at h
  obtain ⟨res, hr, _⟩ := Option.bind_eq_some_iff.1 h
  rw [hr]; rfl

/-- After breaking: the end points of the half edges are those of the pieces of the lines; the pieces cover the lines and meet at end
points only. -/
theorem processBreak_divides {o : DOrder K} (ho : o.Ok) (hso : o.Sorts) {calls : List (DCall K)} (hs : Spread (linesOf calls)) {d : Dcel K}
    (h : (Dcel.after calls).processBreak o = some d) : d.Wf ∧
      (∀ X, (∃ i a b, d.ends i = some (a, b) ∧ OnSeg X a b) ↔ ∃ l ∈ linesOf calls, OnSeg X l.1 l.2) ∧
      ∀ i j a b c e, d.ends i = some (a, b) → d.ends j = some (c, e) → i ≠ j → MeetAtEnds a b c e := by
  have H := holds_after calls
  have w0 := after_wf calls
  obtain ⟨d0, hd0⟩ : ∃ d0, d0 = Dcel.after calls := ⟨_, rfl⟩
  rw [← hd0] at H h w0
  obtain ⟨L, hL⟩ : ∃ L, L = linesOf calls := ⟨_, rfl⟩
  have hproper : ∀ l ∈ L, l.1 ≠ l.2 := by rw [hL]; exact fun l hl => linesOf_proper hl
  rw [← hL] at H hs ⊢
  unfold Dcel.processBreak at h
  obtain ⟨d1, h1, h2⟩ := Option.bind_eq_some_iff.1 h
  have live0 : ∀ i, i ∈ d0.live ↔ i < L.length := by
    intro i
    constructor
    · intro hi
      obtain ⟨a, b, hab⟩ := ends_of_live w0 hi
      rw [H.ends] at hab
      exact (List.getElem?_eq_some_iff.1 hab).1
    · intro hi
      have := H.ends i
      rw [List.getElem?_eq_getElem hi] at this
      obtain ⟨e, he, _⟩ := (ends_iff _ _ _ _).1 this
      exact (mem_live _ _).2 ⟨e, he⟩
  have hnd0 : (o.iter d0.live).Nodup := (ho.iter _).nodup_iff.2 (live_nodup d0)
  obtain ⟨asc, lv, en, pt, br⟩ := meetAll_breaks (d0.pairs o (o.iter d0.live)) d0 d1 (by
    intro i; rw [H.fresh]; exact List.Pairwise.nil) h1
  have w1 := Dcel.Wf.meetAll _ w0 h1
  have w2 := Dcel.Wf.breakAll _ w1 h2
  have hno : ∀ i j (hi : i < L.length) (hj : j < L.length), i ≠ j → NoOverlap L[i] L[j] := by
    intro i j hi hj hij
    rcases Nat.lt_or_gt_of_ne hij with h | h
    · exact List.pairwise_iff_getElem.1 hs.apart i j hi hj h
    · exact noOverlap_symm (List.pairwise_iff_getElem.1 hs.apart j i hj hi h)
  have cross : ∀ i j (hi : i < L.length) (hj : j < L.length), i ≠ j → ∃ bl br, dcelIntersect L[i].1 L[i].2 L[j].1 L[j].2 = some (bl, br) ∧
      (∀ z ∈ bl, OnSeg z L[i].1 L[i].2) ∧ (∀ z ∈ br, OnSeg z L[j].1 L[j].2) ∧ ∀ X, OnSeg X L[i].1 L[i].2 → OnSeg X L[j].1 L[j].2 →
        (X ∈ bl ∧ X ∈ br) ∨ ((X = L[i].1 ∨ X = L[i].2) ∧ (X = L[j].1 ∨ X = L[j].2)) := by
    intro i j hi hj hij
    have m1 := List.getElem_mem hi
    have m2 := List.getElem_mem hj
    exact dcelIntersect_exact (hno i j hi hj hij) (hproper _ m1) (hproper _ m2) (hs.range _ m1).1 (hs.range _ m1).2 (hs.range _ m2).1
      (hs.range _ m2).2
  have ends0 : ∀ i (hi : i < L.length), d0.ends i = some (L[i].1, L[i].2) := by
    intro i hi; rw [H.ends, List.getElem?_eq_getElem hi]
  have pin : ∀ c ∈ d0.pairs o (o.iter d0.live), c.1 < L.length ∧ c.2 < L.length ∧ c.1 ≠ c.2 := by
    rintro ⟨i, j⟩ hc
    obtain ⟨k1, k2, k3⟩ := pairs_sub o d0 _ hnd0 i j hc
    exact ⟨(live0 i).1 ((ho.iter _).mem_iff.1 k1), (live0 j).1 ((ho.iter _).mem_iff.1 k2), k3⟩
  -- break points lie on their line
  have hon : ∀ i (hi : i < L.length), ∀ z ∈ d1.breaksOf i, OnSeg z L[i].1 L[i].2 := by
    intro i hi z hz
    rcases (br i ((live0 i).2 hi) z).1 hz with hz | ⟨c, hc, p0, p1, p2, p3, bl, br', f1, f2, f3, hzz⟩
    · rw [H.fresh] at hz; simp at hz
    · obtain ⟨c1, c2, c3⟩ := pin c hc
      obtain ⟨bl', br'', g1, g2, g3, _⟩ := cross c.1 c.2 c1 c2 c3
      rw [ends0 _ c1] at f1
      rw [ends0 _ c2] at f2
      obtain ⟨rfl, rfl⟩ := Prod.mk.inj (Option.some.inj f1)
      obtain ⟨rfl, rfl⟩ := Prod.mk.inj (Option.some.inj f2)
      rw [g1] at f3
      obtain ⟨rfl, rfl⟩ := Prod.mk.inj (Option.some.inj f3)
      rcases hzz with ⟨rfl, hz'⟩ | ⟨rfl, hz'⟩
      · exact g2 z hz'
      · exact g3 z hz'
  -- common points are break points or ends
  have hcom : ∀ i j (hi : i < L.length) (hj : j < L.length), i ≠ j → ∀ X, OnSeg X L[i].1 L[i].2 → OnSeg X L[j].1 L[j].2 →
      X ∈ L[i].1 :: d1.breaksOf i ++ [L[i].2] := by
    intro i j hi hj hij X hX hX'
    have hp := pairs_complete ho ((ho.iter _).mem_iff.2 ((live0 i).2 hi)) ((ho.iter _).mem_iff.2 ((live0 j).2 hj)) hij (ends0 i hi)
      (ends0 j hj) hX hX'
    have fin : ∀ P : Prop, (X ∈ d1.breaksOf i ∨ (X = L[i].1 ∨ X = L[i].2)) → X ∈ L[i].1 :: d1.breaksOf i ++ [L[i].2] := by
      intro _ h
      simp only [List.cons_append, List.mem_cons, List.mem_append, List.mem_singleton, List.not_mem_nil, or_false]
      tauto
    apply fin True
    rcases hp with hp | hp
    · obtain ⟨bl, br', g1, _, _, g4⟩ := cross i j hi hj hij
      rcases g4 X hX hX' with ⟨k1, _⟩ | ⟨k1, _⟩
      · exact .inl ((br i ((live0 i).2 hi) X).2 (.inr ⟨_, hp, _, _, _, _, bl, br', ends0 i hi, ends0 j hj, g1, .inl ⟨rfl, k1⟩⟩))
      · exact .inr k1
    · obtain ⟨bl, br', g1, _, _, g4⟩ := cross j i hj hi (Ne.symm hij)
      rcases g4 X hX' hX with ⟨_, k1⟩ | ⟨_, k1⟩
      · exact .inl ((br i ((live0 i).2 hi) X).2 (.inr ⟨_, hp, _, _, _, _, bl, br', ends0 j hj, ends0 i hi, g1, .inr ⟨rfl, k1⟩⟩))
      · exact .inr k1
  have sl : ∀ i (hi : i < L.length), Sliced L[i].1 L[i].2 (o.sortB L[i].1 L[i].2 (d1.breaksOf i)) := by
    intro i hi
    exact sliced_of_sorted (hproper _ (List.getElem_mem hi)) (fun p hp => hon i hi p ((ho.sortB _ _ _).mem_iff.1 hp)) (hso _ _ _ (hon i hi))
  have hpc : ∀ i (hi : i < L.length), d1.pieces o.sortB i = neighbours (L[i].1 :: o.sortB L[i].1 L[i].2 (d1.breaksOf i) ++ [L[i].2]) := by
    intro i hi
    unfold Dcel.pieces
    rw [en, ends0 i hi]
  obtain ⟨ids, hids⟩ : ∃ ids, ids = o.iter d1.live := ⟨_, rfl⟩
  have hidp : ids.Perm d0.live := by rw [hids, ← lv]; exact ho.iter _
  have hidn : ids.Nodup := hidp.nodup_iff.2 (live_nodup d0)
  rw [← hids] at h2
  obtain ⟨n2, _, new, p1, p2⟩ := breakAll_pieces ids w1 (by rw [pt]; exact H.nodup) hidn
    (fun i hi => by rw [lv]; exact hidp.mem_iff.1 hi) h2
  have hempty : d1.live.filter (fun j => decide (j ∉ ids)) = [] := by
    rw [List.filter_eq_nil_iff]
    intro j hj
    rw [lv] at hj
    simp [hidp.mem_iff.2 hj]
  rw [hempty, List.nil_append] at p1
  have hidl : ∀ i, i ∈ ids ↔ i < L.length := fun i => by rw [hidp.mem_iff, live0]
  have p3 : (d.live.map d.ends).Perm ((ids.flatMap (d1.pieces o.sortB)).map some) := by
    rw [← p2]; exact p1.map _
  have hmem : ∀ a b, (∃ i, d.ends i = some (a, b)) ↔ ∃ i ∈ ids, (a, b) ∈ d1.pieces o.sortB i := by
    intro a b
    rw [← List.mem_flatMap]
    constructor
    · rintro ⟨i, hi⟩
      have hil : i ∈ d.live := by
        obtain ⟨e, he, _⟩ := (ends_iff _ _ _ _).1 hi
        exact (mem_live _ _).2 ⟨e, he⟩
      have := p3.mem_iff.1 (List.mem_map.2 ⟨i, hil, hi⟩)
      obtain ⟨x, hx, hx'⟩ := List.mem_map.1 this
      rw [Option.some.injEq] at hx'
      rwa [← hx']
    · intro hx
      obtain ⟨i, _, hi⟩ := List.mem_map.1 (p3.mem_iff.2 (List.mem_map.2 ⟨_, hx, rfl⟩))
      exact ⟨i, hi⟩
  refine ⟨w2, ?_, ?_⟩
  · intro X
    constructor
    · rintro ⟨i, a, b, hi, hX⟩
      obtain ⟨k, hk, hab⟩ := (hmem a b).1 ⟨i, hi⟩
      have hk := (hidl k).1 hk
      rw [hpc k hk] at hab
      exact ⟨L[k], List.getElem_mem hk, sliced_sub (sl k hk) hab hX⟩
    · rintro ⟨l, hl, hX⟩
      obtain ⟨k, hk, rfl⟩ := List.getElem_of_mem hl
      obtain ⟨⟨a, b⟩, hab, hX'⟩ := sliced_cover (sl k hk) hX
      obtain ⟨i, hi⟩ := (hmem a b).2 ⟨k, (hidl k).2 hk, by rw [hpc k hk]; exact hab⟩
      exact ⟨i, a, b, hi, hX'⟩
  · -- pieces of one line, pieces of two lines
    have hpw : (ids.flatMap (d1.pieces o.sortB)).Pairwise (fun p q => MeetAtEnds p.1 p.2 q.1 q.2) := by
      rw [List.pairwise_flatMap]
      constructor
      · intro k hk
        have hk := (hidl k).1 hk
        rw [hpc k hk]
        exact sliced_apart (hproper _ (List.getElem_mem hk)) (sl k hk)
      · refine hidn.imp_of_mem ?_
        intro k m hk hm hkm
        have hk := (hidl k).1 hk
        have hm := (hidl m).1 hm
        rw [hpc k hk, hpc m hm]
        intro x hx y hy X h1 h2
        have q1 := sliced_sub (sl k hk) hx h1
        have q2 := sliced_sub (sl m hm) hy h2
        have perm : ∀ i (a b : Vec2 K), X ∈ a :: d1.breaksOf i ++ [b] → X ∈ a :: o.sortB a b (d1.breaksOf i) ++ [b] := by
          intro i a b hX
          simp only [List.cons_append, List.mem_cons, List.mem_append, List.mem_singleton] at hX ⊢
          rw [(ho.sortB _ _ _).mem_iff]
          exact hX
        exact ⟨sliced_end (hproper _ (List.getElem_mem hk)) (sl k hk) hx h1 (perm _ _ _ (hcom k m hk hm hkm X q1 q2)),
          sliced_end (hproper _ (List.getElem_mem hm)) (sl m hm) hy h2 (perm _ _ _ (hcom m k hm hk (Ne.symm hkm) X q2 q1))⟩
    have hpw' : (d.live.map d.ends).Pairwise (fun p q => ∀ x y, p = some x → q = some y → MeetAtEnds x.1 x.2 y.1 y.2) := by
      have : Std.Symm (fun p q : Option (Vec2 K × Vec2 K) => ∀ x y, p = some x → q = some y → MeetAtEnds x.1 x.2 y.1 y.2) :=
        ⟨fun p q h x y hx hy => meetAtEnds_symm (h y x hy hx)⟩
      refine (List.Perm.pairwise_iff (fun {p q} h x y hx hy => meetAtEnds_symm (h y x hy hx)) p3).2 ?_
      rw [List.pairwise_map]
      refine hpw.imp ?_
      intro p q h x y hx hy
      rw [← Option.some.inj hx, ← Option.some.inj hy]
      exact h
    intro i j a b c e hi hj hij
    have live : ∀ k x y, d.ends k = some (x, y) → k ∈ d.live := by
      intro k x y hk
      obtain ⟨ek, hek, _⟩ := (ends_iff _ _ _ _).1 hk
      exact (mem_live _ _).2 ⟨ek, hek⟩
    rw [List.pairwise_map] at hpw'
    have : Std.Symm (fun i j : Nat => ∀ x y, d.ends i = some x → d.ends j = some y → MeetAtEnds x.1 x.2 y.1 y.2) :=
      ⟨fun p q h x y hx hy => meetAtEnds_symm (h y x hy hx)⟩
    exact List.Pairwise.forall hpw' (live i a b hi) (live j c e hj) hij _ _ hi hj

/-- **C68** (exact arithmetic): for lines with finite coordinates that do not overlap, but may cross and touch each other anywhere, in
any number and order, `process` ends without undefined behaviour, and the half edges then divide the plane: they cover exactly what the
lines cover, and two of them that are neither the same nor twins have at most end points in common. Faces are as in C62. -/
theorem process_divides {o : DOrder K} (ho : o.Ok) (hso : o.Sorts) (calls : List (DCall K)) (hs : Spread (linesOf calls)) :
    ∃ d s cs, (Dcel.after calls).process o = some (d, s) ∧ d.Faced s cs ∧ d.Divides (linesOf calls) := by
  obtain ⟨d, s, cs, h, _, hf⟩ := process_faces ho calls (fits_of_spread hs)
  refine ⟨d, s, cs, h, hf, ?_⟩
  unfold Dcel.process at h
  obtain ⟨d2, h1, h⟩ := Option.bind_eq_some_iff.1 h
  obtain ⟨d3, h3, h⟩ := Option.bind_eq_some_iff.1 h
  obtain ⟨s', h4, h5⟩ := Option.map_eq_some_iff.1 h
  obtain ⟨rfl, rfl⟩ := Prod.mk.inj h5
  obtain ⟨w, cov, ap⟩ := processBreak_divides ho hso hs h1
  obtain ⟨keep, orig⟩ := buildTwins_ends (ho.iter d2.live) h3
  have live : ∀ k x y, d2.ends k = some (x, y) → k ∈ d2.live := by
    intro k x y hk
    obtain ⟨ek, hek, _⟩ := (ends_iff _ _ _ _).1 hk
    exact (mem_live _ _).2 ⟨ek, hek⟩
  have swap : ∀ a b c e : Vec2 K, MeetAtEnds a b c e → MeetAtEnds b a c e := by
    intro a b c e h X h1 h2
    obtain ⟨k1, k2⟩ := h X (onSeg_back h1) h2
    exact ⟨k1.symm, k2⟩
  constructor
  · intro X
    rw [← cov]
    simp only [leads_iff]
    constructor
    · rintro ⟨i, a, b, hi, hX⟩
      obtain ⟨k, _, ⟨rfl, hk⟩ | ⟨_, hk⟩⟩ := orig i a b hi
      · exact ⟨i, a, b, hk, hX⟩
      · exact ⟨k, b, a, hk, onSeg_back hX⟩
    · rintro ⟨i, a, b, hi, hX⟩
      exact ⟨i, a, b, by rw [(keep i (live i a b hi)).2]; exact hi, hX⟩
  · intro i j a b c e hi hj hij
    rw [leads_iff] at hi hj
    obtain ⟨k, _, hk⟩ := orig i a b hi
    obtain ⟨m, _, hm⟩ := orig j c e hj
    by_cases hkm : k = m
    · subst hkm
      right
      rcases hk with ⟨rfl, hk⟩ | ⟨tk, hk⟩ <;> rcases hm with ⟨rfl, hm⟩ | ⟨tm, hm⟩
      · exact absurd rfl hij
      · obtain ⟨x, y, hx, hy, h6, h7, _⟩ := tm
        rw [hk] at hm
        obtain ⟨rfl, rfl⟩ := Prod.mk.inj (Option.some.inj hm)
        exact ⟨x, y, hx, hy, h6, h7, rfl, rfl⟩
      · obtain ⟨x, y, hx, hy, h6, h7, _⟩ := tk
        rw [hk] at hm
        obtain ⟨rfl, rfl⟩ := Prod.mk.inj (Option.some.inj hm)
        exact ⟨y, x, hy, hx, h7, h6, rfl, rfl⟩
      · obtain ⟨x, y, hx, hy, h6, h7, _⟩ := tk
        obtain ⟨x', y', hx', hy', h6', h7', _⟩ := tm
        rw [hx] at hx'
        have hxx : x = x' := by simpa using hx'
        rw [← hxx, h6] at h6'
        exact absurd (Option.some.inj h6') hij
    · left
      rcases hk with ⟨rfl, hk⟩ | ⟨_, hk⟩ <;> rcases hm with ⟨rfl, hm⟩ | ⟨_, hm⟩
      · exact ap _ _ _ _ _ _ hk hm hkm
      · exact meetAtEnds_symm (swap _ _ _ _ (meetAtEnds_symm (ap _ _ _ _ _ _ hk hm hkm)))
      · exact swap _ _ _ _ (ap _ _ _ _ _ _ hk hm hkm)
      · exact swap _ _ _ _ (meetAtEnds_symm (swap _ _ _ _ (meetAtEnds_symm (ap _ _ _ _ _ _ hk hm hkm))))

/-! ## Concrete cases -/

theorem plainOrder_sorts : plainOrder.Sorts := by
  intro s e l hl
  show (l.insertionSort (fun a b => breakLess s e b a = false)).Pairwise _
  by_cases hse : s = e
  · subst hse
    refine List.Pairwise.imp_of_mem (R := fun _ _ => True) ?_ (List.pairwise_of_forall (fun _ _ => trivial))
    intro a b ha hb _
    have eq : ∀ p ∈ l, p = s := by
      intro p hp
      obtain ⟨t, _, _, rfl⟩ := hl p hp
      unfold lerp; ext <;> simp
    rw [eq a ((List.mem_insertionSort _).1 ha), eq b ((List.mem_insertionSort _).1 hb)]
    unfold breakLess
    simp
  · have : ∃ ts : List ℚ, l = ts.map (lerp s e) := by
      clear * - hl
      induction l with
      | nil => exact ⟨[], rfl⟩
      | cons p l ih =>
        obtain ⟨t, _, _, rfl⟩ := hl p List.mem_cons_self
        obtain ⟨ts, rfl⟩ := ih (fun q hq => hl q (List.mem_cons_of_mem _ hq))
        exact ⟨t :: ts, rfl⟩
    obtain ⟨ts, rfl⟩ := this
    have key : ∀ t u : ℚ, breakLess s e (lerp s e u) (lerp s e t) = false ↔ t ≤ u := by
      intro t u
      rw [Bool.eq_false_iff, ne_eq, breakLess_lerp s e hse, not_lt]
    rw [← List.map_insertionSort (r := (· ≤ ·)) _ _ _ (fun a _ b _ => (key a b).symm), List.pairwise_map]
    exact (List.pairwise_insertionSort (· ≤ ·) ts).imp (fun {a b} h => (key a b).2 h)

/-- Two crossing lines and one that touches both of them. -/
def crossTouch : List (DCall ℚ) := [.line 0 0 4 4, .type .clip, .line 0 4 4 0, .line 1 1 3 1, .line 7 7 7 7]

/-- C68, a case: the hypotheses hold for these lines. -/
theorem crossTouch_spread : Spread (linesOf crossTouch) := by
  have hl : linesOf crossTouch = [(⟨0, 0⟩, ⟨4, 4⟩), (⟨0, 4⟩, ⟨4, 0⟩), (⟨1, 1⟩, ⟨3, 1⟩)] := by decide +kernel
  rw [hl]
  constructor
  · unfold InDoubles; decide +kernel
  · have : ([(⟨0, 0⟩, ⟨4, 4⟩), (⟨0, 4⟩, ⟨4, 0⟩), (⟨1, 1⟩, ⟨3, 1⟩)] : List (Vec2 ℚ × Vec2 ℚ)).Pairwise (fun l m => ¬ Parallel l.1 l.2 m.1 m.2) := by
      unfold Parallel; decide +kernel
    exact this.imp (fun h hp => absurd hp h)

/-- C68, a case: what `process` leaves of them. -/
theorem crossTouch_divided : ∃ d s cs, (Dcel.after crossTouch).process plainOrder = some (d, s) ∧ d.Faced s cs ∧ d.Divides (linesOf crossTouch) :=
  process_divides plainOrder_ok plainOrder_sorts crossTouch crossTouch_spread

/-- Without the condition C68 is false of the code: two overlapping lines are not broken, and the half edges left overlap. -/
theorem overlap_undivided : ((Dcel.after ([.line 0 0 4 4, .line 2 2 6 6] : List (DCall ℚ))).process plainOrder).map (fun r => r.1.live.map r.1.ends) =
    some [some (⟨0, 0⟩, ⟨4, 4⟩), some (⟨2, 2⟩, ⟨6, 6⟩), some (⟨4, 4⟩, ⟨0, 0⟩), some (⟨6, 6⟩, ⟨2, 2⟩)] := by decide +kernel

end River
