import Verif.Spec.CurvedCross
import Verif.Lemmas.CurvedBreak

/-! # Contours that cross: the breaks found -/

namespace River
variable {K : Type}

attribute [local instance 10000] FTrans.toFNum

section
variable [Field K] [LinearOrder K] [IsStrictOrderedRing K] [FTrans K] [LawfulOrd K] [Exact K]

omit [FTrans K] [LawfulOrd K] [Exact K] [IsStrictOrderedRing K] in
theorem Meet2.symm {s t : Vec2 K × Seg K} {a b : K} (h : Meet2 s t a b) : Meet2 t s b a := ⟨h.2.2.1, h.2.2.2.1, h.1, h.2.1, h.2.2.2.2.symm⟩

omit [IsStrictOrderedRing K] [LawfulOrd K] [Exact K] in
theorem Truthful.symm {s t : Vec2 K × Seg K} (h : Truthful s t) : Truthful t s := by
  obtain ⟨p, g⟩ := s
  obtain ⟨q, k⟩ := t
  cases g <;> cases k
  · trivial
  · exact h
  · exact h
  · exact fun csort hc => (h csort hc).symm

omit [Field K] [IsStrictOrderedRing K] [FTrans K] [LawfulOrd K] [Exact K] in
theorem Far.symm {s t : Vec2 K × Seg K} (h : Far s t) : Far t s := by
  rcases h with h | h | h | h
  · exact Or.inr (Or.inl (fun p hp q hq => h q hq p hp))
  · exact Or.inl (fun p hp q hq => h q hq p hp)
  · exact Or.inr (Or.inr (Or.inr (fun p hp q hq => h q hq p hp)))
  · exact Or.inr (Or.inr (Or.inl (fun p hp q hq => h q hq p hp)))

/-! ## two straight sides -/

omit [FTrans K] [LawfulOrd K] [Exact K] in
/-- Straight sides with a common point, in the same direction: that is an end of both, or they overlap up to an end of one of them. -/
theorem parallel_ends {p q p' q' : Vec2 K} (hs : p.y ≠ q.y) (ht : p'.y ≠ q'.y) (hp : Parallel p q p' q')
    (hm : ∀ a b, Meet2 (p, .line q) (p', .line q') a b → ClearPos a ∧ ClearPos b) {a b : K} (h : Meet2 (p, .line q) (p', .line q') a b) :
    (a = 0 ∨ a = 1) ∧ (b = 0 ∨ b = 1) := by
  obtain ⟨a0, a1, b0, b1, e⟩ := h
  have es : Even ((p, .line q) : Vec2 K × Seg K) := trivial
  have et : Even ((p', .line q') : Vec2 K × Seg K) := trivial
  obtain ⟨s1, s2⟩ := height_range es a0 a1
  obtain ⟨t1, t2⟩ := height_range et b0 b1
  rw [← e] at t1 t2
  obtain ⟨y, hy⟩ : ∃ y, y = (sidePoint (p, .line q) a).y := ⟨_, rfl⟩
  rw [← hy] at s1 s2 t1 t2
  obtain ⟨u, hu⟩ : ∃ u, u = max (lowest (p, .line q)) (lowest (p', .line q')) := ⟨_, rfl⟩
  obtain ⟨v, hv⟩ : ∃ v, v = min (highest (p, .line q)) (highest (p', .line q')) := ⟨_, rfl⟩
  have uy : u ≤ y := by rw [hu]; exact max_le s1 t1
  have yv : y ≤ v := by rw [hv]; exact le_min s2 t2
  have hls : lowest ((p, .line q) : Vec2 K × Seg K) < highest (p, .line q) := min_lt_max.2 hs
  have hlt : lowest ((p', .line q') : Vec2 K × Seg K) < highest (p', .line q') := min_lt_max.2 ht
  have hd : q.y - p.y ≠ 0 := sub_ne_zero.2 hs.symm
  have hd' : q'.y - p'.y ≠ 0 := sub_ne_zero.2 ht.symm
  by_cases huv : u = v
  · have y1 : y = u := le_antisymm (huv ▸ yv) uy
    have y2 : y = v := huv ▸ y1
    suffices hh : ((sidePoint (p, .line q) a).y = lowest (p, .line q) ∨ (sidePoint (p, .line q) a).y = highest (p, .line q)) ∧
        ((sidePoint (p', .line q') b).y = lowest (p', .line q') ∨ (sidePoint (p', .line q') b).y = highest (p', .line q')) from
      ⟨height_end es hs hh.1, height_end et ht hh.2⟩
    rw [← e, ← hy]
    rcases max_choice (lowest ((p, .line q) : Vec2 K × Seg K)) (lowest (p', .line q')) with m1 | m1 <;>
      rcases min_choice (highest ((p, .line q) : Vec2 K × Seg K)) (highest (p', .line q')) with m2 | m2
    · rw [m1] at hu; rw [m2] at hv
      exact absurd hls (by rw [← hu, ← hv, huv]; exact lt_irrefl _)
    · rw [m1] at hu; rw [m2] at hv
      exact ⟨Or.inl (y1.trans hu), Or.inr (y2.trans hv)⟩
    · rw [m1] at hu; rw [m2] at hv
      exact ⟨Or.inr (y2.trans hv), Or.inl (y1.trans hu)⟩
    · rw [m1] at hu; rw [m2] at hv
      exact absurd hlt (by rw [← hu, ← hv, huv]; exact lt_irrefl _)
  · exfalso
    have huv' : u < v := lt_of_le_of_ne (uy.trans yv) huv
    -- the sides have the same points between the heights `u` and `v`
    have same : ∀ z, u ≤ z → z ≤ v → Meet2 (p, .line q) (p', .line q') ((z - p.y) / (q.y - p.y)) ((z - p'.y) / (q'.y - p'.y)) := by
      intro z z1 z2
      rw [hu] at z1
      rw [hv] at z2
      obtain ⟨c0, c1⟩ := param_unit hs ((le_max_left _ _).trans z1) (z2.trans (min_le_left _ _))
      obtain ⟨d0, d1⟩ := param_unit ht ((le_max_right _ _).trans z1) (z2.trans (min_le_right _ _))
      refine ⟨c0, c1, d0, d1, ?_⟩
      simp only [sidePoint, lerp, Vec2.mk.injEq] at e ⊢
      unfold Parallel at hp
      refine ⟨?_, by rw [div_mul_cancel₀ _ hd, div_mul_cancel₀ _ hd']; ring⟩
      obtain ⟨ex, ey⟩ := e
      have hs1 : (q.x - p.x) / (q.y - p.y) = (q'.x - p'.x) / (q'.y - p'.y) := by
        rw [div_eq_div_iff hd hd']; linear_combination hp
      have f1 : p.x + (z - p.y) / (q.y - p.y) * (q.x - p.x) = p.x + (z - p.y) * ((q.x - p.x) / (q.y - p.y)) := by ring
      have f2 : p'.x + (z - p'.y) / (q'.y - p'.y) * (q'.x - p'.x) = p'.x + (z - p'.y) * ((q'.x - p'.x) / (q'.y - p'.y)) := by ring
      have f3 : (q.x - p.x) = (q.x - p.x) / (q.y - p.y) * (q.y - p.y) := (div_mul_cancel₀ _ hd).symm
      have f4 : (q'.x - p'.x) = (q'.x - p'.x) / (q'.y - p'.y) * (q'.y - p'.y) := (div_mul_cancel₀ _ hd').symm
      rw [f1, f2, ← hs1]
      rw [← hs1] at f4
      linear_combination ex - ((q.x - p.x) / (q.y - p.y)) * ey - a * f3 + b * f4
    -- close to an end
    have near : ∀ (m n δ : K), m ≠ n → 0 < δ → δ ≤ |n - m| / 10000000 → ¬ ClearPos ((max m n - δ - m) / (n - m)) := by
      intro m n δ hmn h0 h1
      rcases lt_or_gt_of_ne hmn with hl | hl
      · have hp := sub_pos.2 hl
        rw [abs_of_pos hp] at h1
        have e1 : (max m n - δ - m) / (n - m) = 1 - δ / (n - m) := by rw [max_eq_right hl.le]; field_simp; ring
        have k0 : 0 < δ / (n - m) := div_pos h0 hp
        have k1 : δ / (n - m) ≤ 1 / 10000000 := by rw [div_le_iff₀ hp]; linarith
        rw [e1]
        rintro (h | h | ⟨_, h⟩)
        · linarith
        · linarith
        · linarith
      · have hp := sub_neg.2 hl
        rw [abs_of_neg hp] at h1
        have hp' : 0 < m - n := sub_pos.2 hl
        have e1 : (max m n - δ - m) / (n - m) = δ / (m - n) := by
          rw [max_eq_left hl.le, div_eq_div_iff hp.ne hp'.ne']; ring
        have k0 : 0 < δ / (m - n) := div_pos h0 hp'
        have k1 : δ / (m - n) ≤ 1 / 10000000 := by rw [div_le_iff₀ hp']; linarith
        rw [e1]
        rintro (h | h | ⟨h, _⟩)
        · linarith
        · linarith
        · linarith
    obtain ⟨δ, hδ⟩ : ∃ δ, δ = min (v - u) (min (|q.y - p.y| / 10000000) (|q'.y - p'.y| / 10000000)) := ⟨_, rfl⟩
    have δ0 : 0 < δ := by
      rw [hδ]
      exact lt_min (sub_pos.2 huv') (lt_min (div_pos (abs_pos.2 hd) (by norm_num)) (div_pos (abs_pos.2 hd') (by norm_num)))
    have δ1 : δ ≤ v - u := by rw [hδ]; exact min_le_left _ _
    have δ2 : δ ≤ |q.y - p.y| / 10000000 := by rw [hδ]; exact (min_le_right _ _).trans (min_le_left _ _)
    have δ3 : δ ≤ |q'.y - p'.y| / 10000000 := by rw [hδ]; exact (min_le_right _ _).trans (min_le_right _ _)
    obtain ⟨c1, c2⟩ := hm _ _ (same (v - δ) (by linarith) (by linarith))
    rcases min_choice (highest ((p, .line q) : Vec2 K × Seg K)) (highest (p', .line q')) with m2 | m2
    · rw [hv, m2] at c1
      exact near _ _ _ hs δ0 δ2 c1
    · rw [hv, m2] at c2
      exact near _ _ _ ht δ0 δ3 c2

theorem lines_truth {p q p' q' : Vec2 K} (hs : p.y ≠ q.y) (ht : p'.y ≠ q'.y) (rp : InDoubles p) (rq : InDoubles q) (rp' : InDoubles p')
    (rq' : InDoubles q') (hm : ∀ a b, Meet2 (p, .line q) (p', .line q') a b → ClearPos a ∧ ClearPos b) :
    ∃ l, lineIntersect p q p' q' = some l ∧ Truth (p, .line q) (p', .line q') l := by
  by_cases hp : Parallel p q p' q'
  · obtain ⟨l, e1, e2⟩ := lineIntersect_along hp (fun e => hs (congrArg Vec2.y e)) (fun e => ht (congrArg Vec2.y e)) rp rq rp' rq'
    refine ⟨l, e1, fun d hd _ => ?_, fun a b hab hn => ?_⟩
    · obtain ⟨a0, a1, b0, b1, p1, p2, _⟩ := e2 d hd
      exact ⟨⟨a0, a1, b0, b1, p1.symm.trans p2⟩, p1⟩
    · obtain ⟨k1, k2⟩ := parallel_ends hs ht hp hm hab
      refine absurd ⟨?_, ?_⟩ hn
      · rcases k1 with rfl | rfl <;> (unfold NearEnd; norm_num)
      · rcases k2 with rfl | rfl <;> (unfold NearEnd; norm_num)
  · obtain ⟨l, e1, e2, e3⟩ := lineIntersect_exact hp
    refine ⟨l, e1, fun d hd _ => ?_, fun a b hab _ => ?_⟩
    · obtain ⟨a0, a1, b0, b1, p1, p2⟩ := e2 d hd
      exact ⟨⟨a0, a1, b0, b1, p1.symm.trans p2⟩, p1⟩
    · exact ⟨_, e3 a b hab.1 hab.2.1 hab.2.2.1 hab.2.2.2.1 hab.2.2.2.2, rfl, rfl⟩

/-! ## one call -/

/-- The records `bs` of a call for the vertices `i` and `j` are the common points. -/
def TrueCall (i j : Nat) (s t : Vec2 K × Seg K) (bs : List (Brk K)) : Prop :=
  (∀ b ∈ bs, inUnit b.t = true ∧ ((b.vert = i ∧ b.pt = sidePoint s b.t ∧ ∃ r, Meet2 s t b.t r) ∨
    (b.vert = j ∧ b.pt = sidePoint t b.t ∧ ∃ r, Meet2 t s b.t r))) ∧
  ∀ a b, Meet2 s t a b → (inUnit a = true → (⟨i, sidePoint s a, a⟩ : Brk K) ∈ bs) ∧ (inUnit b = true → (⟨j, sidePoint t b, b⟩ : Brk K) ∈ bs)

theorem truth_call (i j : Nat) {s t : Vec2 K × Seg K} {l : List (Info K)} (h : Truth s t l) : TrueCall i j s t (pushBreaks i j l) := by
  have hn : ∀ r : K, inUnit r = true → ¬ NearEnd r := fun r hr hn => by rw [nearEnd_inUnit hn] at hr; cases hr
  refine ⟨fun b hb => ?_, fun a b hab => ⟨fun hu => ?_, fun hu => ?_⟩⟩
  · obtain ⟨d, hd, hx⟩ := (mem_pushBreaks i j l b).1 hb
    rcases hx with ⟨hu, rfl⟩ | ⟨hu, rfl⟩
    · obtain ⟨m, e⟩ := h.1 d hd (fun q => hn _ hu q.1)
      exact ⟨hu, Or.inl ⟨rfl, e, _, m⟩⟩
    · obtain ⟨m, e⟩ := h.1 d hd (fun q => hn _ hu q.2)
      exact ⟨hu, Or.inr ⟨rfl, e.trans m.2.2.2.2, _, m.symm⟩⟩
  · obtain ⟨d, hd, e1, e2⟩ := h.2 a b hab (fun q => hn _ hu q.1)
    obtain ⟨_, e⟩ := h.1 d hd (fun q => hn _ hu (e1 ▸ q.1))
    exact (mem_pushBreaks i j l _).2 ⟨d, hd, Or.inl ⟨e1 ▸ hu, by rw [e, e1]⟩⟩
  · obtain ⟨d, hd, e1, e2⟩ := h.2 a b hab (fun q => hn _ hu q.2)
    obtain ⟨_, e⟩ := h.1 d hd (fun q => hn _ hu (e2 ▸ q.2))
    exact (mem_pushBreaks i j l _).2 ⟨d, hd, Or.inr ⟨e2 ▸ hu, by rw [e, e1, e2, hab.2.2.2.2]⟩⟩

omit [IsStrictOrderedRing K] [LawfulOrd K] [Exact K] in
theorem TrueCall.swap {i j : Nat} {s t : Vec2 K × Seg K} {bs : List (Brk K)} (h : TrueCall i j s t bs) : TrueCall j i t s bs :=
  ⟨fun b hb => ⟨(h.1 b hb).1, (h.1 b hb).2.symm⟩, fun a b hab => (h.2 b a hab.symm).symm⟩

/-- What is asked of the list of all vertices. -/
structure NodesCross (N : List (Vtx K)) : Prop where
  steep : ∀ v ∈ N, v.pt.y ≠ v.seg.target.y
  range : ∀ v ∈ N, ∀ z ∈ sidePoints (v.pt, v.seg), InDoubles z
  boxed : ∀ v ∈ N, v.seg.isCubic = true → ∀ r, 0 ≤ r → r ≤ 1 → (v.seg.boundary v.pt).Mem (sidePoint (v.pt, v.seg) r)
  meet : ∀ (i j : Nat) (v w : Vtx K), i ≠ j → N[i]? = some v → N[j]? = some w → ∀ a b, Meet2 (v.pt, v.seg) (w.pt, w.seg) a b → ClearPos a ∧ ClearPos b
  truthful : ∀ (i j : Nat) (v w : Vtx K), i ≠ j → N[i]? = some v → N[j]? = some w →
    Far (v.pt, v.seg) (w.pt, w.seg) ∨ Truthful (v.pt, v.seg) (w.pt, w.seg)

theorem intersectVtx_true {csort : List (Cell K × Cell K) → List (Cell K × Cell K)} (hc : IsSort csort) (i j : Nat) {v w : Vtx K}
    (fv : v.pt.y ≠ v.seg.target.y) (fw : w.pt.y ≠ w.seg.target.y) (rv : ∀ z ∈ sidePoints (v.pt, v.seg), InDoubles z)
    (rw' : ∀ z ∈ sidePoints (w.pt, w.seg), InDoubles z) (hm : ∀ a b, Meet2 (v.pt, v.seg) (w.pt, w.seg) a b → ClearPos a ∧ ClearPos b)
    (ht : Truthful (v.pt, v.seg) (w.pt, w.seg)) : ∃ bs, intersectVtx csort i j v w = some bs ∧ TrueCall i j (v.pt, v.seg) (w.pt, w.seg) bs := by
  unfold intersectVtx
  cases hv : v.seg with
  | line q =>
    rw [hv] at fv rv hm ht
    cases hw : w.seg with
    | line r =>
      rw [hw] at fw rw' hm
      obtain ⟨l, e, hl⟩ := lines_truth fv fw (rv _ (by simp [sidePoints])) (rv _ (by simp [sidePoints, Seg.target])) (rw' _ (by simp [sidePoints]))
        (rw' _ (by simp [sidePoints, Seg.target])) hm
      simp only [Seg.target] at e
      simp only [e, Option.map_some]
      exact ⟨_, rfl, truth_call i j hl⟩
    | cubic d1 d2 r =>
      rw [hw] at ht
      obtain ⟨l, e, _⟩ := lineCubicIntersect_fits v.pt q (Seg.getCubic d1 d2 r w.pt)
      simp only [e, Option.map_some]
      exact ⟨_, rfl, truth_call i j (ht l e)⟩
  | cubic c1 c2 q =>
    rw [hv] at ht
    cases hw : w.seg with
    | line r =>
      rw [hw] at ht
      obtain ⟨l, e, _⟩ := lineCubicIntersect_fits w.pt r (Seg.getCubic c1 c2 q v.pt)
      simp only [e, Option.map_some]
      exact ⟨_, rfl, (truth_call j i (ht l e)).swap⟩
    | cubic d1 d2 r =>
      rw [hw] at ht
      exact ⟨_, rfl, truth_call i j (ht csort hc).1⟩

/-! ## all calls -/

/-- The records are the common points of different sides that are not close to an end of the one it is recorded for. -/
def TrueBreaks (N : List (Vtx K)) (brks : List (Brk K)) : Prop :=
  ∀ b, b ∈ brks ↔ inUnit b.t = true ∧ ∃ v, N[b.vert]? = some v ∧ b.pt = sidePoint (v.pt, v.seg) b.t ∧
    ∃ (j : Nat) (w : Vtx K), j ≠ b.vert ∧ N[j]? = some w ∧ ∃ r, Meet2 (v.pt, v.seg) (w.pt, w.seg) b.t r

theorem NodesCross.box {N : List (Vtx K)} (h : NodesCross N) {v : Vtx K} (hv : v ∈ N) :
    (v.seg.boundary v.pt).Valid ∧ ∀ a, 0 ≤ a → a ≤ 1 → (v.seg.boundary v.pt).Mem (sidePoint (v.pt, v.seg) a) := by
  refine ⟨(boundary_hull (h.range v hv)).1, ?_⟩
  cases hs : v.seg with
  | line q =>
    have hr := h.range v hv
    rw [hs] at hr
    have := boundary_mem (v := ⟨v.pt, .line q, false, false⟩) rfl (hr _ (by simp [sidePoints])) (hr _ (by simp [sidePoints, Seg.target]))
    exact this.2
  | cubic c1 c2 q =>
    have := h.boxed v hv
    rw [hs] at this
    exact this rfl

theorem collectBreaks_true {N : List (Vtx K)} (h : NodesCross N) (env : Env K) (hok : env.Ok) :
    ∃ brks, collectBreaks env N = some brks ∧ TrueBreaks N brks := by
  obtain ⟨s1, s2, s3⟩ := scanProcess_spec env.segAddr hok.segAddr (N.map (fun v => v.seg.boundary v.pt))
    ⟨⟨FNum.lit 0, FNum.lit 0⟩, ⟨FNum.lit 0, FNum.lit 0⟩⟩
  unfold collectBreaks
  obtain ⟨calls, hcalls⟩ : ∃ calls, calls = scanProcess env.segAddr (N.map (fun v => v.seg.boundary v.pt))
    ⟨⟨FNum.lit 0, FNum.lit 0⟩, ⟨FNum.lit 0, FNum.lit 0⟩⟩ := ⟨_, rfl⟩
  rw [← hcalls] at s1 s2 s3 ⊢
  have far : ∀ (i j : Nat) (v w : Vtx K), i ≠ j → N[i]? = some v → N[j]? = some w → (v.seg.boundary v.pt).intersect (w.seg.boundary w.pt) = true →
      Truthful (v.pt, v.seg) (w.pt, w.seg) := by
    intro i j v w hij hv hw hb
    rcases h.truthful i j v w hij hv hw with hf | ht
    · rw [far_boxes (h.range v (List.mem_of_getElem? hv)) (h.range w (List.mem_of_getElem? hw)) hf] at hb; cases hb
    · exact ht
  have hc : ∀ c ∈ calls, c.1 ≠ c.2 ∧ ∃ v w bs, N[c.1]? = some v ∧ N[c.2]? = some w ∧ intersectVtx env.csort c.1 c.2 v w = some bs ∧
      TrueCall c.1 c.2 (v.pt, v.seg) (w.pt, w.seg) bs := by
    intro c hc
    obtain ⟨h1, h2, h3, _⟩ := s2 c.1 c.2 hc
    have hbox := (s3 c.1 c.2 h1 h2 h3).1 (Or.inl hc)
    rw [List.getElem_map, List.getElem_map] at hbox
    rw [List.length_map] at h1 h2
    have hv := List.getElem?_eq_getElem h1
    have hw := List.getElem?_eq_getElem h2
    have mv := List.mem_of_getElem? hv
    have mw := List.mem_of_getElem? hw
    obtain ⟨bs, e, t⟩ := intersectVtx_true hok.csort c.1 c.2 (h.steep _ mv) (h.steep _ mw) (h.range _ mv) (h.range _ mw) (h.meet _ _ _ _ h3 hv hw)
      (far _ _ _ _ h3 hv hw hbox)
    exact ⟨h3, _, _, bs, hv, hw, e, t⟩
  obtain ⟨f, hf⟩ : ∃ f : Nat × Nat → Option (List (Brk K)), ∀ c v w, N[c.1]? = some v → N[c.2]? = some w →
      f c = intersectVtx env.csort c.1 c.2 v w := by
    refine ⟨fun c => match N[c.1]?, N[c.2]? with
      | some v, some w => intersectVtx env.csort c.1 c.2 v w
      | _, _ => none, ?_⟩
    intro c v w h1 h2
    simp only [h1, h2]
  obtain ⟨r, r1, r2⟩ := foldlM_collect f (fun acc c =>
      match N[c.1]?, N[c.2]? with
      | some vl, some vr => (intersectVtx env.csort c.1 c.2 vl vr).map (acc ++ ·)
      | _, _ => some acc) calls [] (by
      intro c hcc acc
      obtain ⟨_, v, w, bs, h1, h2, _⟩ := hc c hcc
      rw [hf c v w h1 h2]
      simp only [h1, h2]) (by
      intro c hcc
      obtain ⟨h0, v, w, bs, h1, h2, h3, _⟩ := hc c hcc
      exact ⟨bs, by rw [hf c v w h1 h2, h3]⟩)
  refine ⟨r, r1, fun b => ⟨fun hb => ?_, ?_⟩⟩
  · rcases (r2 b).1 hb with h' | ⟨c, hcc, bs, hbs, hbm⟩
    · simp at h'
    · obtain ⟨h0, v, w, bs', h1, h2, h3, h4⟩ := hc c hcc
      rw [hf c v w h1 h2, h3] at hbs
      cases hbs
      obtain ⟨hu, ⟨hv, hp, hs⟩ | ⟨hv, hp, hs⟩⟩ := h4.1 b hbm
      · exact ⟨hu, v, by rw [hv]; exact h1, hp, c.2, w, by rw [hv]; exact h0.symm, h2, hs⟩
      · exact ⟨hu, w, by rw [hv]; exact h2, hp, c.1, v, by rw [hv]; exact h0, h1, hs⟩
  · rintro ⟨hu, v, hv, hp, j, w, hij, hw, s, hm⟩
    have hi := (List.getElem?_eq_some_iff.1 hv).1
    have hj := (List.getElem?_eq_some_iff.1 hw).1
    have mv := List.mem_of_getElem? hv
    have mw := List.mem_of_getElem? hw
    obtain ⟨vv, vm⟩ := h.box mv
    obtain ⟨wv, wm⟩ := h.box mw
    have hbox : (v.seg.boundary v.pt).intersect (w.seg.boundary w.pt) = true :=
      (Rect.intersect_iff _ _ vv wv).2 ⟨_, vm _ hm.1 hm.2.1, by rw [hm.2.2.2.2]; exact wm _ hm.2.2.1 hm.2.2.2.1⟩
    have hcall := (s3 b.vert j (by simpa using hi) (by simpa using hj) hij.symm).2 (by
      rw [List.getElem_map, List.getElem_map, (List.getElem?_eq_some_iff.1 hv).2, (List.getElem?_eq_some_iff.1 hw).2]; exact hbox)
    rw [r2]
    right
    obtain ⟨n, p, t⟩ := b
    simp only at hp hv hm hu hij hcall
    subst hp
    rcases hcall with hm' | hm'
    · obtain ⟨h0, v', w', bs, h1, h2, h3, h4⟩ := hc _ hm'
      simp only at h1 h2 h3 h4
      rw [hv] at h1; cases h1
      rw [hw] at h2; cases h2
      exact ⟨_, hm', bs, by rw [hf _ v w hv hw]; exact h3, (h4.2 _ _ hm).1 hu⟩
    · obtain ⟨h0, v', w', bs, h1, h2, h3, h4⟩ := hc _ hm'
      simp only at h1 h2 h3 h4
      rw [hw] at h1; cases h1
      rw [hv] at h2; cases h2
      exact ⟨_, hm', bs, by rw [hf _ w v hw hv]; exact h3, (h4.2 _ _ hm.symm).2 hu⟩

end

end River
