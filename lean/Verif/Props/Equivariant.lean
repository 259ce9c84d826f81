import Verif.Props.PolygonsDemo

/-! # C71: moving and stretching the polygons moves and stretches the result -/

namespace River
variable {K : Type} [Field K] [LinearOrder K]

/-- Stretching by the factors `a` and `c` in the two directions, and moving by `(u, v)`. -/
structure Stretch (K : Type) [Field K] [LinearOrder K] where
  a : K
  c : K
  u : K
  v : K
  apos : 0 < a
  cpos : 0 < c

/-- Where a point goes. -/
def Stretch.pt (φ : Stretch K) (p : Vec2 K) : Vec2 K := ⟨φ.a * p.x + φ.u, φ.c * p.y + φ.v⟩

/-- Where polygons go. -/
def Stretch.polys (φ : Stretch K) (Ps : List (List (Vec2 K))) : List (List (Vec2 K)) := Ps.map (fun P => P.map φ.pt)

variable (φ : Stretch K)

theorem Stretch.inj {p q : Vec2 K} (h : φ.pt p = φ.pt q) : p = q := by
  have h1 := congrArg Vec2.x h
  have h2 := congrArg Vec2.y h
  simp only [Stretch.pt] at h1 h2
  exact Vec2.ext (mul_left_cancel₀ φ.apos.ne' (add_right_cancel h1)) (mul_left_cancel₀ φ.cpos.ne' (add_right_cancel h2))

theorem Stretch.lerp (p q : Vec2 K) (t : K) : lerp (φ.pt p) (φ.pt q) t = φ.pt (River.lerp p q t) := by
  unfold River.lerp Stretch.pt
  ext <;> simp only <;> ring

theorem Stretch.parallel (p q r s : Vec2 K) : Parallel (φ.pt p) (φ.pt q) (φ.pt r) (φ.pt s) ↔ Parallel p q r s := by
  unfold Parallel Stretch.pt
  simp only
  have h : φ.a * φ.c ≠ 0 := mul_ne_zero φ.apos.ne' φ.cpos.ne'
  constructor
  · intro e
    refine mul_left_cancel₀ h ?_
    linear_combination e
  · intro e
    linear_combination φ.a * φ.c * e

theorem Stretch.onSeg {p : Vec2 K} {a b : Vec2 K} (h : OnSeg p (φ.pt a) (φ.pt b)) : ∃ p0, p = φ.pt p0 ∧ OnSeg p0 a b := by
  obtain ⟨t, t0, t1, rfl⟩ := h
  exact ⟨_, φ.lerp _ _ _, t, t0, t1, rfl⟩

theorem Stretch.onSeg_iff {p a b : Vec2 K} : OnSeg (φ.pt p) (φ.pt a) (φ.pt b) ↔ OnSeg p a b := by
  constructor
  · intro h
    obtain ⟨p0, e, h⟩ := φ.onSeg h
    rw [φ.inj e]; exact h
  · rintro ⟨t, t0, t1, rfl⟩
    exact ⟨t, t0, t1, (φ.lerp _ _ _).symm⟩

variable [IsStrictOrderedRing K]

theorem Stretch.lt_iff {y z : K} : φ.c * y + φ.v < φ.c * z + φ.v ↔ y < z := by
  rw [add_lt_add_iff_right]; exact mul_lt_mul_iff_right₀ φ.cpos

theorem Stretch.le_iff {y z : K} : φ.c * y + φ.v ≤ φ.c * z + φ.v ↔ y ≤ z := by
  rw [add_le_add_iff_right]; exact mul_le_mul_iff_right₀ φ.cpos

theorem Stretch.eq_iff {y z : K} : φ.c * y + φ.v = φ.c * z + φ.v ↔ y = z :=
  ⟨fun h => mul_left_cancel₀ φ.cpos.ne' (add_right_cancel h), fun h => by rw [h]⟩

theorem Stretch.ltx_iff {y z : K} : φ.a * y + φ.u < φ.a * z + φ.u ↔ y < z := by
  rw [add_lt_add_iff_right]; exact mul_lt_mul_iff_right₀ φ.apos

theorem Stretch.lex_iff {y z : K} : φ.a * y + φ.u ≤ φ.a * z + φ.u ↔ y ≤ z := by
  rw [add_le_add_iff_right]; exact mul_le_mul_iff_right₀ φ.apos

theorem Stretch.max {y z : K} : max (φ.a * y + φ.u) (φ.a * z + φ.u) = φ.a * max y z + φ.u := by
  rcases le_total y z with h | h
  · rw [max_eq_right h, max_eq_right (φ.lex_iff.2 h)]
  · rw [max_eq_left h, max_eq_left (φ.lex_iff.2 h)]

theorem Stretch.min {y z : K} : min (φ.a * y + φ.u) (φ.a * z + φ.u) = φ.a * min y z + φ.u := by
  rcases le_total y z with h | h
  · rw [min_eq_left h, min_eq_left (φ.lex_iff.2 h)]
  · rw [min_eq_right h, min_eq_right (φ.lex_iff.2 h)]

theorem Stretch.maxY {y z : K} : Max.max (φ.c * y + φ.v) (φ.c * z + φ.v) = φ.c * Max.max y z + φ.v := by
  rcases le_total y z with h | h
  · rw [max_eq_right h, max_eq_right (φ.le_iff.2 h)]
  · rw [max_eq_left h, max_eq_left (φ.le_iff.2 h)]

theorem Stretch.minY {y z : K} : Min.min (φ.c * y + φ.v) (φ.c * z + φ.v) = φ.c * Min.min y z + φ.v := by
  rcases le_total y z with h | h
  · rw [min_eq_left h, min_eq_left (φ.le_iff.2 h)]
  · rw [min_eq_right h, min_eq_right (φ.le_iff.2 h)]

omit [IsStrictOrderedRing K] in
theorem Stretch.atHeight (p q : Vec2 K) (y : K) : atHeight (φ.pt p) (φ.pt q) (φ.c * y + φ.v) = φ.a * River.atHeight p q y + φ.u := by
  unfold River.atHeight Stretch.pt
  simp only
  have hc := φ.cpos.ne'
  by_cases h : q.y - p.y = 0
  · have h' : φ.c * q.y + φ.v - (φ.c * p.y + φ.v) = 0 := by linear_combination φ.c * h
    rw [h, h', div_zero, div_zero]; ring
  · have h' : φ.c * q.y + φ.v - (φ.c * p.y + φ.v) = φ.c * (q.y - p.y) := by ring
    rw [h']
    field_simp
    ring

omit [IsStrictOrderedRing K] in
theorem Stretch.sides (P : List (Vec2 K)) : polySides (P.map φ.pt) = (polySides P).map (Prod.map φ.pt φ.pt) := by
  unfold polySides
  rw [← List.map_rotate, List.zip_map]

omit [IsStrictOrderedRing K] in
theorem Stretch.flatSides (Ps : List (List (Vec2 K))) : (φ.polys Ps).flatMap polySides = (Ps.flatMap polySides).map (Prod.map φ.pt φ.pt) := by
  unfold Stretch.polys
  rw [List.flatMap_map, List.map_flatMap]
  simp only [φ.sides]

theorem Stretch.sideWinding (X y : K) (s : Vec2 K × Vec2 K) :
    sideWinding (φ.a * X + φ.u) (φ.c * y + φ.v) (Prod.map φ.pt φ.pt s) = River.sideWinding X y s := by
  unfold River.sideWinding
  simp only [Prod.map_fst, Prod.map_snd, φ.atHeight, φ.ltx_iff]
  simp only [Stretch.pt, φ.lt_iff, φ.le_iff]

theorem Stretch.winding (Ps : List (List (Vec2 K))) (X y : K) : polyWinding (φ.polys Ps) (φ.a * X + φ.u) (φ.c * y + φ.v) = polyWinding Ps X y := by
  unfold polyWinding
  rw [φ.flatSides, List.map_map]
  congr 2
  exact funext (fun s => φ.sideWinding X y s)

omit [IsStrictOrderedRing K] in
/-- Every point is the image of a point. -/
theorem Stretch.onto (X y : K) : ∃ X0 y0, X = φ.a * X0 + φ.u ∧ y = φ.c * y0 + φ.v := by
  have ha := φ.apos.ne'
  have hc := φ.cpos.ne'
  exact ⟨(X - φ.u) / φ.a, (y - φ.v) / φ.c, by field_simp; ring, by field_simp; ring⟩

omit [IsStrictOrderedRing K] in
theorem Stretch.cornerAt {P : List (Vec2 K)} (hP : P ≠ []) (i : Nat) : cornerAt (P.map φ.pt) i = φ.pt (River.cornerAt P i) := by
  have h := List.length_pos_iff.2 hP
  unfold River.cornerAt
  rw [List.length_map, List.getD_eq_getElem?_getD, List.getD_eq_getElem?_getD, List.getElem?_map, List.getElem?_eq_getElem (Nat.mod_lt i h)]
  rfl

theorem Stretch.ledge {P : List (Vec2 K)} (hP : P ≠ []) {i n : Nat} (h : Ledge (P.map φ.pt) i n) : Ledge P i n := by
  obtain ⟨h1, h2, h3⟩ := h
  simp only [φ.cornerAt hP, List.length_map] at h2 h3
  simp only [Stretch.pt, φ.lt_iff, φ.eq_iff] at h2 h3
  exact ⟨h1, h2, h3⟩

theorem Stretch.ledgeStart {P : List (Vec2 K)} (hP : P ≠ []) (i n : Nat) : ledgeStart (P.map φ.pt) i n = φ.pt (River.ledgeStart P i n) := by
  unfold River.ledgeStart
  simp only [φ.cornerAt hP, List.length_map]
  by_cases h : (River.cornerAt P (i + (P.length - 1))).y < (River.cornerAt P i).y
  · rw [if_pos h, if_pos (show (φ.pt _).y < (φ.pt _).y from φ.lt_iff.2 h)]
  · rw [if_neg h, if_neg (show ¬ (φ.pt _).y < (φ.pt _).y from fun g => h (φ.lt_iff.1 g))]

theorem Stretch.runsBetween {y : K} {b a u : Vec2 K × Vec2 K}
    (h : RunsBetween (φ.c * y + φ.v) (Prod.map φ.pt φ.pt b) (Prod.map φ.pt φ.pt a) (Prod.map φ.pt φ.pt u)) : RunsBetween y b a u := by
  obtain ⟨h1, h2, z, hz, h3⟩ := h
  simp only [Prod.map_fst, Prod.map_snd] at h1 h2 h3
  obtain ⟨_, z0, _, rfl⟩ := φ.onto 0 z
  refine ⟨?_, ?_, z0, φ.lt_iff.1 hz, fun y' l1 l2 => ?_⟩
  · simp only [Stretch.pt] at h1
    rw [φ.minY, φ.le_iff] at h1
    exact h1
  · simp only [Stretch.pt] at h2
    rw [φ.maxY, φ.lt_iff] at h2
    exact h2
  · have := h3 (φ.c * y' + φ.v) (φ.lt_iff.2 l1) (φ.lt_iff.2 l2)
    rw [φ.atHeight, φ.atHeight, φ.atHeight, φ.ltx_iff, φ.lex_iff] at this
    exact this

omit [IsStrictOrderedRing K] in
theorem Stretch.overlap {a b c d : Vec2 K} (h : Overlap (φ.pt a) (φ.pt b) (φ.pt c) (φ.pt d)) : Overlap a b c d := by
  obtain ⟨p, q, hne, h1, h2, h3, h4⟩ := h
  obtain ⟨p0, rfl, g1⟩ := φ.onSeg h1
  obtain ⟨q0, rfl, g2⟩ := φ.onSeg h2
  exact ⟨p0, q0, fun e => hne (by rw [e]), g1, g2, φ.onSeg_iff.1 h3, φ.onSeg_iff.1 h4⟩

/-- General position is kept, as long as the coordinates stay within the range of finite doubles. -/
theorem GeneralPolygons.stretch {Ps : List (List (Vec2 K))} (G : GeneralPolygons Ps)
    (hr : ∀ P ∈ φ.polys Ps, ∀ p ∈ P, -(dblMax : K) ≤ p.x ∧ p.x ≤ dblMax ∧ -(dblMax : K) < p.y ∧ p.y ≤ dblMax) : GeneralPolygons (φ.polys Ps) := by
  have hne : ∀ P ∈ Ps, P ≠ [] := by
    intro P hP e
    obtain ⟨p, hp, _⟩ := G.turn P hP
    rw [e] at hp
    exact absurd hp List.not_mem_nil
  have hmem : ∀ Q ∈ φ.polys Ps, ∃ P ∈ Ps, Q = P.map φ.pt := by
    intro Q hQ
    obtain ⟨P, hP, e⟩ := List.mem_map.1 hQ
    exact ⟨P, hP, e.symm⟩
  have hidx : ∀ (k : Nat) (Q : List (Vec2 K)), (φ.polys Ps)[k]? = some Q → ∃ P, Ps[k]? = some P ∧ Q = P.map φ.pt := by
    intro k Q h
    unfold Stretch.polys at h
    rw [List.getElem?_map, Option.map_eq_some_iff] at h
    obtain ⟨P, h1, h2⟩ := h
    exact ⟨P, h1, h2.symm⟩
  refine ⟨?_, ?_, hr, ?_, ?_, ?_, ?_, ?_, ?_⟩
  · rw [φ.flatSides]
    intro s hs
    obtain ⟨s, hs', rfl⟩ := List.mem_map.1 hs
    exact fun e => G.proper s hs' (φ.inj e)
  · intro Q hQ
    obtain ⟨P, hP, rfl⟩ := hmem Q hQ
    obtain ⟨p, h1, q, h2, h3⟩ := G.turn P hP
    exact ⟨_, List.mem_map.2 ⟨p, h1, rfl⟩, _, List.mem_map.2 ⟨q, h2, rfl⟩, fun e => h3 (φ.eq_iff.1 e)⟩
  · rw [φ.flatSides, List.pairwise_map]
    refine G.meet.imp ?_
    intro s t h hp a b a0 a1 b0 b1 e
    simp only [Prod.map_fst, Prod.map_snd, φ.lerp] at e
    exact h (fun q => hp ((φ.parallel _ _ _ _).2 q)) a b a0 a1 b0 b1 (φ.inj e)
  · rw [φ.flatSides]
    intro s hs t ht hy hpar p he hi
    obtain ⟨s, hs', rfl⟩ := List.mem_map.1 hs
    obtain ⟨t, ht', rfl⟩ := List.mem_map.1 ht
    obtain ⟨hi, n1, n2⟩ := hi
    obtain ⟨p0, rfl, hi'⟩ := φ.onSeg hi
    obtain ⟨u, hu, u1, u2⟩ := G.along s hs' t ht' (fun e => hy (φ.eq_iff.2 e)) ((φ.parallel _ _ _ _).1 hpar) p0 (he.imp φ.inj φ.inj)
      ⟨hi', fun e => n1 (by rw [e]; rfl), fun e => n2 (by rw [e]; rfl)⟩
    exact ⟨_, List.mem_map.2 ⟨u, hu, rfl⟩, fun e => u1 ((φ.parallel _ _ _ _).1 e), φ.onSeg_iff.2 u2⟩
  · intro Q hQ i n hL j hj p hon
    obtain ⟨P, hP, rfl⟩ := hmem Q hQ
    rw [φ.cornerAt (hne P hP), φ.cornerAt (hne P hP)] at hon
    obtain ⟨p0, rfl, hon'⟩ := φ.onSeg hon
    rw [φ.flatSides, List.pairwise_map]
    refine (G.corner P hP i n (φ.ledge (hne P hP) hL) j hj p0 hon').imp ?_
    intro s t h h1 h2 h3 h4
    refine (φ.parallel _ _ _ _).2 (h (φ.onSeg_iff.1 h1) (φ.onSeg_iff.1 h2) ?_ ?_)
    · exact h3.imp φ.lt_iff.1 φ.lt_iff.1
    · exact h4.imp φ.lt_iff.1 φ.lt_iff.1
  · intro k k' Q Q' hk hk' i i' n n' l1 l2 hn
    obtain ⟨P, hP, rfl⟩ := hidx k Q hk
    obtain ⟨P', hP', rfl⟩ := hidx k' Q' hk'
    have m := hne P (List.mem_of_getElem? hP)
    have m' := hne P' (List.mem_of_getElem? hP')
    rw [φ.ledgeStart m, φ.ledgeStart m']
    rw [List.length_map] at hn
    exact fun e => G.start k k' P P' hP hP' i i' n n' (φ.ledge m l1) (φ.ledge m' l2) hn (φ.inj e)
  · intro k k' Q Q' hk hk' i i' n n' l1 l2 j j' hj hj' hn hy
    obtain ⟨P, hP, rfl⟩ := hidx k Q hk
    obtain ⟨P', hP', rfl⟩ := hidx k' Q' hk'
    have m := hne P (List.mem_of_getElem? hP)
    have m' := hne P' (List.mem_of_getElem? hP')
    rw [List.length_map] at hn
    simp only [φ.cornerAt m, φ.cornerAt m'] at hy ⊢
    have := G.overlap k k' P P' hP hP' i i' n n' (φ.ledge m l1) (φ.ledge m' l2) j j' hj hj' (by simpa using hn) (φ.eq_iff.1 hy)
    simp only [Stretch.pt]
    rw [φ.max, φ.max, φ.min, φ.min, φ.lex_iff, φ.lex_iff]
    exact this
  · intro Q hQ a b l hl hsuc y hy ha hb
    obtain ⟨P, hP, rfl⟩ := hmem Q hQ
    obtain ⟨n, hn⟩ := hsuc
    rw [← List.map_rotate, ← List.map_append, List.prefix_map_iff] at hn
    obtain ⟨w, hw, e⟩ := hn
    obtain ⟨a0, w1, rfl, ea, e⟩ := List.map_eq_cons_iff.1 (show w.map φ.pt = a :: (l ++ [b]) from e.symm)
    obtain ⟨l0, w2, rfl, el, e⟩ := List.map_eq_append_iff.1 e
    obtain ⟨b0, w3, rfl, eb, e⟩ := List.map_eq_cons_iff.1 e
    have e3 : w3 = [] := List.map_eq_nil_iff.1 e
    subst e3
    subst ea; subst el; subst eb
    have hl0 : l0 ≠ [] := fun h => hl (by rw [h]; rfl)
    obtain ⟨_, y0, _, rfl⟩ := φ.onto 0 y
    rw [φ.flatSides, List.pairwise_map]
    refine (G.minima P hP a0 b0 l0 hl0 ⟨n, hw⟩ y0 (fun q hq => ?_) (φ.lt_iff.1 ha) (φ.lt_iff.1 hb)).imp ?_
    · exact φ.eq_iff.1 (hy (φ.pt q) (List.mem_map.2 ⟨q, hq, rfl⟩))
    · intro s t h hst
      refine h ⟨φ.runsBetween ?_, φ.runsBetween ?_⟩
      · have := hst.1
        rw [List.getLast_map, List.head_map] at this
        exact this
      · have := hst.2
        rw [List.getLast_map, List.head_map] at this
        exact this

theorem SidesApart.stretch {Ps : List (List (Vec2 K))} (h : SidesApart Ps) : SidesApart (φ.polys Ps) := by
  unfold SidesApart at h ⊢
  rw [φ.flatSides, List.pairwise_map]
  exact h.imp (fun h hy ho => h (fun e => hy (φ.eq_iff.2 e)) (φ.overlap ho))

theorem Signed.stretch {ε : Int} {P : List (Vec2 K)} (h : Signed ε P) : Signed ε (P.map φ.pt) := by
  rcases h with h | ⟨h1, h2⟩
  · exact Or.inl h
  · refine Or.inr ⟨h1.stretch φ, fun X y => ?_⟩
    obtain ⟨X0, y0, rfl, rfl⟩ := φ.onto X y
    have := φ.winding [P] X0 y0
    rw [show [P.map φ.pt] = φ.polys [P] from rfl, this]
    exact h2 X0 y0

theorem Stretch.inResult (subject clip : List (List (Vec2 K))) (ct : ClipType) (fr : FillRule) (X y : K) :
    InResult (φ.polys subject) (φ.polys clip) ct fr (φ.a * X + φ.u) (φ.c * y + φ.v) ↔ InResult subject clip ct fr X y := by
  unfold InResult
  rw [φ.winding, φ.winding]

theorem Consistent.stretch {subject clip : List (List (Vec2 K))} {ct : ClipType} {fr : FillRule} {σ : Int} (h : Consistent subject clip ct fr σ) :
    Consistent (φ.polys subject) (φ.polys clip) ct fr σ := by
  rcases h with ⟨h1, h2⟩ | ⟨εs, εc, h1, h2, h3⟩
  · refine Or.inl ⟨?_, fun X y X' y' h => ?_⟩
    · have := h1.stretch φ
      unfold Stretch.polys at this
      rwa [List.map_append] at this
    · obtain ⟨X0, y0, rfl, rfl⟩ := φ.onto X y
      obtain ⟨X1, y1, rfl, rfl⟩ := φ.onto X' y'
      simp only [φ.winding] at h
      simp only [φ.inResult]
      exact h2 X0 y0 X1 y1 h
  · refine Or.inr ⟨εs, εc, fun Q hQ => ?_, fun Q hQ => ?_, h3⟩
    · obtain ⟨P, hP, rfl⟩ := List.mem_map.1 hQ
      exact (h1 P hP).stretch φ
    · obtain ⟨P, hP, rfl⟩ := List.mem_map.1 hQ
      exact (h2 P hP).stretch φ

attribute [local instance 10000] FTrans.toFNum
variable [FTrans K] [LawfulOrd K] [Exact K]

/-- **C71.** If polygons in general position are moved, or stretched in one or both directions, the polygons delivered for them
enclose the points to which the enclosed points of the original result are moved or stretched. -/
theorem process_stretch (env env' : Env K) (hok : env.Ok) (hok' : env'.Ok) (msort msort' : List (LocMin K) → List (LocMin K))
    (hm : MinSort msort) (hm' : MinSort msort') (subject clip : List (List (Vec2 K))) (G : GeneralPolygons (subject ++ clip))
    (hr : ∀ P ∈ φ.polys (subject ++ clip), ∀ p ∈ P, -(dblMax : K) ≤ p.x ∧ p.x ≤ dblMax ∧ -(dblMax : K) < p.y ∧ p.y ≤ dblMax)
    (ct : ClipType) (fr : FillRule) (σ : Int) (hσ : σ = 1 ∨ σ = -1) (hO : Consistent subject clip ct fr σ) :
    ∃ n, ∀ fuel, n ≤ fuel → ∃ c1 c2 c3 c4 c' c'' : Clipper K, ∃ out out' : List (List (Vec2 K)),
      (Clipper.new (K := K)).addPath (subject.map (fun P => Path.build (polyCmds P))) .subject = some c1 ∧
      c1.addPath (clip.map (fun P => Path.build (polyCmds P))) .clip = some c2 ∧
      (Clipper.new (K := K)).addPath ((φ.polys subject).map (fun P => Path.build (polyCmds P))) .subject = some c3 ∧
      c3.addPath ((φ.polys clip).map (fun P => Path.build (polyCmds P))) .clip = some c4 ∧
      c2.process env msort fuel ct fr Path.recorder [] = some (some (c', out.flatMap (fun Q => eventsFrom zeroPt (closedCmds Q)))) ∧
      c4.process env' msort' fuel ct fr Path.recorder [] = some (some (c'', out'.flatMap (fun Q => eventsFrom zeroPt (closedCmds Q)))) ∧
      ∀ X y, polyWinding out' (φ.a * X + φ.u) (φ.c * y + φ.v) = polyWinding out X y := by
  classical
  have G' : GeneralPolygons (φ.polys subject ++ φ.polys clip) := by
    have := G.stretch φ hr
    unfold Stretch.polys at this ⊢
    rwa [List.map_append] at this
  obtain ⟨c1, c2, e1, e2, n, hn⟩ := process_polygons env hok msort hm subject clip G ct fr σ hσ hO
  obtain ⟨c3, c4, e3, e4, n', hn'⟩ := process_polygons env' hok' msort' hm' (φ.polys subject) (φ.polys clip) G' ct fr σ hσ (hO.stretch φ)
  refine ⟨Max.max n n', fun fuel hf => ?_⟩
  obtain ⟨c', out, p1, p2⟩ := hn fuel ((le_max_left _ _).trans hf)
  obtain ⟨c'', out', q1, q2⟩ := hn' fuel ((le_max_right _ _).trans hf)
  refine ⟨c1, c2, c3, c4, c', c'', out, out', e1, e2, e3, e4, p1, q1, fun X y => ?_⟩
  rw [p2, q2]
  simp only [φ.inResult]

/-- C71, a case: the two rectangles made twice as wide and half as high, and moved. -/
theorem stretch_demo : let φ : Stretch ℚ := ⟨2, 1 / 2, -1, 3, by norm_num, by norm_num⟩
    GeneralPolygons ([rectA] ++ [rectB]) ∧ φ.polys [rectA] ≠ [rectA] ∧
    ∀ P ∈ φ.polys ([rectA] ++ [rectB]), ∀ p ∈ P, -(dblMax : ℚ) ≤ p.x ∧ p.x ≤ dblMax ∧ -(dblMax : ℚ) < p.y ∧ p.y ≤ dblMax :=
  ⟨rects_general, by decide +kernel, by decide +kernel⟩

end River
