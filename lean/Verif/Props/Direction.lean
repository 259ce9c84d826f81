import Verif.Props.PolygonsDemo

/-! # C61: drawing every contour backwards

With the non-zero and the even-odd rule it should not matter which way round the contours are drawn. -/

namespace River
variable {K : Type}

/-! ## it does matter -/

/-- **C61 is false**: the union of two overlapping squares, both drawn clockwise, is undefined behaviour; drawn
counterclockwise it is right. -/
theorem clockwise_union_ub :
    runPts .union .nonZero [[(0, 0), (0, 2), (2, 2), (2, 0)]] [[(1, 1), (1, 3), (3, 3), (3, 1)]] = none ∧
    runPts .union .nonZero [[(0, 0), (2, 0), (2, 2), (0, 2)]] [[(1, 1), (3, 1), (3, 3), (1, 3)]] =
      some (some [[(0, 0), (2, 0), (2, 1), (3, 1), (3, 3), (1, 3), (1, 2), (0, 2), (0, 0)]]) := by
  decide +kernel

/-- **C61 is false**: with the upper square to the left, the second of two clockwise squares gets lost. -/
theorem clockwise_union_loses :
    runPts .union .nonZero [[(1, 0), (1, 2), (3, 2), (3, 0)]] [[(0, 1), (0, 3), (2, 3), (2, 1)]] =
      some (some [[(3, 0), (1, 0), (1, 1), (1, 2), (3, 2), (3, 0)]]) := by
  decide +kernel

/-- A wrong result: two triangles cross each other in a point of the horizontal side of a pentagon. `resort_ael` misses the
crossing sides, because the pentagon's side, which has moved to the right along the horizontal, comes first in the list and
exhausts the recorded abscissas (`vatti.cpp:1228-1241`). The contour delivered runs through the inside of the union: around `(2, 2)`
it winds twice. -/
theorem flat_crossing_wrong :
    runPts .union .positive [[(5, -10), (20, 10), (8, 11), (10, 0), (-5, 0)]] [[(0, -3), (4, 3), (-1, 4)], [(4, -3), (5, 4), (0, 3)]] =
      some (some [[(5, -10), (20, 10), (8, 11), (10, 0), (31 / 7, 0), (5, 4), (2, 17 / 5), (0, 3), (2, 0), (4, 3), (2, 17 / 5),
        (-1, 4), (-3 / 7, 0), (-5, 0), (5, -10)]]) ∧
    polyWinding ([[(5, -10), (20, 10), (8, 11), (10, 0), (31 / 7, 0), (5, 4), (2, 17 / 5), (0, 3), (2, 0), (4, 3), (2, 17 / 5),
        (-1, 4), (-3 / 7, 0), (-5, 0)].map (fun p : ℚ × ℚ => (⟨p.1, p.2⟩ : Vec2 ℚ))]) 2 2 = 2 := by
  decide +kernel

/-! ## where it does not -/

section
variable [Field K] [LinearOrder K]

theorem sideWinding_swap (X y : K) (s : Vec2 K × Vec2 K) : sideWinding X y s.swap = - sideWinding X y s := by
  obtain ⟨p, q⟩ := s
  unfold sideWinding
  by_cases hpq : p.y = q.y
  · have h1 : ¬ (q.y ≤ y ∧ y < q.y) := fun h => absurd h.1 (not_le.2 h.2)
    simp only [Prod.swap, hpq, h1, if_false, ite_self, neg_zero]
  · have hat : atHeight q p y = atHeight p q y := by
      unfold atHeight
      have a : q.y - p.y ≠ 0 := sub_ne_zero.2 (Ne.symm hpq)
      have b : p.y - q.y ≠ 0 := sub_ne_zero.2 hpq
      field_simp
      ring
    simp only [Prod.swap, hat]
    by_cases hX : atHeight p q y < X
    · simp only [if_pos hX]
      by_cases h1 : p.y ≤ y ∧ y < q.y
      · have h2 : ¬ (q.y ≤ y ∧ y < p.y) := fun h => absurd h.1 (not_le.2 h1.2)
        simp [h1, h2]
      · by_cases h2 : q.y ≤ y ∧ y < p.y <;> simp [h1, h2]
    · simp only [if_neg hX, neg_zero]

omit [Field K] [LinearOrder K] in
theorem polySides_reverse (P : List (Vec2 K)) : (polySides P.reverse).Perm ((polySides P).map Prod.swap) := by
  cases P with
  | nil => exact List.Perm.refl _
  | cons p qs =>
    have h1 : polySides (p :: qs) = (p :: qs).zip (qs ++ [p]) := by rw [polySides, List.rotate_cons_succ, List.rotate_zero]
    have h2 : (polySides (p :: qs).reverse).rotate qs.length = polySides (p :: qs.reverse) := by
      unfold polySides
      rw [List.zip_eq_zipWith, List.zipWith_rotate_distrib _ _ _ _ (by simp), List.rotate_rotate, Nat.add_comm 1, ← List.rotate_rotate,
        ← List.zip_eq_zipWith]
      have : (p :: qs).reverse.rotate qs.length = p :: qs.reverse := by
        rw [List.reverse_cons]
        have := List.rotate_append_length_eq qs.reverse [p]
        rwa [List.length_reverse] at this
      rw [this]
    have h3 : polySides (p :: qs.reverse) = ((polySides (p :: qs)).map Prod.swap).reverse := by
      rw [h1, polySides, List.rotate_cons_succ, List.rotate_zero, List.zip_swap, List.zip_eq_zipWith, List.zip_eq_zipWith,
        List.reverse_zipWith (by simp)]
      simp
    refine (List.rotate_perm _ qs.length).symm.trans ?_
    rw [h2, h3]
    exact List.reverse_perm _

/-- All polygons drawn backwards. -/
def reverseAll (Ps : List (List (Vec2 K))) : List (List (Vec2 K)) := Ps.map List.reverse

/-- Backwards, all winding numbers change their sign. -/
theorem polyWinding_reverse (Ps : List (List (Vec2 K))) (X y : K) : polyWinding (reverseAll Ps) X y = - polyWinding Ps X y := by
  unfold polyWinding reverseAll
  induction Ps with
  | nil => rfl
  | cons P Ps ih =>
    rw [List.map_cons, List.flatMap_cons, List.flatMap_cons, List.map_append, List.map_append, List.sum_append, List.sum_append, ih,
      ((polySides_reverse P).map (sideWinding X y)).sum_eq, List.map_map]
    have : (List.map (sideWinding X y ∘ Prod.swap) (polySides P)).sum = - (List.map (sideWinding X y) (polySides P)).sum := by
      induction polySides P with
      | nil => rfl
      | cons s l ih2 => rw [List.map_cons, List.sum_cons, List.map_cons, List.sum_cons, ih2, Function.comp, sideWinding_swap]; omega
    rw [this]; omega

/-- The points of the result do not depend on the direction. -/
theorem inResult_reverse (subject clip : List (List (Vec2 K))) (ct : ClipType) (fr : FillRule) (hfr : fr = .nonZero ∨ fr = .evenOdd) (X y : K) :
    InResult (reverseAll subject) (reverseAll clip) ct fr X y ↔ InResult subject clip ct fr X y := by
  unfold InResult
  rw [polyWinding_reverse, polyWinding_reverse]
  rcases hfr with rfl | rfl <;> simp only [FillRule.inside, ne_eq, neg_eq_zero, Int.odd_iff, Int.neg_emod_two]

end

attribute [local instance 10000] FTrans.toFNum
variable [Field K] [LinearOrder K] [IsStrictOrderedRing K] [FTrans K] [LawfulOrd K] [Exact K]

/-- The polygons wind around points in one direction only: either none of them winds around a point clockwise and none overlaps
itself, or no sides overlap at all and no winding number of all the polygons of one type together is negative. -/
def OneWay (subject clip : List (List (Vec2 K))) : Prop :=
  (∀ P ∈ subject ++ clip, Signed 1 P) ∨
    (SidesApart (subject ++ clip) ∧ (∀ X y, 0 ≤ polyWinding subject X y) ∧ ∀ X y, 0 ≤ polyWinding clip X y)

omit [Field K] [LinearOrder K] [IsStrictOrderedRing K] [FTrans K] [LawfulOrd K] [Exact K] in
theorem sides_reverse (Ps : List (List (Vec2 K))) : ((reverseAll Ps).flatMap polySides).Perm ((Ps.flatMap polySides).map Prod.swap) := by
  unfold reverseAll
  induction Ps with
  | nil => exact .refl _
  | cons P Ps ih =>
    rw [List.map_cons, List.flatMap_cons, List.flatMap_cons, List.map_append]
    exact (polySides_reverse P).append ih

omit [FTrans K] [LawfulOrd K] [Exact K] in
theorem SidesApart.reverse {Ps : List (List (Vec2 K))} (h : SidesApart Ps) : SidesApart (reverseAll Ps) := by
  unfold SidesApart at h ⊢
  have on : ∀ {p a b : Vec2 K}, OnSeg p a b → OnSeg p b a := by
    rintro p a b ⟨t, t0, t1, e⟩
    refine ⟨1 - t, by linarith, by linarith, ?_⟩
    rw [e]
    refine Vec2.ext ?_ ?_ <;> simp only [lerp] <;> ring
  have sw : ∀ {a b c d : Vec2 K}, Overlap b a d c → Overlap a b c d := by
    rintro a b c d ⟨p, q, h, h1, h2, h3, h4⟩
    exact ⟨p, q, h, on h1, on h2, on h3, on h4⟩
  have flat : ∀ {p0 p1 p2 p3 : Vec2 K}, Overlap p0 p1 p2 p3 → p0.y = p1.y → p2.y = p3.y := by
    rintro p0 p1 p2 p3 ⟨p, q, hpq, ⟨a, _, _, e1⟩, ⟨b, _, _, e2⟩, ⟨c, _, _, e3⟩, ⟨d, _, _, e4⟩⟩ hy
    have y1 : p.y = q.y := by rw [e1, e2]; simp [lerp, hy]
    rw [e3, e4] at y1
    simp only [lerp] at y1
    have hcd : c ≠ d := fun e => hpq (by rw [e3, e4, e])
    have : (c - d) * (p3.y - p2.y) = 0 := by linear_combination y1
    exact (sub_eq_zero.1 ((mul_eq_zero.1 this).resolve_left (sub_ne_zero.2 hcd))).symm
  refine (((sides_reverse Ps).symm.pairwise ?_) ?_)
  · rw [List.pairwise_map]
    exact h.imp (fun {s t} h hy ho => h (fun e => hy e.symm) (sw ho))
  · intro x y hxy hy ho
    have ho' : Overlap x.1 x.2 y.1 y.2 := by
      obtain ⟨p, q, h, h1, h2, h3, h4⟩ := ho
      exact ⟨p, q, h, h3, h4, h1, h2⟩
    exact hxy (fun e => hy (flat ho' e)) ho'

omit [FTrans K] [LawfulOrd K] [Exact K] in
/-- What `Consistent` asks holds in both directions. -/
theorem OneWay.consistent {subject clip : List (List (Vec2 K))} (hw : OneWay subject clip) {ct : ClipType} (hct : ct = .union ∨ ct = .intersection) :
    Consistent subject clip ct .nonZero 1 ∧ Consistent (reverseAll subject) (reverseAll clip) ct .nonZero (-1) := by
  have hO1 : Consistent subject clip ct .nonZero 1 := by
    rcases hw with h | ⟨h, h1, h2⟩
    · exact consistent_nonzero _ _ ct hct h
    · exact oriented_nonzero _ _ ct hct h h1 h2
  have hO : Consistent (reverseAll subject) (reverseAll clip) ct .nonZero (-1) := by
    have hap : reverseAll subject ++ reverseAll clip = reverseAll (subject ++ clip) := by unfold reverseAll; rw [List.map_append]
    rcases hw with h | ⟨h, h1, h2⟩
    · refine consistent_nonzero_clockwise _ _ ct hct ?_
      rw [hap]
      intro P hP
      obtain ⟨Q, hQ, rfl⟩ := List.mem_map.1 hP
      obtain ⟨q1, q2⟩ := (h Q hQ).resolve_left (by norm_num)
      refine Or.inr ⟨q1.reverse, fun X y => ?_⟩
      have := q2 X y
      have e := polyWinding_reverse [Q] X y
      rw [show reverseAll [Q] = [Q.reverse] from rfl] at e
      rw [e]; omega
    · refine Or.inl ⟨by rw [hap]; exact h.reverse, ?_⟩
      intro X y X' y' h
      refine ⟨fun h => by norm_num at h, fun _ => ?_⟩
      have a := h1 X y
      have b := h2 X y
      have a' := h1 X' y'
      have b' := h2 X' y'
      unfold InResult
      simp only [polyWinding_reverse] at h ⊢
      rcases hct with rfl | rfl <;> simp only [ClipType.op, FillRule.inside] <;> omega
  exact ⟨hO1, hO⟩

/-- **C61**, for union and intersection of polygons in general position that wind one way, with the non-zero rule: drawn
backwards they yield polygons that run the other way round and enclose the same points. -/
theorem direction_irrelevant_partial (env : Env K) (hok : env.Ok) (msort : List (LocMin K) → List (LocMin K)) (hm : MinSort msort)
    (subject clip : List (List (Vec2 K))) (G : GeneralPolygons (subject ++ clip)) (G' : GeneralPolygons (reverseAll subject ++ reverseAll clip))
    (ct : ClipType) (hct : ct = .union ∨ ct = .intersection) (hw : OneWay subject clip) :
    ∃ n, ∀ fuel, n ≤ fuel → ∃ c1 c2 c3 c4 c' c'' : Clipper K, ∃ out out' : List (List (Vec2 K)),
      (Clipper.new (K := K)).addPath (subject.map (fun P => Path.build (polyCmds P))) .subject = some c1 ∧
      c1.addPath (clip.map (fun P => Path.build (polyCmds P))) .clip = some c2 ∧
      (Clipper.new (K := K)).addPath ((reverseAll subject).map (fun P => Path.build (polyCmds P))) .subject = some c3 ∧
      c3.addPath ((reverseAll clip).map (fun P => Path.build (polyCmds P))) .clip = some c4 ∧
      c2.process env msort fuel ct .nonZero Path.recorder [] = some (some (c', out.flatMap (fun Q => eventsFrom zeroPt (closedCmds Q)))) ∧
      c4.process env msort fuel ct .nonZero Path.recorder [] = some (some (c'', out'.flatMap (fun Q => eventsFrom zeroPt (closedCmds Q)))) ∧
      ∀ X y, polyWinding out' X y = - polyWinding out X y := by
  classical
  obtain ⟨hO1, hO⟩ := hw.consistent hct
  obtain ⟨c1, c2, a1, a2, n, hn⟩ := process_polygons env hok msort hm subject clip G ct .nonZero 1 (Or.inl rfl) hO1
  obtain ⟨c3, c4, b1, b2, n', hn'⟩ := process_polygons env hok msort hm _ _ G' ct .nonZero (-1) (Or.inr rfl) hO
  refine ⟨max n n', fun fuel hf => ?_⟩
  obtain ⟨c', out, p1, p2⟩ := hn fuel (le_trans (le_max_left _ _) hf)
  obtain ⟨c'', out', q1, q2⟩ := hn' fuel (le_trans (le_max_right _ _) hf)
  refine ⟨c1, c2, c3, c4, c', c'', out, out', a1, a2, b1, b2, p1, q1, fun X y => ?_⟩
  rw [p2, q2]
  by_cases h : InResult subject clip ct .nonZero X y
  · rw [if_pos h, if_pos ((inResult_reverse _ _ _ _ (Or.inl rfl) _ _).2 h)]
  · rw [if_neg h, if_neg (fun h' => h ((inResult_reverse _ _ _ _ (Or.inl rfl) _ _).1 h'))]; rfl

/-- Two triangles that cross each other. -/
def dirA : List (Vec2 ℚ) := [⟨0, 0⟩, ⟨4, 1⟩, ⟨1, 3⟩]
/-- The second one. -/
def dirB : List (Vec2 ℚ) := [⟨1, 1 / 2⟩, ⟨5, 2⟩, ⟨2, 4⟩]

theorem dirA_nonneg (X y : ℚ) : 0 ≤ polyWinding [dirA] X y := by
  simp only [polyWinding, dirA, polySides, List.rotate_cons_succ, List.rotate_zero, List.flatMap_cons, List.flatMap_nil, List.cons_append,
    List.nil_append, List.zip_cons_cons, List.zip_nil_left, List.append_nil, List.map_cons, List.map_nil, List.sum_cons, List.sum_nil,
    sideWinding, atHeight]
  split_ifs <;> first | omega | (exfalso; first | linarith | (simp only [not_and, not_lt, not_le] at *; grind))

theorem dirB_nonneg (X y : ℚ) : 0 ≤ polyWinding [dirB] X y := by
  simp only [polyWinding, dirB, polySides, List.rotate_cons_succ, List.rotate_zero, List.flatMap_cons, List.flatMap_nil, List.cons_append,
    List.nil_append, List.zip_cons_cons, List.zip_nil_left, List.append_nil, List.map_cons, List.map_nil, List.sum_cons, List.sum_nil,
    sideWinding, atHeight]
  split_ifs <;> first | omega | (exfalso; first | linarith | (simp only [not_and, not_lt, not_le] at *; grind))

/-- Both directions are in general position, and the union has points that are in both, in one and in none of them. -/
theorem direction_demo : GeneralPolygons ([dirA] ++ [dirB]) ∧ GeneralPolygons (reverseAll [dirA] ++ reverseAll [dirB]) ∧ OneWay [dirA] [dirB] ∧
    polyWinding [dirA] 2 (3 / 2) = 1 ∧ polyWinding [dirB] 2 (3 / 2) = 1 ∧ polyWinding [dirA] 1 1 = 1 ∧ polyWinding [dirB] 1 1 = 0 ∧
    polyWinding [dirA] 9 1 = 0 ∧ polyWinding [dirB] 9 1 = 0 :=
  ⟨generalB_sound (by decide +kernel), generalB_sound (by decide +kernel), Or.inr ⟨noOverlapB_sound (by decide +kernel), dirA_nonneg, dirB_nonneg⟩,
    by decide +kernel⟩

end River
