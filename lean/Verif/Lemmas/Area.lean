import Verif.Spec.Area

/-! # Winding numbers determine areas -/

namespace River
variable {K : Type} [Field K] [LinearOrder K] [IsStrictOrderedRing K]

omit [Field K] [IsStrictOrderedRing K] in
/-- What is not negative at the least element and does not fall from one element to the next is not negative anywhere. -/
theorem climb {M : Type} [AddCommGroup M] [LinearOrder M] [IsOrderedAddMonoid M] (S : Finset K) (G : K → M)
    (h0 : ∀ y ∈ S, (∀ z ∈ S, y ≤ z) → 0 ≤ G y) (h1 : ∀ z ∈ S, ∀ y ∈ S, z < y → (∀ w ∈ S, w ≤ z ∨ y ≤ w) → G z ≤ G y) :
    ∀ y ∈ S, 0 ≤ G y := by
  classical
  by_contra hc
  push Not at hc
  obtain ⟨y, hy, hneg⟩ := hc
  have hne : (S.filter (fun y => G y < 0)).Nonempty := ⟨y, Finset.mem_filter.2 ⟨hy, hneg⟩⟩
  obtain ⟨m, hm, hmin⟩ := Finset.exists_min_image _ id hne
  rw [Finset.mem_filter] at hm
  by_cases hb : (S.filter (fun z => z < m)).Nonempty
  · obtain ⟨z, hz, hmax⟩ := Finset.exists_max_image _ id hb
    rw [Finset.mem_filter] at hz
    have hz0 : 0 ≤ G z := by
      by_contra hz0
      exact absurd (hmin z (Finset.mem_filter.2 ⟨hz.1, not_le.1 hz0⟩)) (not_le.2 hz.2)
    refine absurd (hz0.trans (h1 z hz.1 m hm.1 hz.2 (fun w hw => ?_))) (not_le.2 hm.2)
    by_cases hwm : w < m
    · exact Or.inl (hmax w (Finset.mem_filter.2 ⟨hw, hwm⟩))
    · exact Or.inr (not_lt.1 hwm)
  · refine absurd (h0 m hm.1 (fun z hz => ?_)) (not_le.2 hm.2)
    by_contra hzm
    exact hb ⟨z, Finset.mem_filter.2 ⟨hz, not_le.1 hzm⟩⟩

/-- Weights on a line: if the weight to the left of every point is not negative, and all weights together are zero, the centre
lies to the left. -/
theorem moment {α : Type} (l : List α) (e : α → ℤ) (a : α → K) (h : ∀ X, 0 ≤ (l.map (fun i => if a i < X then e i else 0)).sum)
    (h0 : (l.map e).sum = 0) : (l.map (fun i => (e i : K) * a i)).sum ≤ 0 := by
  classical
  have key := climb ((l.map a).toFinset) (fun X => (l.map (fun i => (e i : K) * max (X - a i) 0)).sum) ?_ ?_
  · by_cases hn : ((l.map a).toFinset).Nonempty
    · obtain ⟨M, hM, hmax⟩ := Finset.exists_max_image _ id hn
      have := key M hM
      have e1 : (l.map (fun i => (e i : K) * max (M - a i) 0)).sum = M * ((l.map e).sum : ℤ) - (l.map (fun i => (e i : K) * a i)).sum := by
        have hle : ∀ i ∈ l, a i ≤ M := fun i hi => hmax (a i) (List.mem_toFinset.2 (List.mem_map_of_mem hi))
        clear key this hmax h h0 hM hn
        induction l with
        | nil => simp
        | cons i l ih =>
          simp only [List.map_cons, List.sum_cons, Int.cast_add]
          rw [ih (fun k hk => hle k (List.mem_cons_of_mem _ hk)), max_eq_left (sub_nonneg.2 (hle i (List.mem_cons_self ..)))]
          ring
      rw [e1, h0, Int.cast_zero, mul_zero, zero_sub] at this
      linarith
    · have : l = [] := by
        cases l with
        | nil => rfl
        | cons i l => exact absurd ⟨a i, by simp⟩ hn
      rw [this]; simp
  · intro y _ hmin
    have : ∀ i ∈ l, (e i : K) * max (y - a i) 0 = 0 := fun i hi => by
      rw [max_eq_right (sub_nonpos.2 (hmin (a i) (List.mem_toFinset.2 (List.mem_map_of_mem hi)))), mul_zero]
    rw [List.map_congr_left this]
    simp
  · intro z hz0 y hy0 hzy hgap
    clear hz0 hy0
    have hgap' : ∀ i ∈ l, a i ≤ z ∨ y ≤ a i := fun i hi => hgap (a i) (List.mem_toFinset.2 (List.mem_map_of_mem hi))
    have e1 : (l.map (fun i => (e i : K) * max (y - a i) 0)).sum = (l.map (fun i => (e i : K) * max (z - a i) 0)).sum +
        (y - z) * ((l.map (fun i => if a i < y then e i else 0)).sum : ℤ) := by
      clear hgap h h0
      induction l with
      | nil => simp
      | cons i l ih =>
        simp only [List.map_cons, List.sum_cons, Int.cast_add]
        rw [ih (fun k hk => hgap' k (List.mem_cons_of_mem _ hk))]
        rcases hgap' i (List.mem_cons_self ..) with hi | hi
        · rw [max_eq_left (sub_nonneg.2 hi), max_eq_left (sub_nonneg.2 (hi.trans hzy.le)), if_pos (hi.trans_lt hzy)]
          ring
        · rw [max_eq_right (sub_nonpos.2 hi), max_eq_right (sub_nonpos.2 (hzy.le.trans hi)), if_neg (not_lt.2 hi), Int.cast_zero]
          ring
    rw [e1]
    have h2 : (0 : K) ≤ ((l.map (fun i => if a i < y then e i else 0)).sum : ℤ) := by exact_mod_cast h y
    have := mul_nonneg (sub_nonneg.2 hzy.le) h2
    linarith

omit [Field K] [LinearOrder K] [IsStrictOrderedRing K] in
theorem map_neg_sum {α M : Type} [AddCommGroup M] (l : List α) (f : α → M) : (l.map (fun i => -f i)).sum = -(l.map f).sum := by
  induction l with
  | nil => simp
  | cons i l ih => simp only [List.map_cons, List.sum_cons, ih]; abel

/-- The direction of a side at a height: `1` down, `-1` up, `0` if it does not reach the height. -/
def sideDir (y : K) (s : Vec2 K × Vec2 K) : ℤ := if s.2.y ≤ y ∧ y < s.1.y then 1 else if s.1.y ≤ y ∧ y < s.2.y then -1 else 0

omit [IsStrictOrderedRing K] in
theorem sideWinding_eq (X y : K) (s : Vec2 K × Vec2 K) : sideWinding X y s = if atHeight s.1 s.2 y < X then sideDir y s else 0 := rfl

/-- Twice the signed area between a side and the axis, up to the height `y`. -/
def areaBelow (y : K) (s : Vec2 K × Vec2 K) : K :=
  let lo := min s.1.y s.2.y
  let c := max lo (min y (max s.1.y s.2.y))
  (atHeight s.1 s.2 lo + atHeight s.1 s.2 c) * (c - lo) * (if s.2.y < s.1.y then 1 else -1)

theorem areaBelow_low {y : K} {s : Vec2 K × Vec2 K} (h : y ≤ min s.1.y s.2.y) : areaBelow y s = 0 := by
  unfold areaBelow
  have : max (min s.1.y s.2.y) (min y (max s.1.y s.2.y)) = min s.1.y s.2.y := max_eq_left ((min_le_left _ _).trans h)
  simp only [this]
  ring

theorem atHeight_ends {s : Vec2 K × Vec2 K} (h : s.1.y ≠ s.2.y) : atHeight s.1 s.2 s.1.y = s.1.x ∧ atHeight s.1 s.2 s.2.y = s.2.x := by
  unfold atHeight
  have : s.2.y - s.1.y ≠ 0 := sub_ne_zero.2 h.symm
  constructor
  · ring
  · field_simp; ring

theorem areaBelow_high {y : K} {s : Vec2 K × Vec2 K} (h : max s.1.y s.2.y ≤ y) : areaBelow y s = (s.1.x + s.2.x) * (s.1.y - s.2.y) := by
  unfold areaBelow
  have e : max (min s.1.y s.2.y) (min y (max s.1.y s.2.y)) = max s.1.y s.2.y := by
    rw [min_eq_right h]; exact max_eq_right min_le_max
  simp only [e]
  rcases lt_trichotomy s.1.y s.2.y with h1 | h1 | h1
  · rw [min_eq_left h1.le, max_eq_right h1.le, if_neg (not_lt.2 h1.le), (atHeight_ends h1.ne).1, (atHeight_ends h1.ne).2]
    ring
  · rw [h1]; simp
  · rw [min_eq_right h1.le, max_eq_left h1.le, if_pos h1, (atHeight_ends h1.ne').1, (atHeight_ends h1.ne').2]
    ring

/-- Between two heights where no side begins or ends. -/
theorem areaBelow_step {z y : K} (hzy : z < y) {s : Vec2 K × Vec2 K} (h1 : s.1.y ≤ z ∨ y ≤ s.1.y) (h2 : s.2.y ≤ z ∨ y ≤ s.2.y) :
    areaBelow y s = areaBelow z s + 2 * (y - z) * ((sideDir ((z + y) / 2) s : ℤ) * atHeight s.1 s.2 ((z + y) / 2)) := by
  have m1 : z < (z + y) / 2 := by linarith
  have m2 : (z + y) / 2 < y := by linarith
  rcases h1 with h1 | h1 <;> rcases h2 with h2 | h2
  · have a : ∀ w, z ≤ w → max (min s.1.y s.2.y) (min w (max s.1.y s.2.y)) = max s.1.y s.2.y := fun w hw => by
      rw [min_eq_right ((max_le h1 h2).trans hw)]; exact max_eq_right min_le_max
    have hd : sideDir ((z + y) / 2) s = 0 := by
      unfold sideDir
      rw [if_neg (fun h => absurd (h.2.trans_le h1) (not_lt.2 m1.le)), if_neg (fun h => absurd (h.2.trans_le h2) (not_lt.2 m1.le))]
    unfold areaBelow
    rw [hd]
    simp only [a y hzy.le, a z le_rfl]
    simp
  · have hlt : s.1.y < s.2.y := (h1.trans_lt hzy).trans_le h2
    have hd : sideDir ((z + y) / 2) s = -1 := by
      unfold sideDir
      rw [if_neg (fun h => absurd (h.1.trans_lt m2) (not_lt.2 h2)), if_pos ⟨h1.trans m1.le, m2.trans_le h2⟩]
    unfold areaBelow
    rw [hd]
    simp only [min_eq_left hlt.le, max_eq_right hlt.le, if_neg (not_lt.2 hlt.le), min_eq_left h2, min_eq_left (hzy.le.trans h2),
      max_eq_right h1, max_eq_right (h1.trans hzy.le)]
    unfold atHeight
    push_cast
    ring
  · have hlt : s.2.y < s.1.y := (h2.trans_lt hzy).trans_le h1
    have hd : sideDir ((z + y) / 2) s = 1 := by
      unfold sideDir
      rw [if_pos ⟨h2.trans m1.le, m2.trans_le h1⟩]
    unfold areaBelow
    rw [hd]
    simp only [min_eq_right hlt.le, max_eq_left hlt.le, if_pos hlt, min_eq_left h1, min_eq_left (hzy.le.trans h1),
      max_eq_right h2, max_eq_right (h2.trans hzy.le)]
    unfold atHeight
    push_cast
    ring
  · have a : ∀ w, w ≤ y → max (min s.1.y s.2.y) (min w (max s.1.y s.2.y)) = min s.1.y s.2.y := fun w hw =>
      max_eq_left ((min_le_left _ _).trans (hw.trans (le_min h1 h2)))
    have hd : sideDir ((z + y) / 2) s = 0 := by
      unfold sideDir
      rw [if_neg (fun h => absurd (h.1.trans_lt m2) (not_lt.2 h2)), if_neg (fun h => absurd (h.1.trans_lt m2) (not_lt.2 h1))]
    unfold areaBelow
    rw [hd]
    simp only [a y le_rfl, a z hzy.le]
    simp

/-- Sides that wind around no point a negative number of times enclose no negative area. -/
theorem sides_area (l : List (Vec2 K × Vec2 K)) (h : ∀ X y, 0 ≤ (l.map (sideWinding X y)).sum) (h0 : ∀ y, (l.map (sideDir y)).sum = 0) :
    (l.map (fun s => (s.1.x + s.2.x) * (s.1.y - s.2.y))).sum ≤ 0 := by
  classical
  have key := climb ((l.flatMap (fun s => [s.1.y, s.2.y])).toFinset) (fun y => -(l.map (areaBelow y)).sum) ?_ ?_
  · by_cases hn : ((l.flatMap (fun s => [s.1.y, s.2.y])).toFinset).Nonempty
    · obtain ⟨M, hM, hmax⟩ := Finset.exists_max_image _ id hn
      have := key M hM
      rw [List.map_congr_left (fun s hs => areaBelow_high (y := M) (s := s) (max_le
        (hmax s.1.y (List.mem_toFinset.2 (List.mem_flatMap.2 ⟨s, hs, by simp⟩)))
        (hmax s.2.y (List.mem_toFinset.2 (List.mem_flatMap.2 ⟨s, hs, by simp⟩)))))] at this
      linarith
    · have : l = [] := by
        cases l with
        | nil => rfl
        | cons i l => exact absurd ⟨i.1.y, by simp⟩ hn
      rw [this]; simp
  · intro y _ hmin
    rw [List.map_congr_left (fun s hs => areaBelow_low (y := y) (s := s) (le_min
        (hmin s.1.y (List.mem_toFinset.2 (List.mem_flatMap.2 ⟨s, hs, by simp⟩)))
        (hmin s.2.y (List.mem_toFinset.2 (List.mem_flatMap.2 ⟨s, hs, by simp⟩)))))]
    simp
  · intro z _ y _ hzy hgap
    have e1 : (l.map (areaBelow y)).sum = (l.map (areaBelow z)).sum +
        2 * (y - z) * (l.map (fun s => (sideDir ((z + y) / 2) s : K) * atHeight s.1 s.2 ((z + y) / 2))).sum := by
      rw [List.map_congr_left (fun s hs => areaBelow_step hzy (s := s)
        (hgap s.1.y (List.mem_toFinset.2 (List.mem_flatMap.2 ⟨s, hs, by simp⟩)))
        (hgap s.2.y (List.mem_toFinset.2 (List.mem_flatMap.2 ⟨s, hs, by simp⟩)))), List.sum_map_add, List.sum_map_mul_left]
    have := moment l (sideDir ((z + y) / 2)) (fun s => atHeight s.1 s.2 ((z + y) / 2)) (fun X => h X _) (h0 _)
    rw [e1]
    nlinarith [mul_nonneg (sub_nonneg.2 hzy.le) (neg_nonneg.2 this)]

omit [Field K] [LinearOrder K] [IsStrictOrderedRing K] in
/-- Every corner of a polygon is the beginning of one side and the end of one. -/
theorem polySides_ends {M : Type} [AddCommMonoid M] (Ps : List (List (Vec2 K))) (f : Vec2 K → M) :
    ((Ps.flatMap polySides).map (fun s => f s.1)).sum = ((Ps.flatMap polySides).map (fun s => f s.2)).sum := by
  induction Ps with
  | nil => rfl
  | cons P Ps ih =>
    rw [List.flatMap_cons, List.map_append, List.map_append, List.sum_append, List.sum_append, ih]
    congr 1
    have e1 : (polySides P).map (fun s => f s.1) = P.map f := by
      unfold polySides
      rw [show (fun s : Vec2 K × Vec2 K => f s.1) = f ∘ Prod.fst from rfl, ← List.map_map, List.map_fst_zip (by simp)]
    have e2 : (polySides P).map (fun s => f s.2) = (P.rotate 1).map f := by
      unfold polySides
      rw [show (fun s : Vec2 K × Vec2 K => f s.2) = f ∘ Prod.snd from rfl, ← List.map_map, List.map_snd_zip (by simp)]
    rw [e1, e2]
    exact ((List.rotate_perm P 1).map f).sum_eq.symm

theorem polySides_dir (Ps : List (List (Vec2 K))) (y : K) : ((Ps.flatMap polySides).map (sideDir y)).sum = 0 := by
  have h := polySides_ends Ps (fun p => if p.y ≤ y then (1 : ℤ) else 0)
  have e : ∀ s ∈ Ps.flatMap polySides, sideDir y s + (if s.1.y ≤ y then (1 : ℤ) else 0) = (if s.2.y ≤ y then (1 : ℤ) else 0) := by
    intro s _
    unfold sideDir
    by_cases h1 : s.1.y ≤ y <;> by_cases h2 : s.2.y ≤ y <;> simp [h1, h2, not_le.1, not_lt.2] <;> simp_all
  have := congrArg List.sum (List.map_congr_left e)
  rw [List.sum_map_add] at this
  rw [h] at this
  linarith

theorem area2_eq (Ps : List (List (Vec2 K))) : area2 Ps = -((Ps.flatMap polySides).map (fun s => (s.1.x + s.2.x) * (s.1.y - s.2.y))).sum := by
  have h := polySides_ends Ps (fun p => p.x * p.y)
  unfold area2
  have e : ∀ s ∈ Ps.flatMap polySides, s.1.x * s.2.y - s.2.x * s.1.y + s.2.x * s.2.y = -((s.1.x + s.2.x) * (s.1.y - s.2.y)) + s.1.x * s.1.y := by
    intro s _; ring
  have := congrArg List.sum (List.map_congr_left e)
  rw [List.sum_map_add, List.sum_map_add, h, map_neg_sum] at this
  exact add_right_cancel this

theorem sideWinding_rev (X y : K) (s : Vec2 K × Vec2 K) : sideWinding X y s.swap = -sideWinding X y s := by
  rw [sideWinding_eq, sideWinding_eq]
  have hd : sideDir y s.swap = -sideDir y s := by
    unfold sideDir
    simp only [Prod.fst_swap, Prod.snd_swap]
    by_cases h1 : s.1.y ≤ y ∧ y < s.2.y
    · rw [if_pos h1, if_neg (fun h => absurd (h1.1.trans_lt h.2) (lt_irrefl _)), if_pos h1]; rfl
    · rw [if_neg h1, if_neg h1]
      by_cases h2 : s.2.y ≤ y ∧ y < s.1.y
      · rw [if_pos h2, if_pos h2]
      · rw [if_neg h2, if_neg h2]; rfl
  rw [hd]
  by_cases hz : s.1.y = s.2.y
  · have : sideDir y s = 0 := by
      unfold sideDir
      rw [if_neg (fun h => absurd (h.1.trans_lt h.2) (by rw [hz]; exact lt_irrefl _)), if_neg (fun h => absurd (h.1.trans_lt h.2) (by rw [hz]; exact lt_irrefl _))]
    rw [this]; simp
  · have : atHeight s.swap.1 s.swap.2 y = atHeight s.1 s.2 y := by
      unfold atHeight
      simp only [Prod.fst_swap, Prod.snd_swap]
      have h1 : s.2.y - s.1.y ≠ 0 := sub_ne_zero.2 (Ne.symm hz)
      have h2 : s.1.y - s.2.y ≠ 0 := sub_ne_zero.2 hz
      field_simp
      ring
    rw [this]
    by_cases h : atHeight s.1 s.2 y < X
    · rw [if_pos h, if_pos h]
    · rw [if_neg h, if_neg h]; rfl

/-- **Winding numbers determine areas**: polygons that wind around every point at least as often as others enclose at least the same area. -/
theorem area_mono {Ps Qs : List (List (Vec2 K))} (h : ∀ X y, polyWinding Ps X y ≤ polyWinding Qs X y) : area2 Ps ≤ area2 Qs := by
  rw [area2_eq, area2_eq]
  have key := sides_area (Qs.flatMap polySides ++ (Ps.flatMap polySides).map Prod.swap) ?_ ?_
  · rw [List.map_append, List.sum_append, List.map_map] at key
    have e : ((Ps.flatMap polySides).map ((fun s : Vec2 K × Vec2 K => (s.1.x + s.2.x) * (s.1.y - s.2.y)) ∘ Prod.swap)).sum =
        -((Ps.flatMap polySides).map (fun s => (s.1.x + s.2.x) * (s.1.y - s.2.y))).sum := by
      rw [← map_neg_sum]
      congr 1
      refine List.map_congr_left (fun s _ => ?_)
      simp only [Function.comp_apply, Prod.fst_swap, Prod.snd_swap]
      ring
    rw [e] at key
    linarith
  · intro X y
    rw [List.map_append, List.sum_append, List.map_map]
    have e : ((Ps.flatMap polySides).map (sideWinding X y ∘ Prod.swap)).sum = -polyWinding Ps X y := by
      unfold polyWinding
      rw [← map_neg_sum]
      congr 1
      exact List.map_congr_left (fun s _ => sideWinding_rev X y s)
    rw [e]
    have := h X y
    unfold polyWinding at this ⊢
    omega
  · intro y
    rw [List.map_append, List.sum_append, List.map_map, polySides_dir]
    have e : ((Ps.flatMap polySides).map (sideDir y ∘ Prod.swap)).sum = -((Ps.flatMap polySides).map (sideDir y)).sum := by
      rw [← map_neg_sum]
      congr 1
      refine List.map_congr_left (fun s _ => ?_)
      simp only [Function.comp_apply]
      unfold sideDir
      simp only [Prod.fst_swap, Prod.snd_swap]
      by_cases h1 : s.1.y ≤ y ∧ y < s.2.y
      · rw [if_pos h1, if_neg (fun h => absurd (h1.1.trans_lt h.2) (lt_irrefl _)), if_pos h1]; rfl
      · rw [if_neg h1, if_neg h1]
        by_cases h2 : s.2.y ≤ y ∧ y < s.1.y
        · rw [if_pos h2, if_pos h2]
        · rw [if_neg h2, if_neg h2]; rfl
    rw [e, polySides_dir]; rfl

theorem area_eq {Ps Qs : List (List (Vec2 K))} (h : ∀ X y, polyWinding Ps X y = polyWinding Qs X y) : area2 Ps = area2 Qs :=
  le_antisymm (area_mono (fun X y => (h X y).le)) (area_mono (fun X y => (h X y).ge))

omit [LinearOrder K] [IsStrictOrderedRing K] in
theorem area2_append (Ps Qs : List (List (Vec2 K))) : area2 (Ps ++ Qs) = area2 Ps + area2 Qs := by
  unfold area2; rw [List.flatMap_append, List.map_append, List.sum_append]

omit [IsStrictOrderedRing K] in
theorem polyWinding_add (Ps Qs : List (List (Vec2 K))) (X y : K) : polyWinding (Ps ++ Qs) X y = polyWinding Ps X y + polyWinding Qs X y := by
  unfold polyWinding; rw [List.flatMap_append, List.map_append, List.sum_append]

end River
