import Verif.Spec.Rect

/-! # C08-C10: boxes -/

namespace River
namespace Rect

section any
variable {K : Type} [FNum K]

/-- **C09** (any arithmetic): `rect::intersect` is symmetric. -/
theorem intersect_comm (r s : Rect K) : r.intersect s = s.intersect r := by
  unfold intersect
  cases (r.max.x <. s.min.x) <;> cases (s.max.x <. r.min.x) <;> cases (r.max.y <. s.min.y) <;>
    cases (s.max.y <. r.min.y) <;> rfl
end any

section ordered
variable {K : Type} [FNum K] [LinearOrder K] [LawfulOrd K]

/-- **C09** (ordered numbers): two non-empty closed boxes intersect exactly when they share a point. -/
theorem intersect_iff (r s : Rect K) (hr : r.Valid) (hs : s.Valid) :
    r.intersect s = true ↔ ∃ p : Vec2 K, r.Mem p ∧ s.Mem p := by
  unfold intersect
  simp only [Bool.not_eq_true', Bool.or_eq_false_iff, lt_eq_decide, decide_eq_false_iff_not, not_lt]
  constructor
  · rintro ⟨⟨⟨h1, h2⟩, h3⟩, h4⟩
    refine ⟨⟨Max.max r.min.x s.min.x, Max.max r.min.y s.min.y⟩, ⟨?_, ?_, ?_, ?_⟩, ⟨?_, ?_, ?_, ?_⟩⟩
    · exact le_max_left _ _
    · exact max_le hr.1 h1
    · exact le_max_left _ _
    · exact max_le hr.2 h3
    · exact le_max_right _ _
    · exact max_le h2 hs.1
    · exact le_max_right _ _
    · exact max_le h4 hs.2
  · rintro ⟨p, ⟨a1, a2, a3, a4⟩, ⟨b1, b2, b3, b4⟩⟩
    exact ⟨⟨⟨le_trans b1 a2, le_trans a1 b2⟩, le_trans b3 a4⟩, le_trans a3 b4⟩

theorem foldl_extend (ps : List (Vec2 K)) (s : Rect K) :
    (ps.foldl extend s).min.x ≤ s.min.x ∧ s.max.x ≤ (ps.foldl extend s).max.x ∧
    (ps.foldl extend s).min.y ≤ s.min.y ∧ s.max.y ≤ (ps.foldl extend s).max.y ∧
    (∀ p ∈ ps, (ps.foldl extend s).Mem p) ∧
    ((ps.foldl extend s).min.x = s.min.x ∨ ∃ p ∈ ps, p.x = (ps.foldl extend s).min.x) ∧
    ((ps.foldl extend s).max.x = s.max.x ∨ ∃ p ∈ ps, p.x = (ps.foldl extend s).max.x) ∧
    ((ps.foldl extend s).min.y = s.min.y ∨ ∃ p ∈ ps, p.y = (ps.foldl extend s).min.y) ∧
    ((ps.foldl extend s).max.y = s.max.y ∨ ∃ p ∈ ps, p.y = (ps.foldl extend s).max.y) := by
  induction ps generalizing s with
  | nil => simp
  | cons p ps ih =>
    obtain ⟨h1, h2, h3, h4, h5, h6, h7, h8, h9⟩ := ih (extend s p)
    have e1 : (extend s p).min.x = Min.min s.min.x p.x := fmin_eq_min _ _
    have e2 : (extend s p).max.x = Max.max s.max.x p.x := fmax_eq_max _ _
    have e3 : (extend s p).min.y = Min.min s.min.y p.y := fmin_eq_min _ _
    have e4 : (extend s p).max.y = Max.max s.max.y p.y := fmax_eq_max _ _
    rw [List.foldl_cons]
    rw [e1] at h1 h6; rw [e2] at h2 h7; rw [e3] at h3 h8; rw [e4] at h4 h9
    refine ⟨h1.trans (min_le_left _ _), (le_max_left _ _).trans h2, h3.trans (min_le_left _ _),
      (le_max_left _ _).trans h4, ?_, ?_, ?_, ?_, ?_⟩
    · intro q hq
      rcases List.mem_cons.mp hq with rfl | hq
      · exact ⟨h1.trans (min_le_right _ _), (le_max_right _ _).trans h2, h3.trans (min_le_right _ _),
          (le_max_right _ _).trans h4⟩
      · exact h5 q hq
    · rcases h6 with h | ⟨q, hq, h⟩
      · rcases min_choice s.min.x p.x with hm | hm
        · left; rw [h, hm]
        · right; exact ⟨p, by simp, by rw [h, hm]⟩
      · right; exact ⟨q, by simp [hq], h⟩
    · rcases h7 with h | ⟨q, hq, h⟩
      · rcases max_choice s.max.x p.x with hm | hm
        · left; rw [h, hm]
        · right; exact ⟨p, by simp, by rw [h, hm]⟩
      · right; exact ⟨q, by simp [hq], h⟩
    · rcases h8 with h | ⟨q, hq, h⟩
      · rcases min_choice s.min.y p.y with hm | hm
        · left; rw [h, hm]
        · right; exact ⟨p, by simp, by rw [h, hm]⟩
      · right; exact ⟨q, by simp [hq], h⟩
    · rcases h9 with h | ⟨q, hq, h⟩
      · rcases max_choice s.max.y p.y with hm | hm
        · left; rw [h, hm]
        · right; exact ⟨p, by simp, by rw [h, hm]⟩
      · right; exact ⟨q, by simp [hq], h⟩

/-- **C08** (ordered numbers): `rect::from` of a non-empty list of points whose coordinates lie between `-DBL_MAX`
and `DBL_MAX` (every finite double does) is their bounding box. -/
theorem of_isBBox (ps : List (Vec2 K)) (hne : ps ≠ [])
    (hfin : ∀ p ∈ ps, FNum.neg FNum.maxNum ≤ p.x ∧ p.x ≤ FNum.maxNum ∧ FNum.neg FNum.maxNum ≤ p.y ∧
      p.y ≤ FNum.maxNum) : (of ps).IsBBox ps := by
  obtain ⟨p, ps', rfl⟩ := List.exists_cons_of_ne_nil hne
  obtain ⟨h1, h2, h3, h4, h5, h6, h7, h8, h9⟩ := foldl_extend (p :: ps') start
  have hp := hfin p (by simp)
  have hm := h5 p (by simp)
  refine ⟨h5, ?_, ?_, ?_, ?_⟩
  · rcases h6 with h | h
    · refine ⟨p, by simp, le_antisymm ?_ hm.1⟩
      show p.x ≤ ((p :: ps').foldl extend start).min.x
      rw [h]; exact hp.2.1
    · exact h
  · rcases h7 with h | h
    · refine ⟨p, by simp, le_antisymm hm.2.1 ?_⟩
      show ((p :: ps').foldl extend start).max.x ≤ p.x
      rw [h]; exact hp.1
    · exact h
  · rcases h8 with h | h
    · refine ⟨p, by simp, le_antisymm ?_ hm.2.2.1⟩
      show p.y ≤ ((p :: ps').foldl extend start).min.y
      rw [h]; exact hp.2.2.2
    · exact h
  · rcases h9 with h | h
    · refine ⟨p, by simp, le_antisymm hm.2.2.2 ?_⟩
      show ((p :: ps').foldl extend start).max.y ≤ p.y
      rw [h]; exact hp.2.2.1
    · exact h

omit [FNum K] [LawfulOrd K] in
/-- A bounding box of points is determined by the points. -/
theorem IsBBox.unique {r s : Rect K} {ps : List (Vec2 K)} (hr : r.IsBBox ps) (hs : s.IsBBox ps) : r = s := by
  obtain ⟨a, ha, ea⟩ := hr.left; obtain ⟨a', ha', ea'⟩ := hs.left
  obtain ⟨b, hb, eb⟩ := hr.right; obtain ⟨b', hb', eb'⟩ := hs.right
  obtain ⟨c, hc, ec⟩ := hr.bottom; obtain ⟨c', hc', ec'⟩ := hs.bottom
  obtain ⟨d, hd, ed⟩ := hr.top; obtain ⟨d', hd', ed'⟩ := hs.top
  obtain ⟨⟨r1, r2⟩, ⟨r3, r4⟩⟩ := r
  obtain ⟨⟨s1, s2⟩, ⟨s3, s4⟩⟩ := s
  have h1 : r1 = s1 := le_antisymm (le_of_le_of_eq (hr.mem a' ha').1 ea') (le_of_le_of_eq (hs.mem a ha).1 ea)
  have h2 : r2 = s2 := le_antisymm (le_of_le_of_eq (hr.mem c' hc').2.2.1 ec') (le_of_le_of_eq (hs.mem c hc).2.2.1 ec)
  have h3 : r3 = s3 := le_antisymm (le_of_eq_of_le eb.symm (hs.mem b hb).2.1)
    (le_of_eq_of_le eb'.symm (hr.mem b' hb').2.1)
  have h4 : r4 = s4 := le_antisymm (le_of_eq_of_le ed.symm (hs.mem d hd).2.2.2)
    (le_of_eq_of_le ed'.symm (hr.mem d' hd').2.2.2)
  rw [h1, h2, h3, h4]

omit [FNum K] [LawfulOrd K] in
theorem IsBBox.valid {r : Rect K} {ps : List (Vec2 K)} (h : r.IsBBox ps) : r.Valid := by
  obtain ⟨a, ha, ea⟩ := h.left
  have := h.mem a ha
  exact ⟨this.1.trans this.2.1, this.2.2.1.trans this.2.2.2⟩
end ordered

section exact
variable {R : Type} [Field R] [LinearOrder R] [IsStrictOrderedRing R]

/-- **C10** (exact, what the code does): the inflated box contains the original (non-empty) box exactly when the box
is no wider and no higher than `n`. The property one expects from the name ("for every `n >= 0`") is false, see
`inflated_not_contains`. -/
theorem inflated_contains_iff_partial (r : Rect R) (hr : r.Valid) (n : R) (hn : 0 ≤ n) :
    (∀ p, r.Mem p → (r.inflated n).Mem p) ↔ r.max.x - r.min.x ≤ n ∧ r.max.y - r.min.y ≤ n := by
  unfold inflated Mem Vec2.subS Vec2.addS
  simp only [field_sub, field_add]
  constructor
  · intro h
    have := h r.max ⟨hr.1, le_refl _, hr.2, le_refl _⟩
    constructor <;> linarith
  · rintro ⟨h1, h2⟩ p ⟨a, b, c, d⟩
    refine ⟨?_, ?_, ?_, ?_⟩ <;> linarith

/-- **C10** (exact, what the code does): the inflated box is the square of side `2n` around the corner `min`. -/
theorem inflated_mem (r : Rect R) (n : R) (p : Vec2 R) : (r.inflated n).Mem p ↔ |p.x - r.min.x| ≤ n ∧ |p.y - r.min.y| ≤ n := by
  unfold inflated Mem Vec2.subS Vec2.addS
  simp only [field_sub, field_add, abs_le]
  constructor
  · rintro ⟨h1, h2, h3, h4⟩
    refine ⟨⟨?_, ?_⟩, ?_, ?_⟩ <;> linarith
  · rintro ⟨⟨h1, h2⟩, h3, h4⟩
    refine ⟨?_, ?_, ?_, ?_⟩ <;> linarith

/-- **C10 is false of the code**: the box `[0,10]²` inflated by `1` does not contain `(10,10)`. -/
theorem inflated_not_contains : ¬ ∀ (r : Rect ℚ) (n : ℚ), r.Valid → 0 ≤ n → ∀ p, r.Mem p → (r.inflated n).Mem p := by
  intro h
  have := h ⟨⟨0, 0⟩, ⟨10, 10⟩⟩ 1 (by unfold Valid; norm_num) (by norm_num) ⟨10, 10⟩ (by unfold Mem; norm_num)
  unfold Mem inflated Vec2.addS at this
  simp only [field_add] at this
  norm_num at this

/-- `center` is the midpoint and inside; `width`, `height` are the side lengths (non-negative for a valid box). -/
theorem center_mem (r : Rect R) (hr : r.Valid) : r.Mem r.center ∧ r.center.x - r.min.x = r.max.x - r.center.x ∧
    r.center.y - r.min.y = r.max.y - r.center.y ∧ r.max.x = r.min.x + r.width ∧ r.max.y = r.min.y + r.height := by
  obtain ⟨h1, h2⟩ := hr
  unfold Mem center width height Vec2.sdiv Vec2.add
  simp only [field_add, field_sub, field_div, field_lit, Rat.cast_ofNat]
  refine ⟨⟨?_, ?_, ?_, ?_⟩, ?_, ?_, ?_, ?_⟩ <;> linarith

/-- The box around a point consists of the points both of whose coordinates differ from its by at most `offset`. -/
theorem around_mem (p q : Vec2 R) (offset : R) : (around p offset).Mem q ↔ |q.x - p.x| ≤ offset ∧ |q.y - p.y| ≤ offset := by
  unfold around Mem Vec2.subS Vec2.addS
  simp only [field_sub, field_add, abs_le]
  constructor
  · rintro ⟨h1, h2, h3, h4⟩
    refine ⟨⟨?_, ?_⟩, ?_, ?_⟩ <;> linarith
  · rintro ⟨⟨h1, h2⟩, h3, h4⟩
    refine ⟨?_, ?_, ?_, ?_⟩ <;> linarith
end exact

/-! ## the hypotheses are met -/

example : (of [⟨1, 5⟩, ⟨-3, 2⟩, ⟨0, 7⟩] : Rect ℚ) = ⟨⟨-3, 2⟩, ⟨1, 7⟩⟩ := by decide +kernel
example : (⟨⟨-3, 2⟩, ⟨1, 7⟩⟩ : Rect ℚ).IsBBox [⟨1, 5⟩, ⟨-3, 2⟩, ⟨0, 7⟩] := by
  have := of_isBBox ([⟨1, 5⟩, ⟨-3, 2⟩, ⟨0, 7⟩] : List (Vec2 ℚ)) (by simp) (by
    intro p hp
    simp only [List.mem_cons, List.not_mem_nil, or_false] at hp
    rcases hp with rfl | rfl | rfl <;> decide +kernel)
  have e : (of [⟨1, 5⟩, ⟨-3, 2⟩, ⟨0, 7⟩] : Rect ℚ) = ⟨⟨-3, 2⟩, ⟨1, 7⟩⟩ := by decide +kernel
  rwa [e] at this
example : (⟨⟨0, 0⟩, ⟨2, 2⟩⟩ : Rect ℚ).Valid ∧ (⟨⟨0, 0⟩, ⟨2, 2⟩⟩ : Rect ℚ).intersect ⟨⟨2, 1⟩, ⟨3, 3⟩⟩ = true := by
  unfold Valid; decide +kernel

end Rect
end River
