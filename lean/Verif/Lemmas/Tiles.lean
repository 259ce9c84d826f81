import Mathlib.Tactic.IntervalCases
import Mathlib.Tactic.Linarith
import Mathlib.Tactic.Ring
import Verif.Spec.Tiles

/-! # Rectangles are in general position -/

namespace River
namespace Tile
variable {K : Type} [Field K] [LinearOrder K] [IsStrictOrderedRing K]

/-- `s` is a horizontal side of `r`. -/
def HSide (r : Tile K) (s : Vec2 K × Vec2 K) : Prop :=
  s.1.y = s.2.y ∧ (s.1.y = r.y1 ∨ s.1.y = r.y2) ∧ ((s.1.x = r.x1 ∧ s.2.x = r.x2) ∨ (s.1.x = r.x2 ∧ s.2.x = r.x1))

/-- `s` is a vertical side of `r`. -/
def VSide (r : Tile K) (s : Vec2 K × Vec2 K) : Prop :=
  s.1.x = s.2.x ∧ (s.1.x = r.x1 ∨ s.1.x = r.x2) ∧ ((s.1.y = r.y1 ∧ s.2.y = r.y2) ∨ (s.1.y = r.y2 ∧ s.2.y = r.y1))

omit [Field K] [LinearOrder K] [IsStrictOrderedRing K] in
theorem sides_eq (r : Tile K) : polySides r.corners =
    [(⟨r.x1, r.y1⟩, ⟨r.x2, r.y1⟩), (⟨r.x2, r.y1⟩, ⟨r.x2, r.y2⟩), (⟨r.x2, r.y2⟩, ⟨r.x1, r.y2⟩), (⟨r.x1, r.y2⟩, ⟨r.x1, r.y1⟩)] := rfl

theorem side_cases {r : Tile K} {s : Vec2 K × Vec2 K} (h : s ∈ polySides r.corners) : r.HSide s ∨ r.VSide s := by
  rw [sides_eq] at h
  simp only [List.mem_cons, List.not_mem_nil, or_false] at h
  rcases h with rfl | rfl | rfl | rfl
  · exact Or.inl ⟨rfl, Or.inl rfl, Or.inl ⟨rfl, rfl⟩⟩
  · exact Or.inr ⟨rfl, Or.inr rfl, Or.inl ⟨rfl, rfl⟩⟩
  · exact Or.inl ⟨rfl, Or.inr rfl, Or.inr ⟨rfl, rfl⟩⟩
  · exact Or.inr ⟨rfl, Or.inl rfl, Or.inr ⟨rfl, rfl⟩⟩

theorem mem_side {R : List (Tile K)} {s : Vec2 K × Vec2 K} (h : s ∈ (R.map corners).flatMap polySides) : ∃ r ∈ R, s ∈ polySides r.corners := by
  obtain ⟨P, hP, hs⟩ := List.mem_flatMap.1 h
  obtain ⟨r, hr, rfl⟩ := List.mem_map.1 hP
  exact ⟨r, hr, hs⟩

theorem side_mem {R : List (Tile K)} {s : Vec2 K × Vec2 K} {r : Tile K} (hr : r ∈ R) (h : s ∈ polySides r.corners) : s ∈ (R.map corners).flatMap polySides :=
  List.mem_flatMap.2 ⟨_, List.mem_map.2 ⟨r, hr, rfl⟩, h⟩

/-- A clear position on an interval. -/
theorem clearPos {u v z a : K} (huv : u < v) (h : ClearOf z u v) (a0 : 0 ≤ a) (a1 : a ≤ 1) (e : z = u + a * (v - u)) : ClearPos a := by
  have hd : 0 < v - u := sub_pos.2 huv
  rcases h with h | h | ⟨h1, h2⟩
  · left
    have : a * (v - u) ≤ 0 := by linarith
    by_contra hne
    exact absurd this (not_le.2 (mul_pos (lt_of_le_of_ne a0 (Ne.symm hne)) hd))
  · right; left
    have : (1 - a) * (v - u) ≤ 0 := by linarith
    by_contra hne
    exact absurd this (not_le.2 (mul_pos (sub_pos.2 (lt_of_le_of_ne a1 hne)) hd))
  · right; right
    constructor
    · by_contra hc
      have := mul_le_mul_of_nonneg_right (not_lt.1 hc) hd.le
      have e2 : 1 / 1000000 * (v - u) = (v - u) / 1000000 := by ring
      linarith
    · by_contra hc
      have := mul_le_mul_of_nonneg_right (not_lt.1 hc) hd.le
      have e2 : (1 - 1 / 1000000) * (v - u) = (v - u) - (v - u) / 1000000 := by ring
      linarith

theorem clearPos_symm {a : K} (h : ClearPos (1 - a)) : ClearPos a := by
  rcases h with h | h | ⟨h1, h2⟩
  · exact Or.inr (Or.inl (by linarith))
  · exact Or.inl (by linarith)
  · exact Or.inr (Or.inr ⟨by linarith, by linarith⟩)

/-- The same, whichever end comes first. -/
theorem clearPos' {u v z a p q : K} (huv : u < v) (h : ClearOf z u v) (a0 : 0 ≤ a) (a1 : a ≤ 1) (hpq : (p = u ∧ q = v) ∨ (p = v ∧ q = u))
    (e : z = p + a * (q - p)) : ClearPos a := by
  rcases hpq with ⟨rfl, rfl⟩ | ⟨rfl, rfl⟩
  · exact clearPos huv h a0 a1 e
  · exact clearPos_symm (clearPos huv h (by linarith) (by linarith) (by rw [e]; ring))

theorem meet_perp {r t : Tile K} (hr : r.Proper) (ht : t.Proper) (h1 : ClearOf t.x1 r.x1 r.x2 ∧ ClearOf t.x2 r.x1 r.x2)
    (h2 : ClearOf r.y1 t.y1 t.y2 ∧ ClearOf r.y2 t.y1 t.y2) {p q : Vec2 K × Vec2 K} (hp : r.HSide p) (hq : t.VSide q) {a b : K}
    (a0 : 0 ≤ a) (a1 : a ≤ 1) (b0 : 0 ≤ b) (b1 : b ≤ 1) (e : lerp p.1 p.2 a = lerp q.1 q.2 b) : ClearPos a ∧ ClearPos b := by
  have ex : p.1.x + a * (p.2.x - p.1.x) = q.1.x + b * (q.2.x - q.1.x) := congrArg Vec2.x e
  have ey : p.1.y + a * (p.2.y - p.1.y) = q.1.y + b * (q.2.y - q.1.y) := congrArg Vec2.y e
  obtain ⟨p1, p2, p3⟩ := hp
  obtain ⟨q1, q2, q3⟩ := hq
  rw [← q1, sub_self, mul_zero, add_zero] at ex
  rw [← p1, sub_self, mul_zero, add_zero] at ey
  refine ⟨clearPos' hr.1 ?_ a0 a1 p3 ex.symm, clearPos' ht.2 ?_ b0 b1 q3 ey⟩
  · rcases q2 with h | h
    · rw [h]; exact h1.1
    · rw [h]; exact h1.2
  · rcases p2 with h | h
    · rw [h]; exact h2.1
    · rw [h]; exact h2.2

theorem parallel_h {r t : Tile K} {p q : Vec2 K × Vec2 K} (hp : r.HSide p) (hq : t.HSide q) : Parallel p.1 p.2 q.1 q.2 := by
  unfold Parallel; rw [hp.1, hq.1]; simp

theorem parallel_v {r t : Tile K} {p q : Vec2 K × Vec2 K} (hp : r.VSide p) (hq : t.VSide q) : Parallel p.1 p.2 q.1 q.2 := by
  unfold Parallel; rw [hp.1, hq.1]; simp

theorem HSide.len {r : Tile K} (hr : r.Proper) {p : Vec2 K × Vec2 K} (hp : r.HSide p) : p.1.x ≠ p.2.x := by
  rcases hp.2.2 with ⟨h, h'⟩ | ⟨h, h'⟩ <;> rw [h, h']
  · exact hr.1.ne
  · exact hr.1.ne'

theorem VSide.len {r : Tile K} (hr : r.Proper) {p : Vec2 K × Vec2 K} (hp : r.VSide p) : p.1.y ≠ p.2.y := by
  rcases hp.2.2 with ⟨h, h'⟩ | ⟨h, h'⟩ <;> rw [h, h']
  · exact hr.2.ne
  · exact hr.2.ne'

theorem not_parallel {r t : Tile K} (hr : r.Proper) (ht : t.Proper) {p q : Vec2 K × Vec2 K} (hp : r.HSide p) (hq : t.VSide q) :
    ¬ Parallel p.1 p.2 q.1 q.2 := by
  unfold Parallel
  rw [hp.1, sub_self, zero_mul]
  exact mul_ne_zero (sub_ne_zero.2 (hp.len hr).symm) (sub_ne_zero.2 (hq.len ht).symm)

/-- No ledges. -/
theorem no_ledge {r : Tile K} (hr : r.Proper) {i n : Nat} (h : Ledge r.corners i n) : False := by
  obtain ⟨hpos, hflat, hgo⟩ := h
  have hlen : r.corners.length = 4 := rfl
  have c : ∀ j, cornerAt r.corners j = r.corners.getD (j % 4) ⟨0, 0⟩ := fun j => by unfold cornerAt; rw [hlen]
  have hy : ∀ j, (cornerAt r.corners j).y = if j % 4 < 2 then r.y1 else r.y2 := by
    intro j
    rw [c]
    have : j % 4 < 4 := Nat.mod_lt _ (by norm_num)
    interval_cases j % 4 <;> rfl
  have h1 := hflat 1 hpos
  rw [hy, hy] at h1
  have hne := hr.2.ne
  have hne' := hr.2.ne'
  have hn1 : n = 1 := by
    by_contra hn
    have h2 := hflat 2 (by omega)
    rw [hy, hy] at h2
    split_ifs at h2 <;> first | omega | exact hne h2 | exact hne' h2
  subst hn1
  rw [hlen, hy, hy, hy] at hgo
  have hlt := hr.2
  split_ifs at h1 hgo <;> first | omega | exact hne h1 | exact hne' h1 | (rcases hgo with ⟨a, b⟩ | ⟨a, b⟩ <;> first | exact lt_irrefl _ a | exact lt_irrefl _ b | exact lt_asymm a hlt | exact lt_asymm b hlt)

/-- The only minimum is the lower side, and it is passed from the left to the right. -/
theorem minimum {r : Tile K} (hr : r.Proper) {a b : Vec2 K} {l : List (Vec2 K)} (hl : l ≠ []) (h : Successive r.corners (a :: l ++ [b])) {y : K}
    (hy : ∀ q ∈ l, q.y = y) (ha : y < a.y) (hb : y < b.y) :
    l.getLast hl = ⟨r.x2, r.y1⟩ ∧ b = ⟨r.x2, r.y2⟩ ∧ a = ⟨r.x1, r.y2⟩ ∧ l.head hl = ⟨r.x1, r.y1⟩ := by
  obtain ⟨n, hn⟩ := h
  have hmod : r.corners.rotate n = r.corners.rotate (n % 4) := (List.rotate_mod r.corners n).symm
  rw [hmod] at hn
  have hlt : n % 4 < 4 := Nat.mod_lt _ (by norm_num)
  have hyy := hr.2
  generalize n % 4 = m at hn hlt
  have hc : r.corners.rotate 0 = [⟨r.x1, r.y1⟩, ⟨r.x2, r.y1⟩, ⟨r.x2, r.y2⟩, ⟨r.x1, r.y2⟩] ∧ r.corners.rotate 1 = [⟨r.x2, r.y1⟩, ⟨r.x2, r.y2⟩, ⟨r.x1, r.y2⟩, ⟨r.x1, r.y1⟩] ∧
      r.corners.rotate 2 = [⟨r.x2, r.y2⟩, ⟨r.x1, r.y2⟩, ⟨r.x1, r.y1⟩, ⟨r.x2, r.y1⟩] ∧ r.corners.rotate 3 = [⟨r.x1, r.y2⟩, ⟨r.x1, r.y1⟩, ⟨r.x2, r.y1⟩, ⟨r.x2, r.y2⟩] :=
    ⟨rfl, rfl, rfl, rfl⟩
  obtain ⟨c0, c1, c2, c3⟩ := hc
  cases l with
  | nil => exact absurd rfl hl
  | cons q1 l =>
    have hq1 := hy q1 (by simp)
    interval_cases m
    · rw [c0] at hn
      simp only [List.cons_append, List.cons_prefix_cons] at hn
      obtain ⟨rfl, rfl, _⟩ := hn
      exact absurd (hq1 ▸ ha) (lt_irrefl _)
    · rw [c1] at hn
      simp only [List.cons_append, List.cons_prefix_cons] at hn
      obtain ⟨rfl, rfl, _⟩ := hn
      exact absurd (hq1.trans_lt ha) (not_lt.2 hyy.le)
    · rw [c2] at hn
      simp only [List.cons_append, List.cons_prefix_cons] at hn
      obtain ⟨rfl, rfl, _⟩ := hn
      exact absurd (hq1 ▸ ha) (lt_irrefl _)
    · rw [c3] at hn
      cases l with
      | nil =>
        simp only [List.cons_append, List.nil_append, List.cons_prefix_cons] at hn
        obtain ⟨rfl, rfl, rfl, _⟩ := hn
        exact absurd (hq1 ▸ hb) (lt_irrefl _)
      | cons q2 l =>
        cases l with
        | nil =>
          simp only [List.cons_append, List.nil_append, List.cons_prefix_cons] at hn
          obtain ⟨rfl, rfl, rfl, rfl, _⟩ := hn
          exact ⟨rfl, rfl, rfl, rfl⟩
        | cons q3 l =>
          have hq3 := hy q3 (by simp)
          simp only [List.cons_append, List.cons_prefix_cons] at hn
          obtain ⟨rfl, rfl, rfl, rfl, _⟩ := hn
          exact absurd (hq1.trans hq3.symm) hyy.ne

end Tile

open Tile

variable {K : Type} [Field K] [LinearOrder K] [IsStrictOrderedRing K]

/-- Rectangles are in general position, however they overlap. -/
theorem ClearTiles.general {R : List (Tile K)} (h : ClearTiles R) : GeneralPolygons (R.map Tile.corners) := by
  have noL : ∀ P ∈ R.map corners, ∀ i n, ¬ Ledge P i n := by
    intro P hP i n hL
    obtain ⟨r, hr, rfl⟩ := List.mem_map.1 hP
    exact no_ledge (h.proper r hr) hL
  refine ⟨?_, ?_, ?_, ?_, ?_, ?_, ?_, ?_, ?_⟩
  · intro s hs e
    obtain ⟨r, hr, hs⟩ := mem_side hs
    rcases side_cases hs with hp | hp
    · exact hp.len (h.proper r hr) (congrArg Vec2.x e)
    · exact hp.len (h.proper r hr) (congrArg Vec2.y e)
  · intro P hP
    obtain ⟨r, hr, rfl⟩ := List.mem_map.1 hP
    exact ⟨⟨r.x1, r.y1⟩, by simp [corners], ⟨r.x1, r.y2⟩, by simp [corners], (h.proper r hr).2.ne⟩
  · intro P hP p hp
    obtain ⟨r, hr, rfl⟩ := List.mem_map.1 hP
    obtain ⟨h1, h2, h3, h4⟩ := h.range r hr
    obtain ⟨g1, g2⟩ := h.proper r hr
    simp only [corners, List.mem_cons, List.not_mem_nil, or_false] at hp
    rcases hp with rfl | rfl | rfl | rfl
    · exact ⟨h1, g1.le.trans h2, h3, g2.le.trans h4⟩
    · exact ⟨h1.trans g1.le, h2, h3, g2.le.trans h4⟩
    · exact ⟨h1.trans g1.le, h2, h3.trans g2, h4⟩
    · exact ⟨h1, g1.le.trans h2, h3.trans g2, h4⟩
  · refine List.pairwise_of_forall_mem_list (fun s hs t ht hnp a b a0 a1 b0 b1 e => ?_)
    obtain ⟨r, hr, hs⟩ := mem_side hs
    obtain ⟨r', hr', ht⟩ := mem_side ht
    have pr := h.proper r hr
    have pr' := h.proper r' hr'
    rcases side_cases hs with hs | hs <;> rcases side_cases ht with ht | ht
    · exact absurd (parallel_h hs ht) hnp
    · exact meet_perp pr pr' (h.clear r hr r' hr').1 (h.clear r' hr' r hr).2 hs ht a0 a1 b0 b1 e
    · exact (meet_perp pr' pr (h.clear r' hr' r hr).1 (h.clear r hr r' hr').2 ht hs b0 b1 a0 a1 e.symm).symm
    · exact absurd (parallel_v hs ht) hnp
  · intro s hs t ht htn hpar p hp _
    obtain ⟨r, hr, hs'⟩ := mem_side hs
    obtain ⟨r', hr', ht'⟩ := mem_side ht
    have pr := h.proper r hr
    have pr' := h.proper r' hr'
    have hv : r'.VSide t := (side_cases ht').resolve_left (fun hh => htn hh.1)
    have hsv : r.VSide s := (side_cases hs').resolve_left (fun hh => not_parallel pr pr' hh hv hpar)
    -- a horizontal side of the same rectangle passes there
    have hseg : ∀ a b : Vec2 K, OnSeg a a b ∧ OnSeg b a b := fun a b =>
      ⟨⟨0, le_refl _, zero_le_one, Vec2.ext (by simp [lerp]) (by simp [lerp])⟩, ⟨1, zero_le_one, le_refl _, Vec2.ext (by simp [lerp]) (by simp [lerp])⟩⟩
    have hcor : p = ⟨r.x1, r.y1⟩ ∨ p = ⟨r.x2, r.y1⟩ ∨ p = ⟨r.x2, r.y2⟩ ∨ p = ⟨r.x1, r.y2⟩ := by
      rw [sides_eq] at hs'
      simp only [List.mem_cons, List.not_mem_nil, or_false] at hs'
      rcases hs' with rfl | rfl | rfl | rfl <;> rcases hp with rfl | rfl <;> simp
    obtain ⟨l1, l2⟩ : r.HSide (⟨r.x1, r.y1⟩, ⟨r.x2, r.y1⟩) ∧ r.HSide (⟨r.x2, r.y2⟩, ⟨r.x1, r.y2⟩) :=
      ⟨⟨rfl, Or.inl rfl, Or.inl ⟨rfl, rfl⟩⟩, ⟨rfl, Or.inr rfl, Or.inr ⟨rfl, rfl⟩⟩⟩
    have m1 : ((⟨r.x1, r.y1⟩, ⟨r.x2, r.y1⟩) : Vec2 K × Vec2 K) ∈ polySides r.corners := by rw [sides_eq]; simp
    have m2 : ((⟨r.x2, r.y2⟩, ⟨r.x1, r.y2⟩) : Vec2 K × Vec2 K) ∈ polySides r.corners := by rw [sides_eq]; simp
    rcases hcor with rfl | rfl | rfl | rfl
    · exact ⟨_, side_mem hr m1, not_parallel pr pr' l1 hv, (hseg _ _).1⟩
    · exact ⟨_, side_mem hr m1, not_parallel pr pr' l1 hv, (hseg _ _).2⟩
    · exact ⟨_, side_mem hr m2, not_parallel pr pr' l2 hv, (hseg _ _).1⟩
    · exact ⟨_, side_mem hr m2, not_parallel pr pr' l2 hv, (hseg _ _).2⟩
  · intro P hP i n hL
    exact (noL P hP i n hL).elim
  · intro k k' P P' hP _ i i' n n' hL
    exact (noL P (List.mem_of_getElem? hP) i n hL).elim
  · intro k k' P P' hP _ i i' n n' hL
    exact (noL P (List.mem_of_getElem? hP) i n hL).elim
  · intro P hP a b l hl hS y hy ha hb
    obtain ⟨r, hr, rfl⟩ := List.mem_map.1 hP
    have pr := h.proper r hr
    obtain ⟨e1, rfl, rfl, e2⟩ := minimum pr hl hS hy ha hb
    refine List.pairwise_of_forall_mem_list (fun u _ v _ hh => ?_)
    obtain ⟨⟨_, _, z, hz, hu⟩, _⟩ := hh
    rw [e1, e2] at hu
    obtain ⟨g1, g2⟩ := hu ((y + z) / 2) (by linarith) (by linarith)
    have f : ∀ x p q w : K, atHeight ⟨x, p⟩ ⟨x, q⟩ w = x := fun x p q w => by simp [atHeight]
    rw [f] at g1 g2
    exact absurd (g1.trans_le g2) (not_lt.2 pr.1.le)

end River
