import Verif.Lemmas.DcelPieces
import Verif.Lemmas.LineExact

/-! # A line cut at points on it -/

namespace River
variable {K : Type}

section lists
variable {α β : Type}

theorem neighbours_map (f : α → β) : ∀ l : List α, neighbours (l.map f) = (neighbours l).map (Prod.map f f)
  | [] => rfl
  | [_] => rfl
  | a :: b :: l => by
    have := neighbours_map f (b :: l)
    simp only [List.map_cons, neighbours] at this ⊢
    rw [this]
    rfl

theorem mem_neighbours : ∀ (l : List α) (p : α × α), p ∈ neighbours l → p.1 ∈ l ∧ p.2 ∈ l
  | [], p, h => by simp [neighbours] at h
  | [_], p, h => by simp [neighbours] at h
  | a :: b :: l, p, h => by
    simp only [neighbours, List.mem_cons] at h
    rcases h with rfl | h
    · simp
    · obtain ⟨h1, h2⟩ := mem_neighbours (b :: l) p h
      exact ⟨List.mem_cons_of_mem _ h1, List.mem_cons_of_mem _ h2⟩

variable [LinearOrder α]

theorem neighbours_le : ∀ (l : List α), l.Pairwise (· ≤ ·) → ∀ p ∈ neighbours l, p.1 ≤ p.2 ∧ ∀ w ∈ l, w ≤ p.1 ∨ p.2 ≤ w
  | [], _, p, h => by simp [neighbours] at h
  | [_], _, p, h => by simp [neighbours] at h
  | a :: b :: l, hs, p, h => by
    obtain ⟨h1, h2⟩ := List.pairwise_cons.1 hs
    obtain ⟨h3, h4⟩ := List.pairwise_cons.1 h2
    simp only [neighbours, List.mem_cons] at h
    rcases h with rfl | h
    · refine ⟨h1 b List.mem_cons_self, fun w hw => ?_⟩
      rcases List.mem_cons.1 hw with rfl | hw
      · exact .inl (le_refl _)
      · rcases List.mem_cons.1 hw with rfl | hw
        · exact .inr (le_refl _)
        · exact .inr (h3 w hw)
    · obtain ⟨k1, k2⟩ := neighbours_le (b :: l) h2 p h
      refine ⟨k1, fun w hw => ?_⟩
      rcases List.mem_cons.1 hw with rfl | hw
      · exact .inl (h1 _ (mem_neighbours _ _ h).1)
      · exact k2 w hw

theorem neighbours_apart : ∀ (l : List α), l.Pairwise (· ≤ ·) → (neighbours l).Pairwise (fun p q => p.2 ≤ q.1)
  | [], _ => by simp [neighbours]
  | [_], _ => by simp [neighbours]
  | a :: b :: l, hs => by
    obtain ⟨h1, h2⟩ := List.pairwise_cons.1 hs
    simp only [neighbours]
    refine List.pairwise_cons.2 ⟨?_, neighbours_apart (b :: l) h2⟩
    intro q hq
    have hm := (mem_neighbours _ _ hq).1
    rcases List.mem_cons.1 hm with h | h
    · exact h.ge
    · exact (List.pairwise_cons.1 h2).1 _ h

theorem neighbours_cover (b : α) : ∀ (l : List α) (a t : α), a ≤ t → t ≤ b → ∃ p ∈ neighbours (a :: l ++ [b]), p.1 ≤ t ∧ t ≤ p.2
  | [], a, t, h1, h2 => ⟨(a, b), by simp [neighbours], h1, h2⟩
  | c :: l, a, t, h1, h2 => by
    rcases le_total t c with h | h
    · exact ⟨(a, c), by simp [neighbours], h1, h⟩
    · obtain ⟨p, hp, h3⟩ := neighbours_cover b l c t h h2
      exact ⟨p, by simp only [List.cons_append, neighbours, List.mem_cons]; exact .inr (by simpa using hp), h3⟩

end lists

section slices
variable [Field K] [LinearOrder K] [IsStrictOrderedRing K]

omit [LinearOrder K] [IsStrictOrderedRing K] in
theorem lerp_slice (s e : Vec2 K) (u v t : K) : lerp (lerp s e u) (lerp s e v) t = lerp s e (u + t * (v - u)) := by
  unfold lerp; ext <;> simp only <;> ring

omit [LinearOrder K] [IsStrictOrderedRing K] in
theorem lerp_at_zero (s e : Vec2 K) : lerp s e 0 = s := by unfold lerp; ext <;> simp
omit [LinearOrder K] [IsStrictOrderedRing K] in
theorem lerp_at_one (s e : Vec2 K) : lerp s e 1 = e := by unfold lerp; ext <;> simp

/-- The points between two points of a line. -/
theorem onSeg_lerp (s e X : Vec2 K) {u v : K} (h : u ≤ v) : OnSeg X (lerp s e u) (lerp s e v) ↔ ∃ t, u ≤ t ∧ t ≤ v ∧ X = lerp s e t := by
  constructor
  · rintro ⟨t, h0, h1, rfl⟩
    refine ⟨u + t * (v - u), ?_, ?_, lerp_slice s e u v t⟩
    · have := mul_nonneg h0 (sub_nonneg.2 h); linarith
    · have := mul_le_mul_of_nonneg_right h1 (sub_nonneg.2 h); linarith
  · rintro ⟨t, h0, h1, rfl⟩
    rcases h.eq_or_lt with rfl | hlt
    · refine ⟨0, le_refl _, zero_le_one, ?_⟩
      rw [lerp_at_zero, le_antisymm h1 h0]
    · have hd : 0 < v - u := sub_pos.2 hlt
      refine ⟨(t - u) / (v - u), div_nonneg (sub_nonneg.2 h0) hd.le, ?_, ?_⟩
      · rw [div_le_one hd]; linarith
      · rw [lerp_slice]; congr 1; field_simp; ring

theorem onSeg_back {X a b : Vec2 K} (h : OnSeg X a b) : OnSeg X b a := by
  obtain ⟨t, h0, h1, rfl⟩ := h
  refine ⟨1 - t, by linarith, by linarith, ?_⟩
  unfold lerp; ext <;> simp only <;> ring

/-- The points `bp` lie on the line from `s` to `e`, in this order. -/
def Sliced (s e : Vec2 K) (bp : List (Vec2 K)) : Prop := ∃ ts : List K, bp = ts.map (lerp s e) ∧ (0 :: ts ++ [1]).Pairwise (· ≤ ·)

omit [IsStrictOrderedRing K] in
theorem sliced_pts {s e : Vec2 K} {ts : List K} : s :: ts.map (lerp s e) ++ [e] = (0 :: ts ++ [1]).map (lerp s e) := by
  simp [lerp_at_zero, lerp_at_one]

theorem sliced_mem {s e : Vec2 K} {bp : List (Vec2 K)} (h : Sliced s e bp) {p : Vec2 K × Vec2 K} (hp : p ∈ neighbours (s :: bp ++ [e])) :
    ∃ u v : K, 0 ≤ u ∧ u ≤ v ∧ v ≤ 1 ∧ p = (lerp s e u, lerp s e v) := by
  obtain ⟨ts, rfl, hs⟩ := h
  rw [sliced_pts, neighbours_map] at hp
  obtain ⟨⟨u, v⟩, huv, rfl⟩ := List.mem_map.1 hp
  obtain ⟨h1, h2⟩ := mem_neighbours _ _ huv
  obtain ⟨h3, _⟩ := neighbours_le _ hs _ huv
  refine ⟨u, v, ?_, h3, ?_, rfl⟩
  · rcases List.mem_cons.1 h1 with h | h
    · exact h.ge
    · exact (List.pairwise_cons.1 hs).1 _ h
  · rcases List.mem_append.1 h2 with h | h
    · exact (List.pairwise_append.1 hs).2.2 _ h _ (List.mem_singleton.2 rfl)
    · exact (List.mem_singleton.1 h).le

theorem sliced_sub {s e : Vec2 K} {bp : List (Vec2 K)} (h : Sliced s e bp) {p : Vec2 K × Vec2 K} (hp : p ∈ neighbours (s :: bp ++ [e]))
    {X : Vec2 K} (hX : OnSeg X p.1 p.2) : OnSeg X s e := by
  obtain ⟨u, v, h0, h1, h2, rfl⟩ := sliced_mem h hp
  obtain ⟨t, k1, k2, rfl⟩ := (onSeg_lerp s e X h1).1 hX
  exact ⟨t, h0.trans k1, k2.trans h2, rfl⟩

theorem sliced_cover {s e : Vec2 K} {bp : List (Vec2 K)} (h : Sliced s e bp) {X : Vec2 K} (hX : OnSeg X s e) :
    ∃ p ∈ neighbours (s :: bp ++ [e]), OnSeg X p.1 p.2 := by
  obtain ⟨ts, rfl, hs⟩ := h
  obtain ⟨t, h0, h1, rfl⟩ := hX
  obtain ⟨⟨u, v⟩, hp, k1, k2⟩ := neighbours_cover 1 ts 0 t h0 h1
  rw [sliced_pts, neighbours_map]
  refine ⟨_, List.mem_map_of_mem hp, ?_⟩
  exact (onSeg_lerp s e _ (k1.trans k2)).2 ⟨t, k1, k2, rfl⟩

theorem sliced_apart {s e : Vec2 K} (hse : s ≠ e) {bp : List (Vec2 K)} (h : Sliced s e bp) :
    (neighbours (s :: bp ++ [e])).Pairwise (fun p q => MeetAtEnds p.1 p.2 q.1 q.2) := by
  obtain ⟨ts, rfl, hs⟩ := h
  rw [sliced_pts, neighbours_map, List.pairwise_map]
  refine (neighbours_apart _ hs).imp_of_mem ?_
  rintro ⟨u, v⟩ ⟨u', v'⟩ hm hm' hle X h1 h2
  obtain ⟨t, a1, a2, rfl⟩ := (onSeg_lerp s e X (neighbours_le _ hs _ hm).1).1 h1
  obtain ⟨t', b1, b2, he⟩ := (onSeg_lerp s e _ (neighbours_le _ hs _ hm').1).1 h2
  have := lerp_inj hse he
  subst this
  have e1 : t = v := le_antisymm a2 (hle.trans b1)
  have e2 : t = u' := le_antisymm (a2.trans hle) b1
  exact ⟨.inr (by rw [e1]; rfl), .inl (by rw [e2]; rfl)⟩

theorem sliced_end {s e : Vec2 K} (hse : s ≠ e) {bp : List (Vec2 K)} (h : Sliced s e bp) {p : Vec2 K × Vec2 K}
    (hp : p ∈ neighbours (s :: bp ++ [e])) {X : Vec2 K} (hX : OnSeg X p.1 p.2) (hm : X ∈ s :: bp ++ [e]) : X = p.1 ∨ X = p.2 := by
  obtain ⟨ts, rfl, hs⟩ := h
  rw [sliced_pts] at hm hp
  rw [neighbours_map] at hp
  obtain ⟨⟨u, v⟩, huv, rfl⟩ := List.mem_map.1 hp
  obtain ⟨w, hw, rfl⟩ := List.mem_map.1 hm
  obtain ⟨h1, h2⟩ := neighbours_le _ hs _ huv
  obtain ⟨t, a1, a2, he⟩ := (onSeg_lerp s e _ h1).1 hX
  have := lerp_inj hse he
  subst this
  rcases h2 w hw with h | h
  · exact .inl (by rw [le_antisymm h a1]; rfl)
  · exact .inr (by rw [le_antisymm a2 h]; rfl)

end slices

section sorting
attribute [local instance 10000] FTrans.toFNum
variable [Field K] [LinearOrder K] [IsStrictOrderedRing K] [FTrans K] [LawfulOrd K]

/-- For points on the edge, without rounding, the comparison of break points is the order along the edge. -/
theorem breakLess_exact {s e : Vec2 K} (hse : s ≠ e) {t u : K} (h : t < u) : breakLess s e (lerp s e t) (lerp s e u) = true := by
  have hx : ∀ a b : K, a + t * (b - a) < a + u * (b - a) ↔ (t - u) * (b - a) < 0 := by
    intro a b
    constructor <;> intro h <;> nlinarith
  have hx' : ∀ a b : K, a + u * (b - a) < a + t * (b - a) ↔ 0 < (t - u) * (b - a) := by
    intro a b
    constructor <;> intro h <;> nlinarith
  have hne : s.x ≠ e.x ∨ s.y ≠ e.y := by
    by_contra h
    push Not at h
    exact hse (Vec2.ext h.1 h.2)
  unfold breakLess lerp
  simp only [le_eq_decide, lt_eq_decide, hx, hx']
  have h0 : t - u < 0 := sub_neg.2 h
  by_cases hdx : s.x ≤ e.x
  · by_cases hxx : s.x < e.x
    · have := mul_neg_of_neg_of_pos h0 (sub_pos.2 hxx)
      simp [hdx, this]
    · have hxe : s.x = e.x := le_antisymm hdx (not_lt.1 hxx)
      have hy : s.y ≠ e.y := hne.resolve_left (not_not.2 hxe)
      by_cases hdy : s.y ≤ e.y
      · have := mul_neg_of_neg_of_pos h0 (sub_pos.2 (lt_of_le_of_ne hdy hy))
        simp [hdy, this]
      · have := mul_pos_of_neg_of_neg h0 (sub_neg.2 (not_le.1 hdy))
        simp [hdy, this]
  · have := mul_pos_of_neg_of_neg h0 (sub_neg.2 (not_le.1 hdx))
    simp [hdx, this]

theorem sliced_of_sorted {s e : Vec2 K} (hse : s ≠ e) {bp : List (Vec2 K)} (hon : ∀ p ∈ bp, OnSeg p s e)
    (hs : bp.Pairwise (fun a b => breakLess s e b a = false)) : Sliced s e bp := by
  have : ∃ ts : List K, bp = ts.map (lerp s e) ∧ ∀ t ∈ ts, 0 ≤ t ∧ t ≤ 1 := by
    clear hs
    induction bp with
    | nil => exact ⟨[], rfl, by simp⟩
    | cons p bp ih =>
      obtain ⟨t, h0, h1, rfl⟩ := hon p List.mem_cons_self
      obtain ⟨ts, rfl, h⟩ := ih (fun q hq => hon q (List.mem_cons_of_mem _ hq))
      exact ⟨t :: ts, rfl, fun u hu => by
        rcases List.mem_cons.1 hu with rfl | hu
        · exact ⟨h0, h1⟩
        · exact h u hu⟩
  obtain ⟨ts, rfl, h⟩ := this
  refine ⟨ts, rfl, ?_⟩
  rw [List.pairwise_map] at hs
  have hs' : ts.Pairwise (· ≤ ·) := hs.imp (fun {a b} hab => by
    by_contra hc
    rw [breakLess_exact hse (not_le.1 hc)] at hab
    cases hab)
  rw [List.cons_append, List.pairwise_cons, List.pairwise_append]
  refine ⟨?_, hs', List.pairwise_singleton _ _, ?_⟩
  · intro t ht
    rcases List.mem_append.1 ht with ht | ht
    · exact (h t ht).1
    · rw [List.mem_singleton.1 ht]; exact zero_le_one
  · intro t ht u hu
    rw [List.mem_singleton.1 hu]
    exact (h t ht).2

end sorting

end River
