import Verif.Spec.Arranged
import Verif.Props.Terminate
import Verif.Props.Wind
import Mathlib.Data.List.Rotate
import Mathlib.Algebra.BigOperators.Group.List.Basic

/-! # Sides of contours: order from left to right, balance of directions at a height -/

namespace River
variable {K : Type}

theorem mem_sides (rings : List (Ring K)) (s : Side K) : s ∈ sides rings ↔
    ∃ r v, rings[s.ring]? = some r ∧ r.nodes[s.idx]? = some v ∧ s.frm = v.pt ∧ s.seg = v.seg ∧ s.ptype = r.ptype := by
  simp only [sides, List.mem_flatMap, List.mem_map, Prod.exists]
  constructor
  · rintro ⟨r, i, hr, v, j, hv, rfl⟩
    rw [List.mk_mem_zipIdx_iff_getElem?] at hr hv
    exact ⟨r, v, hr, hv, rfl, rfl, rfl⟩
  · rintro ⟨r, v, hr, hv, h1, h2, h3⟩
    refine ⟨r, s.ring, List.mk_mem_zipIdx_iff_getElem?.2 hr, v, s.idx, List.mk_mem_zipIdx_iff_getElem?.2 hv, ?_⟩
    cases s; simp_all

theorem side_ext (rings : List (Ring K)) (s t : Side K) (hs : s ∈ sides rings) (ht : t ∈ sides rings) (h1 : s.ring = t.ring)
    (h2 : s.idx = t.idx) : s = t := by
  obtain ⟨r, v, a1, a2, a3, a4, a5⟩ := (mem_sides rings s).1 hs
  obtain ⟨r', v', b1, b2, b3, b4, b5⟩ := (mem_sides rings t).1 ht
  rw [← h1, a1] at b1; cases b1
  rw [← h2, a2] at b2; cases b2
  cases s; cases t; simp_all

theorem sides_nodup (rings : List (Ring K)) : (sides rings).Nodup := by
  have key : ((sides rings).map (fun s => (s.ring, s.idx))).Nodup := by
    unfold sides
    rw [List.map_flatMap]
    rw [List.nodup_flatMap]
    constructor
    · rintro ⟨r, i⟩ _
      simp only [List.map_map]
      have : ((fun s : Side K => (s.ring, s.idx)) ∘ fun v : Vtx K × Nat => (⟨i, v.2, v.1.pt, v.1.seg, r.ptype⟩ : Side K)) =
        (fun n => (i, n)) ∘ Prod.snd := rfl
      rw [this, ← List.map_map, List.zipIdx_map_snd]
      exact (List.nodup_range' 1).map (fun a b h => (Prod.mk.inj h).2)
    · have h2 : (rings.zipIdx.map Prod.snd).Nodup := by rw [List.zipIdx_map_snd]; exact List.nodup_range' 1
      rw [List.Nodup, List.pairwise_map] at h2
      refine h2.imp ?_
      rintro ⟨r, i⟩ ⟨r', i'⟩ hne
      simp only [List.map_map]
      intro x hx hx'
      obtain ⟨v, _, rfl⟩ := List.mem_map.1 hx
      obtain ⟨v', _, e⟩ := List.mem_map.1 hx'
      exact hne (Prod.mk.inj e).1.symm
  exact List.Nodup.of_map _ key

section order
variable [LinearOrder K]

theorem Side.bot_lt_top {s : Side K} (h : s.frm.y ≠ s.seg.target.y) : s.bot.y < s.top.y := by
  unfold Side.bot Side.top Side.up
  by_cases h1 : s.frm.y < s.seg.target.y
  · simp [h1]
  · simp [h1]; exact lt_of_le_of_ne (not_lt.1 h1) (Ne.symm h)

theorem Side.ends_eq {s : Side K} : s.frm = s.bot ∧ s.seg.target = s.top ∨ s.frm = s.top ∧ s.seg.target = s.bot := by
  unfold Side.bot Side.top
  split <;> simp

theorem Side.flat_iff {s : Side K} : s.Flat ↔ s.bot.y = s.top.y := by
  unfold Side.Flat
  rcases s.ends_eq with ⟨h1, h2⟩ | ⟨h1, h2⟩
  · rw [h1, h2]
  · rw [h1, h2]; exact eq_comm

theorem Side.Flat.not_up {s : Side K} (h : s.Flat) : s.up = false := by
  unfold Side.up; unfold Side.Flat at h; simp [h]

theorem Side.up_steep {s : Side K} (h : s.up = true) : ¬ s.Flat := fun hf => by rw [hf.not_up] at h; cases h

theorem Side.steep_of_lt {s : Side K} (h : s.bot.y < s.top.y) : ¬ s.Flat := fun hf => h.ne (Side.flat_iff.1 hf)

theorem Side.Above.steep {s : Side K} {y : K} (h : s.Above y) : ¬ s.Flat := Side.steep_of_lt (h.1.trans_lt h.2)
theorem Side.Below.steep {s : Side K} {y : K} (h : s.Below y) : ¬ s.Flat := Side.steep_of_lt (h.1.trans_le h.2)

theorem Side.dx_cases (s : Side K) : s.dx = 1 ∨ s.dx = -1 := by
  unfold Side.dx; split
  · right; rfl
  · left; rfl

end order

section leftOf
variable [FTrans K] [LinearOrder K] [Absc K]

/-- The height of an end of a side. -/
def EndHeight (rings : List (Ring K)) (y : K) : Prop := ∃ t ∈ sides rings, y = t.bot.y ∨ y = t.top.y

theorem Side.x_bot (s : Side K) : s.x s.bot.y = s.bot.x := by unfold Side.x; simp
theorem Side.x_top {s : Side K} (h : s.bot.y < s.top.y) : s.x s.top.y = s.top.x := by
  unfold Side.x; rw [if_neg h.ne']; simp
theorem Side.x_mid {s : Side K} {y : K} (h1 : y ≠ s.bot.y) (h2 : y ≠ s.top.y) : s.x y = Absc.x s.frm s.seg y := by
  unfold Side.x; rw [if_neg h1, if_neg h2]

variable {rings : List (Ring K)}

theorem Side.ht {s : Side K} (hs : ¬ s.Flat) : s.bot.y < s.top.y := Side.bot_lt_top hs

theorem LeftOf.le {s t : Side K} (h : LeftOf s t) {y : K} (hs : s.Above y) (ht : t.Above y) : s.x y ≤ t.x y :=
  (h y hs.1 ht.1 hs.2.le ht.2.le).1

theorem LeftOf.eq {s t : Side K} (h : LeftOf s t) {y : K} (hs : s.Above y) (ht : t.Above y) (he : s.x y = t.x y) :
    s.bot = t.bot ∧ y = s.bot.y := by
  rcases (h y hs.1 ht.1 hs.2.le ht.2.le).2 he with h1 | h1
  · exact h1
  · exact absurd h1.2 hs.2.ne

/-! ### sides that coincide -/

omit [FTrans K] in
theorem SameSpan.refl (s : Side K) : SameSpan s s := by
  refine ⟨rfl, rfl, ?_⟩
  cases s.seg with
  | line q => trivial
  | cubic c1 c2 q => exact Or.inl ⟨rfl, rfl⟩

omit [FTrans K] in
theorem SameSpan.symm {s t : Side K} (h : SameSpan s t) : SameSpan t s := by
  obtain ⟨h1, h2, h3⟩ := h
  refine ⟨h1.symm, h2.symm, ?_⟩
  cases hs : s.seg <;> cases ht : t.seg <;> rw [hs, ht] at h3 <;> simp only at h3 ⊢
  rcases h3 with ⟨a, b⟩ | ⟨a, b⟩
  · exact Or.inl ⟨a.symm, b.symm⟩
  · exact Or.inr ⟨b.symm, a.symm⟩

omit [FTrans K] in
theorem SameSpan.trans {s t u : Side K} (h : SameSpan s t) (h' : SameSpan t u) : SameSpan s u := by
  obtain ⟨h1, h2, h3⟩ := h
  obtain ⟨g1, g2, g3⟩ := h'
  refine ⟨h1.trans g1, h2.trans g2, ?_⟩
  cases hs : s.seg <;> cases ht : t.seg <;> cases hu : u.seg <;> rw [hs, ht] at h3 <;> rw [ht, hu] at g3 <;> simp only at h3 g3 ⊢
  rcases h3 with ⟨a, b⟩ | ⟨a, b⟩ <;> rcases g3 with ⟨c, d⟩ | ⟨c, d⟩ <;> simp_all

theorem Twin.refl (s : Side K) : Twin s s := ⟨SameSpan.refl s, fun _ _ _ => rfl⟩

theorem Twin.symm {s t : Side K} (h : Twin s t) : Twin t s := by
  refine ⟨h.1.symm, fun y h1 h2 => (h.2 y ?_ ?_).symm⟩
  · rw [h.1.1]; exact h1
  · rw [h.1.2.1]; exact h2

theorem Twin.trans {s t u : Side K} (h : Twin s t) (h' : Twin t u) : Twin s u := by
  refine ⟨h.1.trans h'.1, fun y h1 h2 => (h.2 y h1 h2).trans (h'.2 y ?_ ?_)⟩
  · rw [← h.1.1]; exact h1
  · rw [← h.1.2.1]; exact h2

theorem Twin.bot {s t : Side K} (h : Twin s t) : s.bot = t.bot := h.1.1
theorem Twin.top {s t : Side K} (h : Twin s t) : s.top = t.top := h.1.2.1

theorem Twin.above {s t : Side K} (h : Twin s t) {y : K} : s.Above y ↔ t.Above y := by
  unfold Side.Above; rw [h.bot, h.top]
theorem Twin.below {s t : Side K} (h : Twin s t) {y : K} : s.Below y ↔ t.Below y := by
  unfold Side.Below; rw [h.bot, h.top]
theorem Twin.x_above {s t : Side K} (h : Twin s t) {y : K} (hs : s.Above y) : s.x y = t.x y := h.2 y hs.1 hs.2.le
theorem Twin.x_below {s t : Side K} (h : Twin s t) {y : K} (hs : s.Below y) : s.x y = t.x y := h.2 y hs.1.le hs.2
theorem Twin.flat {s t : Side K} (h : Twin s t) : s.Flat ↔ t.Flat := by rw [Side.flat_iff, Side.flat_iff, h.bot, h.top]

theorem LeftOf.twin_right {s t u : Side K} (h : LeftOf s t) (ht : Twin t u) : LeftOf s u := by
  intro y h1 h2 h3 h4
  rw [← ht.bot] at h2
  rw [← ht.top] at h4
  rw [← ht.2 y h2 h4, ← ht.bot, ← ht.top]
  exact h y h1 h2 h3 h4

theorem LeftOf.twin_left {s t u : Side K} (h : LeftOf t u) (ht : Twin s t) : LeftOf s u := by
  intro y h1 h2 h3 h4
  rw [ht.2 y h1 h3, ht.bot, ht.top]
  rw [ht.bot] at h1
  rw [ht.top] at h3
  exact h y h1 h2 h3 h4

/-- To the left of `t`, or coinciding with it. -/
def LeftW (s t : Side K) : Prop := LeftOf s t ∨ Twin s t

theorem LeftW.below {s t : Side K} (h : LeftW s t) {y : K} (hs : s.Below y) (ht : t.Below y) : s.x y ≤ t.x y := by
  rcases h with h | h
  · exact (h y hs.1.le ht.1.le hs.2 ht.2).1
  · exact (h.x_below hs).le

theorem LeftW.le {s t : Side K} (h : LeftW s t) {y : K} (hs : s.Above y) (ht : t.Above y) : s.x y ≤ t.x y := by
  rcases h with h | h
  · exact h.le hs ht
  · exact (h.x_above hs).le

theorem Arranged.total3 (A : Arranged rings) {s t : Side K} (hs : s ∈ sides rings) (ht : t ∈ sides rings) (hne : s ≠ t) {y : K}
    (as : s.Above y) (at_ : t.Above y) : LeftOf s t ∨ LeftOf t s ∨ Twin s t :=
  A.apart s hs t ht as.steep at_.steep hne (lt_of_le_of_lt as.1 at_.2) (lt_of_le_of_lt at_.1 as.2)

theorem Arranged.total (A : Arranged rings) {s t : Side K} (hs : s ∈ sides rings) (ht : t ∈ sides rings) (hne : s ≠ t) {y : K}
    (as : s.Above y) (at_ : t.Above y) : LeftW s t ∨ LeftW t s := by
  rcases A.total3 hs ht hne as at_ with h | h | h
  · exact Or.inl (Or.inl h)
  · exact Or.inr (Or.inl h)
  · exact Or.inl (Or.inr h)

variable [LawfulOrd K]

/-- Sides with a common lower end have heights in common. -/
theorem Arranged.between (A : Arranged rings) {s t : Side K} (hs : s ∈ sides rings) (ht : t ∈ sides rings) (hne : s ≠ t) (fs : ¬ s.Flat) (ft : ¬ t.Flat)
    (hb : s.bot = t.bot) : ∃ m, s.bot.y < m ∧ m < s.top.y ∧ m < t.top.y := by
  obtain ⟨m1, m2⟩ := A.mid s hs t ht fs ft hne hb
  rw [fmin_eq_min] at m1 m2
  exact ⟨_, m1, lt_of_lt_of_le m2 (min_le_left _ _), lt_of_lt_of_le m2 (min_le_right _ _)⟩

/-- Both orders at once: impossible for two sides that cross a common height. -/
theorem Arranged.asymm (A : Arranged rings) {s t : Side K} (hs : s ∈ sides rings) (ht : t ∈ sides rings) (hne : s ≠ t) {y : K}
    (as : s.Above y) (at_ : t.Above y) (h1 : LeftOf s t) (h2 : LeftOf t s) : False := by
  have he := le_antisymm (h1.le as at_) (h2.le at_ as)
  obtain ⟨hb, hy⟩ := h1.eq as at_ he
  obtain ⟨m1, m2⟩ := A.mid s hs t ht as.steep at_.steep hne hb
  rw [fmin_eq_min] at m1 m2
  generalize (s.bot.y +. min s.top.y t.top.y) /. FNum.lit 2 = m at m1 m2
  have a1 := h1 m m1.le (hb ▸ m1.le) (m2.le.trans (min_le_left _ _)) (m2.le.trans (min_le_right _ _))
  have a2 := h2 m (hb ▸ m1.le) m1.le (m2.le.trans (min_le_right _ _)) (m2.le.trans (min_le_left _ _))
  rcases a1.2 (le_antisymm a1.1 a2.1) with h | h
  · exact m1.ne' h.2
  · exact (lt_of_lt_of_le m2 (min_le_left _ _)).ne h.2

/-- Sides that coincide are not beside each other. -/
theorem Arranged.not_twin (A : Arranged rings) {s t : Side K} (hs : s ∈ sides rings) (ht : t ∈ sides rings) (hne : s ≠ t) {y : K}
    (as : s.Above y) (at_ : t.Above y) (h1 : LeftOf s t) (h2 : Twin s t) : False :=
  A.asymm hs ht hne as at_ h1 ((h1.twin_right h2.symm).twin_left h2.symm)

theorem Arranged.asymmW (A : Arranged rings) {s t : Side K} (hs : s ∈ sides rings) (ht : t ∈ sides rings) (hne : s ≠ t) {y : K}
    (as : s.Above y) (at_ : t.Above y) (h1 : LeftOf s t) (h2 : LeftW t s) : False := by
  rcases h2 with h2 | h2
  · exact A.asymm hs ht hne as at_ h1 h2
  · exact A.not_twin hs ht hne as at_ h1 h2.symm

omit [LawfulOrd K] in
/-- The abscissas decide. -/
theorem Arranged.of_lt (A : Arranged rings) {s t : Side K} (hs : s ∈ sides rings) (ht : t ∈ sides rings) {y : K}
    (as : s.Above y) (at_ : t.Above y) (h : s.x y < t.x y) : LeftOf s t := by
  have hne : s ≠ t := by rintro rfl; exact lt_irrefl _ h
  rcases A.total3 hs ht hne as at_ with h1 | h1 | h1
  · exact h1
  · exact absurd (h1.le at_ as) (not_le.2 h)
  · exact absurd (h1.x_above as) h.ne

omit [LawfulOrd K] in
theorem LeftOf.lt {s t : Side K} (h : LeftOf s t) {m : K}
    (hm : s.bot.y < m ∧ t.bot.y < m ∧ m < s.top.y ∧ m < t.top.y) : s.x m < t.x m := by
  have h1 := h m hm.1.le hm.2.1.le hm.2.2.1.le hm.2.2.2.le
  refine lt_of_le_of_ne h1.1 (fun he => ?_)
  rcases h1.2 he with h2 | h2
  · exact hm.1.ne' h2.2
  · exact hm.2.2.1.ne h2.2

theorem Arranged.trans (A : Arranged rings) {s t u : Side K} (hs : s ∈ sides rings) (ht : t ∈ sides rings) (hu : u ∈ sides rings)
    (hst : s ≠ t) (htu : t ≠ u) {y : K} (as : s.Above y) (at_ : t.Above y) (au : u.Above y)
    (h1 : LeftOf s t) (h2 : LeftOf t u) : LeftOf s u := by
  by_cases hsu : s = u
  · subst hsu; exact (A.asymm hs ht hst as at_ h1 h2).elim
  have l1 := h1.le as at_
  have l2 := h2.le at_ au
  rcases lt_or_eq_of_le (l1.trans l2) with h | h
  · exact A.of_lt hs hu as au h
  · have e1 : s.x y = t.x y := le_antisymm l1 (by rw [h]; exact l2)
    have e2 : t.x y = u.x y := by rw [← e1, h]
    obtain ⟨b1, y1⟩ := h1.eq as at_ e1
    obtain ⟨b2, y2⟩ := h2.eq at_ au e2
    rcases A.total3 hs hu hsu as au with h3 | h3 | h3
    · exact h3
    · exfalso
      have hb3 : s.bot = u.bot := b1.trans b2
      -- compare just above the common lower end, below all three tops
      have M1 := A.mid s hs t ht as.steep at_.steep hst b1
      have M2 := A.mid t ht u hu at_.steep au.steep htu b2
      have M3 := A.mid s hs u hu as.steep au.steep hsu hb3
      rw [fmin_eq_min] at M1 M2 M3
      have fin : ∀ m, s.bot.y < m → m < s.top.y → m < t.top.y → m < u.top.y → False := by
        intro m q1 q2 q3 q4
        have c1 := h1.lt (m := m) ⟨q1, b1 ▸ q1, q2, q3⟩
        have c2 := h2.lt (m := m) ⟨b1 ▸ q1, hb3 ▸ q1, q3, q4⟩
        have c3 := h3.lt (m := m) ⟨hb3 ▸ q1, q1, q4, q2⟩
        exact lt_irrefl _ ((c1.trans c2).trans c3)
      rcases le_total (min s.top.y t.top.y) u.top.y with g | g
      · exact fin _ M1.1 (lt_of_lt_of_le M1.2 (min_le_left _ _)) (lt_of_lt_of_le M1.2 (min_le_right _ _)) (lt_of_lt_of_le M1.2 g)
      · -- `u` ends lowest
        have g1 : u.top.y ≤ s.top.y := g.trans (min_le_left _ _)
        have g2 : u.top.y ≤ t.top.y := g.trans (min_le_right _ _)
        rw [min_eq_right g1] at M3
        exact fin _ M3.1 (lt_of_lt_of_le M3.2 g1) (lt_of_lt_of_le M3.2 g2) M3.2
    · exact (A.asymm hs ht hst as at_ h1 (h2.twin_right h3.symm)).elim

theorem Arranged.transW (A : Arranged rings) {s t u : Side K} (hs : s ∈ sides rings) (ht : t ∈ sides rings) (hu : u ∈ sides rings)
    (hst : s ≠ t) (htu : t ≠ u) {y : K} (as : s.Above y) (at_ : t.Above y) (au : u.Above y)
    (h1 : LeftW s t) (h2 : LeftW t u) : LeftW s u := by
  rcases h1 with h1 | h1
  · rcases h2 with h2 | h2
    · exact Or.inl (A.trans hs ht hu hst htu as at_ au h1 h2)
    · exact Or.inl (h1.twin_right h2)
  · rcases h2 with h2 | h2
    · exact Or.inl (h2.twin_left h1)
    · exact Or.inr (h1.trans h2)

end leftOf

/-! ## balance -/

section balance
variable [LinearOrder K]

theorem wnS_nil (t : PathType) : wnS t ([] : List (Side K)) = 0 := rfl
theorem wnS_append (t : PathType) (a b : List (Side K)) : wnS t (a ++ b) = wnS t a + wnS t b := by
  simp [wnS, List.filter_append]
theorem wnS_cons (t : PathType) (e : Side K) (l : List (Side K)) :
    wnS t (e :: l) = (if e.ptype = t then e.dx else 0) + wnS t l := by
  by_cases h : e.ptype = t <;> simp [wnS, h]
theorem wnS_perm (t : PathType) {a b : List (Side K)} (h : a.Perm b) : wnS t a = wnS t b :=
  ((h.filter _).map _).sum_eq

theorem wnS_filter_sub (t : PathType) (l : List (Side K)) (A B : Side K → Prop) [DecidablePred A] [DecidablePred B] (w : Side K → Int)
    (h : ∀ s ∈ l, s.dx * ((if A s then 1 else 0) - (if B s then 1 else 0)) = w s) :
    wnS t (l.filter (fun s => decide (A s))) - wnS t (l.filter (fun s => decide (B s))) =
      (l.map (fun s => if s.ptype = t then w s else 0)).sum := by
  induction l with
  | nil => simp [wnS_nil]
  | cons s l ih =>
    have h1 := h s List.mem_cons_self
    have h2 := ih (fun s hs => h s (List.mem_cons_of_mem _ hs))
    rw [List.map_cons, List.sum_cons, ← h2, List.filter_cons, List.filter_cons]
    by_cases ha : A s <;> by_cases hb : B s <;> by_cases ht : s.ptype = t <;>
      simp only [ha, hb, ht, decide_true, decide_false, if_true, if_false, wnS_cons] at h1 ⊢ <;> simp at h1 ⊢ <;> omega

omit [LinearOrder K] in
theorem linked_targets (l : List (Vtx K)) (h : Linked l) : l.map (fun v => v.seg.target) = (l.map Vtx.pt).rotate 1 := by
  refine List.ext_getElem (by simp) (fun i h1 h2 => ?_)
  have hi : i < l.length := by simpa using h1
  have hi2 : (i + 1) % l.length < l.length := Nat.mod_lt _ (by omega)
  rw [List.getElem_rotate]
  simp only [List.getElem_map, List.length_map]
  exact h i _ _ (List.getElem?_eq_getElem hi) (List.getElem?_eq_getElem hi2)

omit [LinearOrder K] in
/-- Along closed contours every point is left as often as it is reached. -/
theorem sides_balanced (rings : List (Ring K)) (hl : ∀ r ∈ rings, Linked r.nodes) (t : PathType) (P : Vec2 K → Prop) [DecidablePred P] :
    ((sides rings).map (fun s => if s.ptype = t then ((if P s.frm then 1 else 0) - (if P s.seg.target then 1 else 0) : Int)
      else 0)).sum = 0 := by
  unfold sides
  rw [List.map_flatMap]
  have h0 : ∀ (L : List (Ring K × Nat)) (g : Ring K × Nat → List Int), (∀ l ∈ L, (g l).sum = 0) → (L.flatMap g).sum = 0 := by
    intro L g
    induction L with
    | nil => simp
    | cons a L ih => intro h; simp [h a List.mem_cons_self, ih (fun l hl => h l (List.mem_cons_of_mem _ hl))]
  refine h0 _ _ ?_
  rintro ⟨r, i⟩ hr
  rw [List.mk_mem_zipIdx_iff_getElem?] at hr
  have hlr := hl r (List.mem_of_getElem? hr)
  simp only [List.map_map]
  by_cases ht : r.ptype = t
  · have e : ((fun s : Side K => if s.ptype = t then ((if P s.frm then 1 else 0) - (if P s.seg.target then 1 else 0) : Int)
        else 0) ∘ fun v : Vtx K × Nat => (⟨i, v.2, v.1.pt, v.1.seg, r.ptype⟩ : Side K)) =
        (fun v : Vtx K => ((if P v.pt then 1 else 0) - (if P v.seg.target then 1 else 0) : Int)) ∘ Prod.fst := by
      funext v; simp [ht]
    rw [e, ← List.map_map, List.zipIdx_map_fst]
    have e2 : ∀ l : List (Vtx K), (l.map (fun v : Vtx K => ((if P v.pt then 1 else 0) - (if P v.seg.target then 1 else 0) : Int))).sum =
        ((l.map Vtx.pt).map (fun p => if P p then (1 : Int) else 0)).sum -
          ((l.map (fun v => v.seg.target)).map (fun p => if P p then (1 : Int) else 0)).sum := by
      intro l
      induction l with
      | nil => simp
      | cons v l ih => simp only [List.map_cons, List.sum_cons, ih]; ring
    rw [e2, linked_targets _ hlr]
    have := (((List.rotate_perm (r.nodes.map Vtx.pt) 1).map (fun p => if P p then (1 : Int) else 0))).sum_eq
    omega
  · have e : ((fun s : Side K => if s.ptype = t then ((if P s.frm then 1 else 0) - (if P s.seg.target then 1 else 0) : Int)
        else 0) ∘ fun v : Vtx K × Nat => (⟨i, v.2, v.1.pt, v.1.seg, r.ptype⟩ : Side K)) = fun _ => 0 := by
      funext v; simp [ht]
    rw [e]; simp

theorem Side.dx_ends (s : Side K) (P : Vec2 K → Prop) [DecidablePred P] :
    s.dx * ((if P s.top then 1 else 0) - (if P s.bot then 1 else 0)) =
      ((if P s.frm then 1 else 0) - (if P s.seg.target then 1 else 0) : Int) := by
  unfold Side.dx Side.top Side.bot
  split <;> ring

/-- At every height and abscissa where there is no horizontal side, the winding number just below equals the winding number just
above. -/
theorem Arranged.balance [FTrans K] [Absc K] {rings : List (Ring K)} (A : Arranged rings) (t : PathType) (y X : K)
    (hflat : ∀ f ∈ sides rings, f.Flat → f.frm.y = y → (f.frm.x < X ↔ f.seg.target.x < X)) :
    wnS t ((sides rings).filter (fun s => decide (s.Below y ∧ s.x y < X))) =
      wnS t ((sides rings).filter (fun s => decide (s.Above y ∧ s.x y < X))) := by
  have h := wnS_filter_sub t (sides rings) (fun s => s.Below y ∧ s.x y < X) (fun s => s.Above y ∧ s.x y < X)
    (fun s => ((if (s.frm.y = y ∧ s.frm.x < X) then 1 else 0) - (if (s.seg.target.y = y ∧ s.seg.target.x < X) then 1 else 0) : Int)) ?_
  · rw [sides_balanced rings A.linked t (fun p => p.y = y ∧ p.x < X)] at h
    omega
  · intro s hs
    by_cases hfl : s.Flat
    · have c : ¬ s.Below y := fun h => h.steep hfl
      have d : ¬ s.Above y := fun h => h.steep hfl
      have e : (s.frm.y = y ∧ s.frm.x < X) ↔ (s.seg.target.y = y ∧ s.seg.target.x < X) := by
        have h0 : s.frm.y = s.seg.target.y := hfl
        rw [← h0]
        exact and_congr_right (fun h1 => hflat s hs hfl h1)
      simp only [c, d, e]; simp
    rw [← s.dx_ends (fun p => p.y = y ∧ p.x < X)]
    have hlt := Side.ht hfl
    congr 1
    rcases lt_trichotomy s.bot.y y with h1 | h1 | h1
    · have b0 : ¬ (s.bot.y = y ∧ s.bot.x < X) := fun h => h1.ne h.1
      rcases lt_trichotomy y s.top.y with h2 | h2 | h2
      · have t0 : ¬ (s.top.y = y ∧ s.top.x < X) := fun h => h2.ne' h.1
        have c : s.Below y := ⟨h1, h2.le⟩
        have d : s.Above y := ⟨h1.le, h2⟩
        simp [b0, t0, c, d]
      · have c : s.Below y := ⟨h1, h2.le⟩
        have d : ¬ s.Above y := fun h => h.2.ne h2
        have e : s.x y = s.top.x := by rw [h2]; exact Side.x_top hlt
        simp [b0, c, d, e, h2.symm]
      · have t0 : ¬ (s.top.y = y ∧ s.top.x < X) := fun h => h2.ne h.1
        have c : ¬ s.Below y := fun h => not_le.2 h2 h.2
        have d : ¬ s.Above y := fun h => not_lt.2 h2.le h.2
        simp [b0, t0, c, d]
    · have t0 : ¬ (s.top.y = y ∧ s.top.x < X) := fun h => (h1 ▸ hlt).ne' h.1
      have c : ¬ s.Below y := fun h => h.1.ne h1
      have d : s.Above y := ⟨h1.le, h1 ▸ hlt⟩
      have e : s.x y = s.bot.x := by rw [← h1]; exact Side.x_bot s
      simp [t0, c, d, e, h1]
    · have b0 : ¬ (s.bot.y = y ∧ s.bot.x < X) := fun h => h1.ne' h.1
      have t0 : ¬ (s.top.y = y ∧ s.top.x < X) := fun h => (h1.trans hlt).ne' h.1
      have c : ¬ s.Below y := fun h => not_lt.2 h1.le h.1
      have d : ¬ s.Above y := fun h => not_le.2 h1 h.1
      simp [b0, t0, c, d]

/-- All sides together cancel just above every height. -/
theorem Arranged.balance_all [FTrans K] [Absc K] {rings : List (Ring K)} (A : Arranged rings) (t : PathType) (y : K) :
    wnS t ((sides rings).filter (fun s => decide (s.Above y))) = 0 := by
  have h := wnS_filter_sub t (sides rings) (fun s => s.Above y) (fun _ => False)
    (fun s => ((if (y < s.frm.y) then 1 else 0) - (if (y < s.seg.target.y) then 1 else 0) : Int)) ?_
  · rw [sides_balanced rings A.linked t (fun p => y < p.y)] at h
    simpa [wnS_nil] using h
  · intro s hs
    rw [← s.dx_ends (fun p => y < p.y)]
    by_cases hfl : s.Flat
    · rw [Side.flat_iff] at hfl
      have d : ¬ s.Above y := fun h => (h.1.trans_lt h.2).ne hfl
      simp [d, hfl]
    have hlt := Side.ht hfl
    congr 1
    by_cases h1 : s.bot.y ≤ y <;> by_cases h2 : y < s.top.y
    · have d : s.Above y := ⟨h1, h2⟩
      simp [d, h2, not_lt.2 h1]
    · have d : ¬ s.Above y := fun h => h2 h.2
      simp [d, h2, not_lt.2 h1]
    · have d : ¬ s.Above y := fun h => h1 h.1
      simp [d, h2, not_le.1 h1]
    · exact (h2 ((not_le.1 h1).trans hlt)).elim

open Classical in
/-- Nothing changes to the left of a side at a height in its interior. -/
theorem Arranged.left_const [FTrans K] [Absc K] {rings : List (Ring K)} (A : Arranged rings) (t : PathType) (y : K) (s : Side K)
    (hs : s ∈ sides rings) (h1 : s.bot.y < y) (h2 : y < s.top.y) :
    wnS t ((sides rings).filter (fun u => decide (u.Below y ∧ u ≠ s ∧ LeftOf u s))) = wnS t (leftSides rings s y) := by
  have hb := A.balance t y (s.x y) (by
    intro f hf hfl hy
    have hst : ¬ s.Flat := Side.steep_of_lt (h1.trans h2)
    have hcov : ¬ f.Covers (s.x y) := by
      intro hc
      rcases A.touch f hf hfl s hs hst (hy ▸ h1.le) (hy ▸ h2.le) (hy.symm ▸ hc) with e | e | e | e
      · rw [e, hy] at h1; exact lt_irrefl _ h1
      · rw [e, ← (hfl : f.frm.y = _), hy] at h1; exact lt_irrefl _ h1
      · rw [e, hy] at h2; exact lt_irrefl _ h2
      · rw [e, ← (hfl : f.frm.y = _), hy] at h2; exact lt_irrefl _ h2
    unfold Side.Covers at hcov
    rw [not_and_or, not_le, not_le, lt_min_iff, max_lt_iff] at hcov
    rcases hcov with h | h
    · exact ⟨fun g => absurd g (not_lt.2 h.1.le), fun g => absurd g (not_lt.2 h.2.le)⟩
    · exact ⟨fun _ => h.2, fun _ => h.1⟩)
  have key : ∀ u ∈ sides rings, ¬ u.Flat → u.bot.y ≤ y → y ≤ u.top.y → (u.x y < s.x y ↔ u ≠ s ∧ LeftOf u s) := by
    intro u hu gf g1 g2
    constructor
    · intro h
      have hne : u ≠ s := by rintro rfl; exact lt_irrefl _ h
      refine ⟨hne, ?_⟩
      rcases A.apart u hu s hs gf (Side.steep_of_lt (h1.trans h2)) hne (lt_of_le_of_lt g1 h2) (lt_of_lt_of_le h1 g2) with h3 | h3 | h3
      · exact h3
      · exact absurd (h3 y h1.le g1 h2.le g2).1 (not_le.2 h)
      · exact absurd (h3.2 y g1 g2) h.ne
    · rintro ⟨hne, h⟩
      have := h y g1 h1.le g2 h2.le
      refine lt_of_le_of_ne this.1 (fun he => ?_)
      rcases this.2 he with ⟨q1, q2⟩ | ⟨q1, q2⟩
      · rw [q1] at q2; exact h1.ne' q2
      · rw [q1] at q2; exact h2.ne q2
  unfold leftSides
  have e1 : (sides rings).filter (fun u => decide (u.Below y ∧ u ≠ s ∧ LeftOf u s)) =
      (sides rings).filter (fun u => decide (u.Below y ∧ u.x y < s.x y)) := by
    refine List.filter_congr (fun u hu => ?_)
    by_cases hb : u.Below y
    · simp only [hb, true_and, key u hu hb.steep hb.1.le hb.2]
    · simp [hb]
  have e2 : (sides rings).filter (fun u => decide (u.Above y ∧ u ≠ s ∧ LeftOf u s)) =
      (sides rings).filter (fun u => decide (u.Above y ∧ u.x y < s.x y)) := by
    refine List.filter_congr (fun u hu => ?_)
    by_cases hb : u.Above y
    · simp only [hb, true_and, key u hu hb.steep hb.1 hb.2.le]
    · simp [hb]
  rw [e1, e2, hb]

end balance
end River
