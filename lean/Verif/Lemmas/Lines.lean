import Mathlib.Algebra.Order.Field.Basic
import Mathlib.Tactic.FieldSimp
import Mathlib.Tactic.Linarith
import Mathlib.Tactic.Ring
import Verif.Lemmas.Sides
import Verif.Spec.General
import Verif.RatTrans

/-! # Straight sides in exact arithmetic -/

namespace River
variable {K : Type}

attribute [local instance 10000] FTrans.toFNum

instance : Exact ℚ :=
  ⟨fun _ _ => rfl, fun _ _ => rfl, fun _ _ => rfl, fun _ _ => rfl, fun _ => rfl, fun _ => rfl, rfl, fun _ => rfl⟩

variable [Field K] [LinearOrder K] [IsStrictOrderedRing K] [FTrans K] [LawfulOrd K] [Exact K]

noncomputable instance : Exact ℝ :=
  ⟨fun _ _ => rfl, fun _ _ => rfl, fun _ _ => rfl, fun _ _ => rfl, fun _ => rfl, fun _ => rfl, rfl, fun _ => rfl⟩

/-- The line through two points, as a function of the height. -/
def lineX (p q : Vec2 K) (y : K) : K := p.x + (y - p.y) * ((q.x - p.x) / (q.y - p.y))

omit [LinearOrder K] [IsStrictOrderedRing K] [FTrans K] [LawfulOrd K] [Exact K] in
theorem lineX_symm {p q : Vec2 K} (h : p.y ≠ q.y) (y : K) : lineX p q y = lineX q p y := by
  have h1 : q.y - p.y ≠ 0 := sub_ne_zero.2 h.symm
  have h2 : p.y - q.y ≠ 0 := sub_ne_zero.2 h
  unfold lineX
  field_simp
  ring

omit [LinearOrder K] [IsStrictOrderedRing K] [FTrans K] [LawfulOrd K] [Exact K] in
theorem lineX_left (p q : Vec2 K) : lineX p q p.y = p.x := by simp [lineX]

omit [LinearOrder K] [IsStrictOrderedRing K] [FTrans K] [LawfulOrd K] [Exact K] in
theorem lineX_right {p q : Vec2 K} (h : p.y ≠ q.y) : lineX p q q.y = q.x := by
  rw [lineX_symm h, lineX_left]

omit [IsStrictOrderedRing K] [LawfulOrd K] in
theorem Side.x_line {s : Side K} (h : s.Straight) (hl : s.frm.y ≠ s.seg.target.y) (y : K) : s.x y = lineX s.bot s.top y := by
  have hne : s.bot.y ≠ s.top.y := (s.bot_lt_top hl).ne
  unfold Side.x
  split
  · next e => rw [e, lineX_left]
  · split
    · next e => rw [e, lineX_right hne]
    · have e1 : s.seg.currX s.frm y = lineX s.frm s.seg.target y := by
        obtain ⟨t, e⟩ : ∃ t, s.seg = .line t := ⟨_, h⟩
        rw [e]
        simp only [Seg.currX, Seg.linX, Exact.add_eq, Exact.sub_eq, Exact.mul_eq, Exact.div_eq, Seg.target]
        unfold lineX
        ring
      change s.seg.currX s.frm y = _
      rw [e1]
      cases hu : s.up with
      | true => rw [Side.bot, Side.top, hu]; rfl
      | false =>
        rw [Side.bot, Side.top, hu]
        exact lineX_symm hl y

omit [FTrans K] [LawfulOrd K] [Exact K] in
/-- An affine function that is nonnegative at the ends of an interval is nonnegative on it, and zero inside only if zero at
both ends. -/
theorem affine_pos {a b lo hi y : K} (h1 : lo ≤ y) (h2 : y ≤ hi) (hl : 0 ≤ a + lo * b) (hh : 0 ≤ a + hi * b) :
    0 ≤ a + y * b ∧ (a + y * b = 0 → (y = lo ∧ a + lo * b = 0) ∨ (y = hi ∧ a + hi * b = 0) ∨ (a + lo * b = 0 ∧ a + hi * b = 0)) := by
  rcases eq_or_lt_of_le h1 with e | l1
  · subst e; exact ⟨hl, fun h => Or.inl ⟨rfl, h⟩⟩
  rcases eq_or_lt_of_le h2 with e | l2
  · subst e; exact ⟨hh, fun h => Or.inr (Or.inl ⟨rfl, h⟩)⟩
  have hlt : lo < hi := l1.trans l2
  have key : (hi - lo) * (a + y * b) = (hi - y) * (a + lo * b) + (y - lo) * (a + hi * b) := by ring
  have p1 : 0 ≤ (hi - y) * (a + lo * b) := mul_nonneg (sub_nonneg.2 h2) hl
  have p2 : 0 ≤ (y - lo) * (a + hi * b) := mul_nonneg (sub_nonneg.2 h1) hh
  have hd : 0 < hi - lo := sub_pos.2 hlt
  refine ⟨?_, fun h => Or.inr (Or.inr ?_)⟩
  · by_contra hc
    have := mul_neg_of_pos_of_neg hd (not_le.1 hc)
    rw [key] at this
    linarith
  · rw [h, mul_zero] at key
    have z1 : (hi - y) * (a + lo * b) = 0 := by linarith
    have z2 : (y - lo) * (a + hi * b) = 0 := by linarith
    exact ⟨(mul_eq_zero.1 z1).resolve_left (sub_pos.2 l2).ne', (mul_eq_zero.1 z2).resolve_left (sub_pos.2 l1).ne'⟩

omit [LawfulOrd K] in
/-- Two straight sides: it is enough to compare them at the ends of their common range. -/
theorem leftOf_line {s t : Side K} (hs : s.Straight) (ht : t.Straight) (ls : s.frm.y ≠ s.seg.target.y) (lt : t.frm.y ≠ t.seg.target.y)
    (h1 : s.x (max s.bot.y t.bot.y) ≤ t.x (max s.bot.y t.bot.y))
    (h2 : s.x (min s.top.y t.top.y) ≤ t.x (min s.top.y t.top.y))
    (e1 : s.x (max s.bot.y t.bot.y) = t.x (max s.bot.y t.bot.y) → s.bot = t.bot)
    (e2 : s.x (min s.top.y t.top.y) = t.x (min s.top.y t.top.y) → s.top = t.top)
    (ne : s.x (max s.bot.y t.bot.y) ≠ t.x (max s.bot.y t.bot.y) ∨ s.x (min s.top.y t.top.y) ≠ t.x (min s.top.y t.top.y)) : LeftOf s t := by
  intro y y1 y2 y3 y4
  obtain ⟨a, b, hab⟩ : ∃ a b : K, ∀ z, t.x z - s.x z = a + z * b := by
    refine ⟨t.bot.x - t.bot.y * ((t.top.x - t.bot.x) / (t.top.y - t.bot.y)) - (s.bot.x - s.bot.y * ((s.top.x - s.bot.x) / (s.top.y - s.bot.y))),
      (t.top.x - t.bot.x) / (t.top.y - t.bot.y) - (s.top.x - s.bot.x) / (s.top.y - s.bot.y), fun z => ?_⟩
    rw [Side.x_line hs ls, Side.x_line ht lt, lineX, lineX]
    ring
  have k := affine_pos (a := a) (b := b) (max_le y1 y2) (le_min y3 y4) (by rw [← hab]; exact sub_nonneg.2 h1) (by rw [← hab]; exact sub_nonneg.2 h2)
  simp only [← hab] at k
  refine ⟨sub_nonneg.1 k.1, fun he => ?_⟩
  rcases k.2 (by rw [he, sub_self]) with ⟨q1, q2⟩ | ⟨q1, q2⟩ | ⟨q1, q2⟩
  · left
    have hb := e1 (sub_eq_zero.1 q2).symm
    exact ⟨hb, by rw [q1, ← hb, max_self]⟩
  · right
    have hb := e2 (sub_eq_zero.1 q2).symm
    exact ⟨hb, by rw [q1, ← hb, min_self]⟩
  · exfalso
    rcases ne with h | h
    · exact h (sub_eq_zero.1 q1).symm
    · exact h (sub_eq_zero.1 q2).symm

/-- The hypotheses of `leftOf_line` on the positions at the ends of the common range. -/
def Side.LeftEnds (s t : Side K) : Prop :=
  s.x (max s.bot.y t.bot.y) ≤ t.x (max s.bot.y t.bot.y) ∧ s.x (min s.top.y t.top.y) ≤ t.x (min s.top.y t.top.y) ∧
    (s.x (max s.bot.y t.bot.y) = t.x (max s.bot.y t.bot.y) → s.bot = t.bot) ∧
    (s.x (min s.top.y t.top.y) = t.x (min s.top.y t.top.y) → s.top = t.top) ∧
    (s.x (max s.bot.y t.bot.y) ≠ t.x (max s.bot.y t.bot.y) ∨ s.x (min s.top.y t.top.y) ≠ t.x (min s.top.y t.top.y))

instance (s t : Side K) : Decidable (s.LeftEnds t) := inferInstanceAs (Decidable (_ ∧ _))

omit [LawfulOrd K] [Exact K] in
theorem not_leftOf_self {s : Side K} (hl : s.frm.y ≠ s.seg.target.y) : ¬ LeftOf s s := by
  intro h
  obtain ⟨y, h1, h2⟩ := exists_between (s.bot_lt_top hl)
  rcases (h y h1.le h1.le h2.le h2.le).2 rfl with ⟨_, e⟩ | ⟨_, e⟩
  · exact h1.ne' e
  · exact h2.ne e

end River
