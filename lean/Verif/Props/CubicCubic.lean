import Verif.Model.CubicCubic
import Verif.Props.Bezier
import Verif.Props.Rect
import Mathlib.Logic.Function.Iterate

/-! # Cubic/cubic intersection (C25) -/

set_option linter.unusedSectionVars false

namespace River

section any
variable {K : Type} [FNum K]

theorem ccLoop_nil (precise : Int) (f : List (Cell K × Cell K)) : ccLoop precise ⟨[], f⟩ = f := by
  rw [ccLoop]

theorem ccLoop_cons (precise : Int) (back : Cell K × Cell K) (rest f : List (Cell K × Cell K)) :
    ccLoop precise ⟨back :: rest, f⟩ = ccLoop precise (ccBody precise back ⟨rest, f⟩) := by
  rw [ccLoop]

/-- C25, any arithmetic: the search loop ends, after at most `5^(precise+1)` iterations when started on one pair. -/
theorem ccLoop_terminates (precise : Int) (s : CCState K) :
    ∃ n ≤ ccWork precise s.pairs, (fun s => (ccStep precise s).getD s)^[n] s = ⟨[], ccLoop precise s⟩ := by
  induction hm : ccWork precise s.pairs using Nat.strong_induction_on generalizing s with
  | _ m ih =>
    obtain ⟨pairs, found⟩ := s
    cases pairs with
    | nil => exact ⟨0, Nat.zero_le _, by rw [ccLoop_nil]; rfl⟩
    | cons back rest =>
      have hw := ccWork_body precise back ⟨rest, found⟩
      have hm' : ccWork precise rest + ccWeight precise back = m := by
        rw [← hm]; simp only [ccWork, List.map_cons, List.sum_cons]; omega
      have hlt : ccWork precise (ccBody precise back ⟨rest, found⟩).pairs < m := by
        rw [← hm']; exact hw
      obtain ⟨n, hn, e⟩ := ih _ hlt _ rfl
      refine ⟨n + 1, by omega, ?_⟩
      rw [Function.iterate_succ_apply, ccLoop_cons, ← e]
      rfl

/-- The stack only ever holds what `P` allows, the result only what `F` allows. -/
theorem ccLoop_inv (precise : Int) (P F : Cell K × Cell K → Prop)
    (hP : ∀ p, P p → ∀ a ∈ [p.1.subdive.1, p.1.subdive.2], ∀ b ∈ [p.2.subdive.1, p.2.subdive.2],
      a.bbox.intersect b.bbox = true →
      ((a.recurse : Int) > precise → F (a, b)) ∧ (¬ (a.recurse : Int) > precise → P (a, b))) (s : CCState K)
    (hs : ∀ p ∈ s.pairs, P p) (hf : ∀ p ∈ s.found, F p) : ∀ p ∈ ccLoop precise s, F p := by
  induction hm : ccWork precise s.pairs using Nat.strong_induction_on generalizing s with
  | _ m ih =>
    obtain ⟨pairs, found⟩ := s
    cases pairs with
    | nil => rw [ccLoop_nil]; exact hf
    | cons back rest =>
      have hw := ccWork_body precise back ⟨rest, found⟩
      have hm' : ccWork precise rest + ccWeight precise back = m := by
        rw [← hm]; simp only [ccWork, List.map_cons, List.sum_cons]; omega
      have hlt : ccWork precise (ccBody precise back ⟨rest, found⟩).pairs < m := by
        rw [← hm']; exact hw
      rw [ccLoop_cons]
      have hb := hP back (hs back (by simp))
      have key : ∀ (s : CCState K) (a b : Cell K), a ∈ [back.1.subdive.1, back.1.subdive.2] →
          b ∈ [back.2.subdive.1, back.2.subdive.2] → (∀ p ∈ s.pairs, P p) ∧ (∀ p ∈ s.found, F p) →
          (∀ p ∈ (ccCheck precise s a b).pairs, P p) ∧ (∀ p ∈ (ccCheck precise s a b).found, F p) := by
        intro s a b ha hb' h
        unfold ccCheck
        by_cases hi : a.bbox.intersect b.bbox = true
        · rw [if_pos hi]
          have := hb a ha b hb' hi
          split
          · rename_i hr
            refine ⟨h.1, ?_⟩
            intro p hp
            rcases List.mem_cons.mp hp with rfl | hp
            · exact this.1 hr
            · exact h.2 p hp
          · rename_i hr
            refine ⟨?_, h.2⟩
            intro p hp
            rcases List.mem_cons.mp hp with rfl | hp
            · exact this.2 hr
            · exact h.1 p hp
        · rw [if_neg hi]; exact h
      have h0 : (∀ p ∈ rest, P p) ∧ (∀ p ∈ found, F p) := ⟨fun p hp => hs p (by simp [hp]), hf⟩
      have h4 := key _ back.1.subdive.2 back.2.subdive.2 (by simp) (by simp)
        (key _ back.1.subdive.2 back.2.subdive.1 (by simp) (by simp)
          (key _ back.1.subdive.1 back.2.subdive.2 (by simp) (by simp)
            (key ⟨rest, found⟩ back.1.subdive.1 back.2.subdive.1 (by simp) (by simp) h0)))
      exact ih _ hlt _ h4.1 h4.2 rfl

/-- A property of pairs that always survives in one of the four children survives to the result. -/
theorem ccLoop_keeps (precise : Int) (L : Cell K × Cell K → Prop)
    (hL : ∀ p, L p → ∃ a ∈ [p.1.subdive.1, p.1.subdive.2], ∃ b ∈ [p.2.subdive.1, p.2.subdive.2],
      a.bbox.intersect b.bbox = true ∧ L (a, b)) (s : CCState K)
    (hs : (∃ p ∈ s.pairs, L p) ∨ (∃ p ∈ s.found, L p)) : ∃ p ∈ ccLoop precise s, L p := by
  induction hm : ccWork precise s.pairs using Nat.strong_induction_on generalizing s with
  | _ m ih =>
    obtain ⟨pairs, found⟩ := s
    cases pairs with
    | nil =>
      rw [ccLoop_nil]
      rcases hs with ⟨p, hp, _⟩ | h
      · simp at hp
      · exact h
    | cons back rest =>
      have hw := ccWork_body precise back ⟨rest, found⟩
      have hm' : ccWork precise rest + ccWeight precise back = m := by
        rw [← hm]; simp only [ccWork, List.map_cons, List.sum_cons]; omega
      have hlt : ccWork precise (ccBody precise back ⟨rest, found⟩).pairs < m := by
        rw [← hm']; exact hw
      rw [ccLoop_cons]
      apply ih _ hlt _ _ rfl
      have grow : ∀ (s : CCState K) (a b : Cell K), ((∃ p ∈ s.pairs, L p) ∨ (∃ p ∈ s.found, L p)) →
          (∃ p ∈ (ccCheck precise s a b).pairs, L p) ∨ (∃ p ∈ (ccCheck precise s a b).found, L p) := by
        intro s a b h
        unfold ccCheck
        split
        · split
          · rcases h with h | ⟨p, hp, hl⟩
            · exact Or.inl h
            · exact Or.inr ⟨p, by simp [hp], hl⟩
          · rcases h with ⟨p, hp, hl⟩ | h
            · exact Or.inl ⟨p, by simp [hp], hl⟩
            · exact Or.inr h
        · exact h
      have born : ∀ (s : CCState K) (a b : Cell K), a.bbox.intersect b.bbox = true → L (a, b) →
          (∃ p ∈ (ccCheck precise s a b).pairs, L p) ∨ (∃ p ∈ (ccCheck precise s a b).found, L p) := by
        intro s a b hi hl
        unfold ccCheck
        rw [if_pos hi]
        split
        · exact Or.inr ⟨_, by simp, hl⟩
        · exact Or.inl ⟨_, by simp, hl⟩
      unfold ccBody
      dsimp only
      by_cases hr : (∃ p ∈ rest, L p) ∨ (∃ p ∈ found, L p)
      · exact grow _ _ _ (grow _ _ _ (grow _ _ _ (grow _ _ _ hr)))
      · have hb : L back := by
          rcases hs with ⟨p, hp, hl⟩ | h
          · rcases List.mem_cons.mp hp with rfl | hp
            · exact hl
            · exact absurd (Or.inl ⟨p, hp, hl⟩) hr
          · exact absurd (Or.inr h) hr
        obtain ⟨a, ha, b, hb, hi, hl⟩ := hL back hb
        simp only [List.mem_cons, List.not_mem_nil, or_false] at ha hb
        rcases ha with rfl | rfl <;> rcases hb with rfl | rfl
        · exact grow _ _ _ (grow _ _ _ (grow _ _ _ (born _ _ _ hi hl)))
        · exact grow _ _ _ (grow _ _ _ (born _ _ _ hi hl))
        · exact grow _ _ _ (born _ _ _ hi hl)
        · exact born _ _ _ hi hl

theorem uniqueFrom_sublist {α} (same : α → α → Bool) (k : α) (l : List α) : (uniqueFrom same k l).Sublist (k :: l) := by
  induction l generalizing k with
  | nil => exact List.Sublist.refl _
  | cons x xs ih =>
    unfold uniqueFrom
    split
    · exact (ih k).trans ((List.sublist_cons_self x xs).cons_cons k)
    · exact (ih x).cons_cons k

/-- `std::unique` keeps only given elements, in order. -/
theorem stdUnique_sublist {α} (same : α → α → Bool) (l : List α) : (stdUnique same l).Sublist l := by
  cases l with
  | nil => exact List.Sublist.refl _
  | cons x xs => exact uniqueFrom_sublist same x xs

theorem uniqueFrom_covers {α} (same : α → α → Bool) (k : α) (l : List α) :
    k ∈ uniqueFrom same k l ∧ ∀ x ∈ l, x ∈ uniqueFrom same k l ∨ ∃ y ∈ uniqueFrom same k l, same y x = true := by
  induction l generalizing k with
  | nil => simp [uniqueFrom]
  | cons a l ih =>
    unfold uniqueFrom
    by_cases h : same k a = true
    · rw [if_pos h]
      refine ⟨(ih k).1, ?_⟩
      intro x hx
      rcases List.mem_cons.mp hx with rfl | hx
      · exact Or.inr ⟨k, (ih k).1, h⟩
      · exact (ih k).2 x hx
    · rw [if_neg h]
      refine ⟨by simp, ?_⟩
      intro x hx
      rcases List.mem_cons.mp hx with rfl | hx
      · exact Or.inl (by simp [(ih x).1])
      · rcases (ih a).2 x hx with h' | ⟨y, hy, e⟩
        · exact Or.inl (by simp [h'])
        · exact Or.inr ⟨y, by simp [hy], e⟩

/-- Every element is kept or was dropped as the same as a kept one. -/
theorem stdUnique_covers {α} (same : α → α → Bool) (l : List α) (x : α) (hx : x ∈ l) :
    x ∈ stdUnique same l ∨ ∃ y ∈ stdUnique same l, same y x = true := by
  cases l with
  | nil => simp at hx
  | cons a l =>
    rcases List.mem_cons.mp hx with rfl | hx
    · exact Or.inl (uniqueFrom_covers same x l).1
    · exact (uniqueFrom_covers same a l).2 x hx

/-- C25, any arithmetic: at most nine records (the size of the result array), each with the first curve's point at its
own `t0`; nothing when the control boxes are apart. -/
theorem cubicIntersect_fits (sort) (b1 b2 : Cubic K) (precise : Int) :
    (cubicIntersect sort b1 b2 precise).length ≤ 9 ∧
    (∀ i ∈ cubicIntersect sort b1 b2 precise, i.p = b1.pointAt i.t0) := by
  unfold cubicIntersect
  dsimp only
  split
  · refine ⟨by simp, ?_⟩
    intro i hi
    obtain ⟨p, _, rfl⟩ := List.mem_map.mp hi
    rfl
  · simp

end any

section exact
variable {R : Type} [Field R] [LinearOrder R] [IsStrictOrderedRing R]

/-- Neighbouring control points differ by at most `M` in each coordinate. -/
def CtrlStep (c : Cubic R) (M : R) : Prop :=
  (|c.p1.x - c.p0.x| ≤ M ∧ |c.p2.x - c.p1.x| ≤ M ∧ |c.p3.x - c.p2.x| ≤ M) ∧
  (|c.p1.y - c.p0.y| ≤ M ∧ |c.p2.y - c.p1.y| ≤ M ∧ |c.p3.y - c.p2.y| ≤ M)

/-- All coordinates are representable as finite doubles. -/
def CtrlRange (c : Cubic R) : Prop :=
  ∀ p ∈ [c.p0, c.p1, c.p2, c.p3], -(dblMax : R) ≤ p.x ∧ p.x ≤ (dblMax : R) ∧ -(dblMax : R) ≤ p.y ∧ p.y ≤ (dblMax : R)

theorem split_ctrlStep (c : Cubic R) (M : R) (h : CtrlStep c M) :
    CtrlStep (c.split (FNum.lit (1 / 2))).1 (M / 2) ∧ CtrlStep (c.split (FNum.lit (1 / 2))).2 (M / 2) := by
  unfold CtrlStep at h ⊢
  simp only [abs_le] at h ⊢
  unfold Cubic.split Vec2.add Vec2.smul
  simp only [field_add, field_mul, field_sub, field_lit]
  push_cast
  obtain ⟨⟨⟨a1, a2⟩, ⟨a3, a4⟩, a5, a6⟩, ⟨b1, b2⟩, ⟨b3, b4⟩, b5, b6⟩ := h
  refine ⟨⟨⟨⟨?_, ?_⟩, ⟨?_, ?_⟩, ?_, ?_⟩, ⟨?_, ?_⟩, ⟨?_, ?_⟩, ?_, ?_⟩, ⟨⟨?_, ?_⟩, ⟨?_, ?_⟩, ?_, ?_⟩, ⟨?_, ?_⟩, ⟨?_, ?_⟩, ?_, ?_⟩
    <;> linarith

theorem split_ctrlRange (c : Cubic R) (h : CtrlRange c) :
    CtrlRange (c.split (FNum.lit (1 / 2))).1 ∧ CtrlRange (c.split (FNum.lit (1 / 2))).2 := by
  unfold CtrlRange at h ⊢
  simp only [List.mem_cons, List.not_mem_nil, or_false, forall_eq_or_imp, forall_eq] at h ⊢
  unfold Cubic.split Vec2.add Vec2.smul
  simp only [field_add, field_mul, field_sub, field_lit]
  push_cast
  obtain ⟨⟨a1, a2, a3, a4⟩, ⟨b1, b2, b3, b4⟩, ⟨c1, c2, c3, c4⟩, d1, d2, d3, d4⟩ := h
  refine ⟨⟨⟨?_, ?_, ?_, ?_⟩, ⟨?_, ?_, ?_, ?_⟩, ⟨?_, ?_, ?_, ?_⟩, ?_, ?_, ?_, ?_⟩,
    ⟨?_, ?_, ?_, ?_⟩, ⟨?_, ?_, ?_, ?_⟩, ⟨?_, ?_, ?_, ?_⟩, ?_, ?_, ?_, ?_⟩ <;> linarith

/-- What a cell of the subdivision of `b` is: the piece of `b` over the dyadic interval `[t0,t1]`. -/
structure CellOK (b : Cubic R) (c : Cell R) : Prop where
  bbox : c.bbox = roughRect c.bez
  iv : ∃ k : Nat, k + 1 ≤ 2 ^ c.recurse ∧ c.t0 = k / 2 ^ c.recurse ∧ c.t1 = (k + 1) / 2 ^ c.recurse
  ev : ∀ u, c.bez.pointAt u = b.pointAt (c.t0 + u * (c.t1 - c.t0))
  step : ∀ M, CtrlStep b M → CtrlStep c.bez (M / 2 ^ c.recurse)
  range : CtrlRange b → CtrlRange c.bez

theorem CellOK.root (b : Cubic R) : CellOK b ⟨b, roughRect b, FNum.lit 0, FNum.lit 1, 0⟩ := by
  refine ⟨rfl, ⟨0, by simp, by simp, by simp⟩, ?_, ?_, id⟩
  · intro u; simp
  · intro M h; simpa using h

theorem CellOK.subdive {b : Cubic R} {c : Cell R} (h : CellOK b c) : CellOK b c.subdive.1 ∧ CellOK b c.subdive.2 := by
  obtain ⟨hb, ⟨k, hk, e0, e1⟩, hev, hst, hra⟩ := h
  have h2 : (2 : R) ^ c.recurse ≠ 0 := by positivity
  have em : (c.t0 + c.t1) / 2 = (2 * k + 1) / 2 ^ (c.recurse + 1) := by
    rw [e0, e1, pow_succ]; field_simp; ring
  constructor
  · refine ⟨rfl, ⟨2 * k, ?_, ?_, ?_⟩, ?_, ?_, ?_⟩
    · simp only [Cell.subdive]; rw [pow_succ]; omega
    · simp only [Cell.subdive]; rw [e0, pow_succ]; push_cast; field_simp
    · simp only [Cell.subdive, field_add, field_div, field_lit]; push_cast; rw [em]
    · intro u
      simp only [Cell.subdive, field_add, field_div, field_lit]
      rw [(Cubic.split_eval _ _ _).1, hev]
      congr 1
      push_cast; ring
    · intro M hM
      simp only [Cell.subdive]
      have := (split_ctrlStep _ _ (hst M hM)).1
      rwa [show M / 2 ^ c.recurse / 2 = M / 2 ^ (c.recurse + 1) by rw [pow_succ]; field_simp] at this
    · intro hr; exact (split_ctrlRange _ (hra hr)).1
  · refine ⟨rfl, ⟨2 * k + 1, ?_, ?_, ?_⟩, ?_, ?_, ?_⟩
    · simp only [Cell.subdive]; rw [pow_succ]; omega
    · simp only [Cell.subdive, field_add, field_div, field_lit]; push_cast; rw [em]
    · simp only [Cell.subdive]; rw [e1, pow_succ]; push_cast; field_simp; ring
    · intro u
      simp only [Cell.subdive, field_add, field_div, field_lit]
      rw [(Cubic.split_eval _ _ _).2, hev]
      congr 1
      push_cast; ring
    · intro M hM
      simp only [Cell.subdive]
      have := (split_ctrlStep _ _ (hst M hM)).2
      rwa [show M / 2 ^ c.recurse / 2 = M / 2 ^ (c.recurse + 1) by rw [pow_succ]; field_simp] at this
    · intro hr; exact (split_ctrlRange _ (hra hr)).2

theorem CellOK.width {b : Cubic R} {c : Cell R} (h : CellOK b c) : c.t1 - c.t0 = 1 / 2 ^ c.recurse := by
  obtain ⟨k, _, e0, e1⟩ := h.iv
  rw [e0, e1]; ring

theorem CellOK.bounds {b : Cubic R} {c : Cell R} (h : CellOK b c) : 0 ≤ c.t0 ∧ c.t0 < c.t1 ∧ c.t1 ≤ 1 := by
  have hw := h.width
  obtain ⟨k, hk, e0, e1⟩ := h.iv
  have h2 : (0 : R) < 2 ^ c.recurse := by positivity
  refine ⟨by rw [e0]; positivity, ?_, ?_⟩
  · have : (0 : R) < 1 / 2 ^ c.recurse := by positivity
    linarith
  · rw [e1, div_le_one h2]; exact_mod_cast hk

/-- The control box contains the piece of the curve. -/
theorem roughRect_mem (c : Cubic R) (t : R) (h0 : 0 ≤ t) (h1 : t ≤ 1) : (roughRect c).Mem (c.pointAt t) := by
  have h := (Rect.foldl_extend [c.p0, c.p1, c.p2, c.p3] (Rect.start (K := R))).2.2.2.2.1
  exact Cubic.pointAt_mem_box c _ (h _ (by simp)) (h _ (by simp)) (h _ (by simp)) (h _ (by simp)) t h0 h1

theorem Rect.intersect_of_mem (r s : Rect R) (p : Vec2 R) (hr : r.Mem p) (hs : s.Mem p) : r.intersect s = true := by
  unfold Rect.Mem at *
  unfold Rect.intersect
  simp only [field_lt, Bool.not_eq_true', Bool.or_eq_false_iff, decide_eq_false_iff_not, not_lt]
  exact ⟨⟨⟨by linarith, by linarith⟩, by linarith⟩, by linarith⟩

theorem CellOK.mem {b : Cubic R} {c : Cell R} (h : CellOK b c) (s : R) (h0 : c.t0 ≤ s) (h1 : s ≤ c.t1) :
    c.bbox.Mem (b.pointAt s) := by
  have hb := h.bounds
  have hd : 0 < c.t1 - c.t0 := by linarith
  have e : b.pointAt s = c.bez.pointAt ((s - c.t0) / (c.t1 - c.t0)) := by
    rw [h.ev]; congr 1; field_simp; ring
  rw [e, h.bbox]
  apply roughRect_mem
  · apply div_nonneg <;> linarith
  · rw [div_le_one hd]; linarith

theorem roughRect_bbox (c : Cubic R) (h : CtrlRange c) : (roughRect c).IsBBox [c.p0, c.p1, c.p2, c.p3] :=
  Rect.of_isBBox _ (by simp) (by intro p hp; exact h p hp)

/-- A control box is at most three control steps wide and high. -/
theorem roughRect_size (c : Cubic R) (M : R) (hM : CtrlStep c M) (hr : CtrlRange c) :
    (roughRect c).max.x - (roughRect c).min.x ≤ 3 * M ∧ (roughRect c).max.y - (roughRect c).min.y ≤ 3 * M := by
  have hb := roughRect_bbox c hr
  obtain ⟨a, ha, ea⟩ := hb.left
  obtain ⟨b, hb', eb⟩ := hb.right
  obtain ⟨d, hd, ed⟩ := hb.bottom
  obtain ⟨e, he, ee⟩ := hb.top
  unfold CtrlStep at hM
  simp only [abs_le] at hM
  rw [← ea, ← eb, ← ed, ← ee]
  simp only [List.mem_cons, List.not_mem_nil, or_false] at ha hb' hd he
  constructor
  · rcases ha with rfl | rfl | rfl | rfl <;> rcases hb' with rfl | rfl | rfl | rfl <;> linarith
  · rcases hd with rfl | rfl | rfl | rfl <;> rcases he with rfl | rfl | rfl | rfl <;> linarith

/-- Depth of the cells that are reported. -/
def ccDepth (precise : Int) : Nat := precise.toNat + 1

theorem ccLoop_cells (b1 b2 : Cubic R) (precise : Int) (p : Cell R × Cell R)
    (hp : p ∈ ccLoop precise ⟨[(⟨b1, roughRect b1, FNum.lit 0, FNum.lit 1, 0⟩,
      ⟨b2, roughRect b2, FNum.lit 0, FNum.lit 1, 0⟩)], []⟩) :
    CellOK b1 p.1 ∧ CellOK b2 p.2 ∧ p.1.recurse = ccDepth precise ∧ p.2.recurse = ccDepth precise ∧
      p.1.bbox.intersect p.2.bbox = true := by
  refine ccLoop_inv precise
    (fun p => CellOK b1 p.1 ∧ CellOK b2 p.2 ∧ p.1.recurse = p.2.recurse ∧ ((p.1.recurse : Int) ≤ precise ∨ p.1.recurse = 0))
    (fun p => CellOK b1 p.1 ∧ CellOK b2 p.2 ∧ p.1.recurse = ccDepth precise ∧ p.2.recurse = ccDepth precise ∧
      p.1.bbox.intersect p.2.bbox = true) ?_ _ ?_ ?_ p hp
  · rintro ⟨c, d⟩ ⟨h1, h2, h3, h4⟩ a ha b hb hi
    dsimp only at h1 h2 h3 h4 ha hb ⊢
    have ra : a.recurse = c.recurse + 1 := by
      simp only [List.mem_cons, List.not_mem_nil, or_false] at ha; rcases ha with rfl | rfl <;> rfl
    have rb : b.recurse = d.recurse + 1 := by
      simp only [List.mem_cons, List.not_mem_nil, or_false] at hb; rcases hb with rfl | rfl <;> rfl
    have oa : CellOK b1 a := by
      simp only [List.mem_cons, List.not_mem_nil, or_false] at ha
      rcases ha with rfl | rfl
      · exact h1.subdive.1
      · exact h1.subdive.2
    have ob : CellOK b2 b := by
      simp only [List.mem_cons, List.not_mem_nil, or_false] at hb
      rcases hb with rfl | rfl
      · exact h2.subdive.1
      · exact h2.subdive.2
    constructor
    · intro hr
      refine ⟨oa, ob, ?_, ?_, hi⟩ <;> unfold ccDepth <;> omega
    · intro hr
      exact ⟨oa, ob, by omega, Or.inl (by omega)⟩
  · intro p hp
    rw [List.mem_singleton] at hp
    subst hp
    exact ⟨CellOK.root b1, CellOK.root b2, rfl, Or.inr rfl⟩
  · intro p hp; simp at hp

theorem ccLoop_common (b1 b2 : Cubic R) (precise : Int) (s t : R) (hs0 : 0 ≤ s) (hs1 : s ≤ 1) (ht0 : 0 ≤ t) (ht1 : t ≤ 1)
    (e : b1.pointAt s = b2.pointAt t) :
    ∃ p ∈ ccLoop precise ⟨[(⟨b1, roughRect b1, FNum.lit 0, FNum.lit 1, 0⟩,
      ⟨b2, roughRect b2, FNum.lit 0, FNum.lit 1, 0⟩)], []⟩,
      (p.1.t0 ≤ s ∧ s ≤ p.1.t1) ∧ p.2.t0 ≤ t ∧ t ≤ p.2.t1 := by
  have key := ccLoop_keeps precise
    (fun p => CellOK b1 p.1 ∧ CellOK b2 p.2 ∧ (p.1.t0 ≤ s ∧ s ≤ p.1.t1) ∧ p.2.t0 ≤ t ∧ t ≤ p.2.t1) ?_
    ⟨[(⟨b1, roughRect b1, FNum.lit 0, FNum.lit 1, 0⟩, ⟨b2, roughRect b2, FNum.lit 0, FNum.lit 1, 0⟩)], []⟩ ?_
  · obtain ⟨p, hp, _, _, h⟩ := key
    exact ⟨p, hp, h⟩
  · rintro ⟨c, d⟩ ⟨h1, h2, ⟨h3, h4⟩, h5, h6⟩
    dsimp only at h1 h2 h3 h4 h5 h6 ⊢
    have ha : ∃ a ∈ [c.subdive.1, c.subdive.2], CellOK b1 a ∧ a.t0 ≤ s ∧ s ≤ a.t1 := by
      rcases le_total s ((c.t0 + c.t1) / 2) with h | h
      · exact ⟨c.subdive.1, by simp, h1.subdive.1, h3, by simpa [Cell.subdive] using h⟩
      · exact ⟨c.subdive.2, by simp, h1.subdive.2, by simpa [Cell.subdive] using h, h4⟩
    have hb : ∃ a ∈ [d.subdive.1, d.subdive.2], CellOK b2 a ∧ a.t0 ≤ t ∧ t ≤ a.t1 := by
      rcases le_total t ((d.t0 + d.t1) / 2) with h | h
      · exact ⟨d.subdive.1, by simp, h2.subdive.1, h5, by simpa [Cell.subdive] using h⟩
      · exact ⟨d.subdive.2, by simp, h2.subdive.2, by simpa [Cell.subdive] using h, h6⟩
    obtain ⟨a, ha, oa, a0, a1⟩ := ha
    obtain ⟨b, hb, ob, b0, b1'⟩ := hb
    refine ⟨a, ha, b, hb, ?_, oa, ob, ⟨a0, a1⟩, b0, b1'⟩
    exact Rect.intersect_of_mem _ _ _ (oa.mem s a0 a1) (e ▸ ob.mem t b0 b1')
  · left
    exact ⟨_, List.mem_singleton.mpr rfl, CellOK.root b1, CellOK.root b2, ⟨by simpa using hs0, by simpa using hs1⟩, by simpa using ht0,
      by simpa using ht1⟩

/-- C25, exact: parameters strictly inside `(0,1)`; and when control points step by at most `M1`, `M2`, the reported
parameters are a near coincidence: the two curve points differ by at most `3(M1+M2)/2^(precise+1)` in each
coordinate. -/
theorem cubicIntersect_sound (sort) (hsort : IsSort (K := R) sort) (b1 b2 : Cubic R) (precise : Int) (M1 M2 : R)
    (hM1 : CtrlStep b1 M1) (hM2 : CtrlStep b2 M2) (hr1 : CtrlRange b1) (hr2 : CtrlRange b2) :
    ∀ i ∈ cubicIntersect sort b1 b2 precise, (0 < i.t0 ∧ i.t0 < 1) ∧ (0 < i.t1 ∧ i.t1 < 1) ∧ i.p = b1.pointAt i.t0 ∧
      |(b1.pointAt i.t0).x - (b2.pointAt i.t1).x| ≤ 3 * (M1 + M2) / 2 ^ ccDepth precise ∧
      |(b1.pointAt i.t0).y - (b2.pointAt i.t1).y| ≤ 3 * (M1 + M2) / 2 ^ ccDepth precise := by
  intro i hi
  unfold cubicIntersect at hi
  dsimp only at hi
  split at hi
  swap
  · simp at hi
  · obtain ⟨p, hp, rfl⟩ := List.mem_map.mp hi
    have hp1 := (stdUnique_sublist _ _).subset (List.mem_of_mem_take hp)
    have hp2 := (hsort _).1.subset hp1
    obtain ⟨o1, o2, r1, r2, hint⟩ := ccLoop_cells b1 b2 precise p hp2
    have w1 := o1.bounds
    have w2 := o2.bounds
    simp only [field_add, field_div, field_lit, Rat.cast_ofNat]
    have m1 := o1.mem ((p.1.t0 + p.1.t1) / 2) (by linarith) (by linarith)
    have m2 := o2.mem ((p.2.t0 + p.2.t1) / 2) (by linarith) (by linarith)
    have z1 := roughRect_size _ _ (o1.step M1 hM1) (o1.range hr1)
    have z2 := roughRect_size _ _ (o2.step M2 hM2) (o2.range hr2)
    rw [← o1.bbox, r1] at z1
    rw [← o2.bbox, r2] at z2
    have hsum : 3 * (M1 + M2) / 2 ^ ccDepth precise = 3 * (M1 / 2 ^ ccDepth precise) + 3 * (M2 / 2 ^ ccDepth precise) := by
      ring
    unfold Rect.intersect at hint
    simp only [field_lt, Bool.not_eq_true', Bool.or_eq_false_iff, decide_eq_false_iff_not, not_lt] at hint
    obtain ⟨⟨⟨i1, i2⟩, i3⟩, i4⟩ := hint
    unfold Rect.Mem at m1 m2
    rw [hsum]
    refine ⟨⟨by linarith, by linarith⟩, ⟨by linarith, by linarith⟩, trivial, ?_, ?_⟩ <;> rw [abs_le] <;> constructor <;> linarith

/-- C25, exact: unless the result array is full, every common point of the curves is reported up to `1e-8` plus half a
cell in the first curve's parameter. -/
theorem cubicIntersect_complete (sort) (hsort : IsSort (K := R) sort) (b1 b2 : Cubic R) (precise : Int) (s t : R)
    (hs0 : 0 ≤ s) (hs1 : s ≤ 1) (ht0 : 0 ≤ t) (ht1 : t ≤ 1) (e : b1.pointAt s = b2.pointAt t)
    (hroom : (cubicIntersect sort b1 b2 precise).length < 9) :
    ∃ i ∈ cubicIntersect sort b1 b2 precise, |i.t0 - s| ≤ 1 / 100000000 + 1 / 2 ^ (ccDepth precise + 1) := by
  have hbox : (roughRect b1).intersect (roughRect b2) = true :=
    Rect.intersect_of_mem _ _ _ (roughRect_mem b1 s hs0 hs1) (e ▸ roughRect_mem b2 t ht0 ht1)
  unfold cubicIntersect at hroom ⊢
  dsimp only at hroom ⊢
  rw [if_pos hbox] at hroom ⊢
  obtain ⟨p, hp, ⟨h1, h2⟩, _⟩ := ccLoop_common b1 b2 precise s t hs0 hs1 ht0 ht1 e
  set found := ccLoop (K := R) precise _ with hfound
  set uniq := stdUnique _ (sort found) with huniq
  have hall : uniq.take 9 = uniq := by
    apply List.take_of_length_le
    by_contra hlt
    rw [List.length_map, List.length_take] at hroom
    omega
  rw [hall]
  have hps : p ∈ sort found := (hsort _).1.symm.subset hp
  obtain ⟨q, hq, hqs⟩ : ∃ q ∈ uniq, |q.1.t0 - p.1.t0| ≤ 1 / 100000000 := by
    rcases stdUnique_covers (fun l r => fabs (l.1.t0 -. r.1.t0) <. FNum.lit (1 / 100000000)) (sort found) p hps with h | ⟨q, hq, h⟩
    · exact ⟨p, h, by simp⟩
    · refine ⟨q, hq, ?_⟩
      have habs : ∀ x : R, fabs x = |x| := by
        intro x; unfold fabs
        simp only [field_lt, field_lit, Rat.cast_zero, decide_eq_true_eq, field_neg]
        split
        · rw [abs_of_neg ‹_›]
        · rw [abs_of_nonneg (not_lt.mp ‹_›)]
      simp only [habs, field_sub, field_lt, decide_eq_true_eq, field_lit] at h
      push_cast at h
      exact h.le
  have hqf : q ∈ found := (hsort _).1.subset ((stdUnique_sublist _ _).subset hq)
  obtain ⟨oq, _, rq, _, _⟩ := ccLoop_cells b1 b2 precise q (hfound ▸ hqf)
  obtain ⟨op, _, rp, _, _⟩ := ccLoop_cells b1 b2 precise p (hfound ▸ hp)
  have wq := oq.width
  have wp := op.width
  rw [rq] at wq
  rw [rp] at wp
  refine ⟨_, List.mem_map_of_mem hq, ?_⟩
  simp only [field_add, field_div, field_lit, Rat.cast_ofNat]
  rw [show (1 : R) / 2 ^ (ccDepth precise + 1) = 1 / 2 ^ ccDepth precise / 2 by rw [pow_succ]; field_simp]
  rw [abs_le] at hqs ⊢
  constructor <;> linarith

/-- Every list can be sorted: the hypothesis `IsSort` is satisfiable. -/
theorem isSort_mergeSort : IsSort (K := R) (fun l => l.mergeSort (fun a b => decide (a.1.t0 ≤ b.1.t0))) := by
  intro l
  refine ⟨List.mergeSort_perm _ _, ?_⟩
  have := List.pairwise_mergeSort (le := fun a b : Cell R × Cell R => decide (a.1.t0 ≤ b.1.t0))
    (by intro a b c h1 h2; simp at *; exact h1.trans h2) (by intro a b; simp; exact le_total _ _) l
  exact this.imp (by intro a b h; simpa using h)

end exact

/-- The hypotheses are met by two straight cubics that cross. -/
example : CtrlStep (⟨⟨0, 0⟩, ⟨1, 1⟩, ⟨2, 2⟩, ⟨3, 3⟩⟩ : Cubic ℚ) 1 ∧ CtrlStep (⟨⟨0, 3⟩, ⟨1, 2⟩, ⟨2, 1⟩, ⟨3, 0⟩⟩ : Cubic ℚ) 1 ∧
    CtrlRange (⟨⟨0, 0⟩, ⟨1, 1⟩, ⟨2, 2⟩, ⟨3, 3⟩⟩ : Cubic ℚ) ∧
    (⟨⟨0, 0⟩, ⟨1, 1⟩, ⟨2, 2⟩, ⟨3, 3⟩⟩ : Cubic ℚ).pointAt (1 / 2) = (⟨⟨0, 3⟩, ⟨1, 2⟩, ⟨2, 1⟩, ⟨3, 0⟩⟩ : Cubic ℚ).pointAt (1 / 2) := by
  refine ⟨by unfold CtrlStep; norm_num, by unfold CtrlStep; norm_num, ?_, ?_⟩
  · unfold CtrlRange
    decide +kernel
  · decide +kernel

end River
