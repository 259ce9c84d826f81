import Verif.Lemmas.Cubic1D

set_option linter.unusedSectionVars false

/-! # Properties of cubic Bézier curves: evaluation and splitting (C16, C17) -/

namespace River
namespace Cubic

section Exact
variable {R : Type} [Field R] [LinearOrder R] [IsStrictOrderedRing R]

/-- C16: `point_at` evaluates the Bernstein form, for every curve and every parameter. -/
theorem pointAt_eq_eval (c : Cubic R) (t : R) : c.pointAt t = c.eval t := by
  unfold pointAt eval bern Vec2.smul Vec2.add
  ext <;> simp <;> ring

/-- C16: it is the point of de Casteljau's construction. -/
theorem pointAt_casteljau (c : Cubic R) (t : R) : c.pointAt t = c.casteljau t := by
  rw [pointAt_eq_eval]
  unfold casteljau eval bern lerp
  ext <;> simp <;> ring

/-- C16: the curve starts at the first control point. -/
theorem pointAt_zero (c : Cubic R) : c.pointAt 0 = c.p0 := by
  rw [pointAt_eq_eval]; unfold eval bern; ext <;> simp

/-- C16: the curve ends at the last control point. -/
theorem pointAt_one (c : Cubic R) : c.pointAt 1 = c.p3 := by
  rw [pointAt_eq_eval]; unfold eval bern; ext <;> simp

/-- C16: every half-plane containing the four control points contains the curve, i.e. the curve stays in their convex
hull. -/
theorem pointAt_halfplane (c : Cubic R) (A B C : R)
    (h0 : A * c.p0.x + B * c.p0.y ≤ C) (h1 : A * c.p1.x + B * c.p1.y ≤ C)
    (h2 : A * c.p2.x + B * c.p2.y ≤ C) (h3 : A * c.p3.x + B * c.p3.y ≤ C) (t : R) (ht0 : 0 ≤ t) (ht1 : t ≤ 1) :
    A * (c.pointAt t).x + B * (c.pointAt t).y ≤ C := by
  have hu : 0 ≤ 1 - t := by linarith
  rw [pointAt_eq_eval]
  have e : A * (c.eval t).x + B * (c.eval t).y =
      (1 - t) ^ 3 * (A * c.p0.x + B * c.p0.y) + 3 * (1 - t) ^ 2 * t * (A * c.p1.x + B * c.p1.y) +
      3 * (1 - t) * t ^ 2 * (A * c.p2.x + B * c.p2.y) + t ^ 3 * (A * c.p3.x + B * c.p3.y) := by
    unfold eval bern; ring
  have one : C = (1 - t) ^ 3 * C + 3 * (1 - t) ^ 2 * t * C + 3 * (1 - t) * t ^ 2 * C + t ^ 3 * C := by ring
  rw [e, one]
  have a0 := mul_le_mul_of_nonneg_left h0 (pow_nonneg hu 3)
  have a1 := mul_le_mul_of_nonneg_left h1 (mul_nonneg (mul_nonneg (by norm_num : (0:R) ≤ 3) (pow_nonneg hu 2)) ht0)
  have a2 := mul_le_mul_of_nonneg_left h2 (mul_nonneg (mul_nonneg (by norm_num : (0:R) ≤ 3) hu) (pow_nonneg ht0 2))
  have a3 := mul_le_mul_of_nonneg_left h3 (pow_nonneg ht0 3)
  linarith

/-- C16: any box containing the control points contains the curve; in particular `rect::from` of them. -/
theorem pointAt_mem_box (c : Cubic R) (b : Rect R) (h0 : b.Mem c.p0) (h1 : b.Mem c.p1) (h2 : b.Mem c.p2)
    (h3 : b.Mem c.p3) (t : R) (ht0 : 0 ≤ t) (ht1 : t ≤ 1) : b.Mem (c.pointAt t) := by
  unfold Rect.Mem at *
  have l := pointAt_halfplane c (-1) 0 (-b.min.x) (by linarith) (by linarith) (by linarith) (by linarith) t ht0 ht1
  have r := pointAt_halfplane c 1 0 b.max.x (by linarith) (by linarith) (by linarith) (by linarith) t ht0 ht1
  have d := pointAt_halfplane c 0 (-1) (-b.min.y) (by linarith) (by linarith) (by linarith) (by linarith) t ht0 ht1
  have u := pointAt_halfplane c 0 1 b.max.y (by linarith) (by linarith) (by linarith) (by linarith) t ht0 ht1
  refine ⟨?_, ?_, ?_, ?_⟩ <;> linarith

/-- C17: the first half traces the curve on `[0,t]`, the second on `[t,1]` — for every cut parameter and at every
position along the pieces. -/
theorem split_eval (c : Cubic R) (t s : R) :
    (c.split t).1.pointAt s = c.pointAt (s * t) ∧ (c.split t).2.pointAt s = c.pointAt (t + s * (1 - t)) := by
  simp only [pointAt_eq_eval]
  unfold split eval bern Vec2.smul Vec2.add
  constructor <;> ext <;> simp <;> ring

theorem splitLoop_eval (c : Cubic R) (ts : List R) (hts : ∀ t ∈ ts, t ≠ 1) (cur : Cubic R) (last : R) (hl : last ≠ 0)
    (hc : ∀ s, cur.pointAt s = c.pointAt ((1 - last) + s * last)) :
    (splitLoop cur last ts).length = ts.length + 1 ∧
    ∀ (i : Nat) (piece : Cubic R), (splitLoop cur last ts)[i]? = some piece →
      ∃ u v, ((1 - last) :: ts)[i]? = some u ∧ (ts ++ [1])[i]? = some v ∧
        ∀ s, piece.pointAt s = c.pointAt (u + s * (v - u)) := by
  induction ts generalizing cur last with
  | nil =>
    refine ⟨rfl, ?_⟩
    intro i piece h
    cases i with
    | zero =>
      simp only [splitLoop, List.getElem?_cons_zero, Option.some.injEq] at h
      subst h
      refine ⟨1 - last, 1, rfl, rfl, ?_⟩
      intro s; rw [hc]; congr 1; ring
    | succ n => simp [splitLoop] at h
  | cons t ts ih =>
    have ht : t ≠ 1 := hts t (by simp)
    have h1t : (1 - t) ≠ 0 := sub_ne_zero.mpr (Ne.symm ht)
    set o := cur.split ((t -. (FNum.lit 1 -. last)) /. last) with ho
    have hr : splitLoop cur last (t :: ts) = o.1 :: splitLoop o.2 (1 - t) ts := by
      simp [splitLoop, ho]
    have h1 : ∀ s, o.1.pointAt s = c.pointAt ((1 - last) + s * (t - (1 - last))) := by
      intro s
      rw [ho, (split_eval cur _ s).1, hc]
      congr 1; simp; field_simp
    have h2 : ∀ s, o.2.pointAt s = c.pointAt ((1 - (1 - t)) + s * (1 - t)) := by
      intro s
      rw [ho, (split_eval cur _ s).2, hc]
      congr 1; simp; field_simp; ring
    have := ih (fun x hx => hts x (by simp [hx])) o.2 (1 - t) h1t h2
    rw [hr]
    refine ⟨by simp [this.1], ?_⟩
    intro i piece h
    cases i with
    | zero =>
      simp only [List.getElem?_cons_zero, Option.some.injEq] at h
      subst h
      exact ⟨1 - last, t, rfl, rfl, h1⟩
    | succ n =>
      simp only [List.getElem?_cons_succ] at h
      obtain ⟨u, v, hu, hv, he⟩ := this.2 n piece h
      have e : (1 : R) - (1 - t) = t := by ring
      rw [e] at hu
      exact ⟨u, v, hu, hv, he⟩

/-- C17: cutting at `n` parameters (different from 1) gives `n+1` pieces; piece `i` traces the curve between the
consecutive parameters `0, t_1, …, t_n, 1` at positions `i` and `i+1`. -/
theorem splitMany_eval (c : Cubic R) (ts : List R) (hne : ts ≠ []) (hts : ∀ t ∈ ts, t ≠ 1) :
    (c.splitMany ts).length = ts.length + 1 ∧
    ∀ (i : Nat) (piece : Cubic R), (c.splitMany ts)[i]? = some piece →
      ∃ u v, (0 :: ts)[i]? = some u ∧ (ts ++ [1])[i]? = some v ∧
        ∀ s, piece.pointAt s = c.pointAt (u + s * (v - u)) := by
  obtain ⟨t, ts', rfl⟩ := List.exists_cons_of_ne_nil hne
  have := splitLoop_eval c (t :: ts') hts c 1 one_ne_zero (by intro s; congr 1; ring)
  simp only [sub_self] at this
  have e : c.splitMany (t :: ts') = splitLoop c 1 (t :: ts') := by simp [splitMany]
  rw [e]; exact this

example : (0 : ℚ) ≤ 1/3 ∧ (∀ t ∈ [(1/3 : ℚ), 3/4], t ≠ 1) := by
  refine ⟨by norm_num, ?_⟩
  intro t ht; simp at ht; rcases ht with rfl | rfl <;> norm_num

/-- Concrete run: the pieces of a curve cut at 1/4 and 3/4 meet at its points at these parameters. -/
example : let c : Cubic ℚ := ⟨⟨0, 0⟩, ⟨1, 3⟩, ⟨2, -2⟩, ⟨4, 1⟩⟩
    (c.splitMany [1/4, 3/4]).map (fun p => (p.p0, p.p3)) =
      [(⟨0, 0⟩, c.pointAt (1/4)), (c.pointAt (1/4), c.pointAt (3/4)), (c.pointAt (3/4), ⟨4, 1⟩)] := by
  decide +kernel

/-- Without the hypothesis the claim fails: at `t = 1` the loop divides by zero at the next parameter. -/
example : let c : Cubic (Ext ℚ) := ⟨⟨.fin 0, .fin 0⟩, ⟨.fin 1, .fin 3⟩, ⟨.fin 2, .fin (-2)⟩, ⟨.fin 4, .fin 1⟩⟩
    ((c.splitMany [.fin 1, .fin 1])[1]?).map (fun p => p.p3) = some ⟨.nan, .nan⟩ := by
  decide +kernel

end Exact

section Any
variable {K : Type} [FNum K]

theorem splitLoop_joins (ts : List K) (cur : Cubic K) (last : K) :
    List.IsChain (fun a b : Cubic K => a.p3 = b.p0) (splitLoop cur last ts) ∧
    (∃ h, (splitLoop cur last ts).head? = some h ∧ h.p0 = cur.p0) ∧
    (∃ l, (splitLoop cur last ts).getLast? = some l ∧ l.p3 = cur.p3) := by
  induction ts generalizing cur last with
  | nil => exact ⟨by simp [splitLoop], ⟨cur, rfl, rfl⟩, ⟨cur, rfl, rfl⟩⟩
  | cons t ts ih =>
    set o := cur.split ((t -. (FNum.lit 1 -. last)) /. last) with ho
    obtain ⟨h1, ⟨h, hh, hp⟩, ⟨l, hl, hq⟩⟩ := ih o.2 (FNum.lit 1 -. t)
    have hr : splitLoop cur last (t :: ts) = o.1 :: splitLoop o.2 (FNum.lit 1 -. t) ts := rfl
    rw [hr]
    cases hs : splitLoop o.2 (FNum.lit 1 -. t) ts with
    | nil => rw [hs] at hh; simp at hh
    | cons x xs =>
      rw [hs] at h1 hh hl
      simp only [List.head?_cons, Option.some.injEq] at hh
      subst hh
      refine ⟨?_, ⟨o.1, rfl, rfl⟩, ⟨l, ?_, hq⟩⟩
      · rw [List.isChain_cons_cons]; exact ⟨by rw [hp]; rfl, h1⟩
      · rw [List.getLast?_cons_cons]; exact hl

/-- C17, in any arithmetic (rounded doubles included): the pieces join exactly, the first starts at the start of the
curve and the last ends at its end. -/
theorem splitMany_joins (c : Cubic K) (ts : List K) (hne : ts ≠ []) :
    List.IsChain (fun a b : Cubic K => a.p3 = b.p0) (c.splitMany ts) ∧
    (∃ h, (c.splitMany ts).head? = some h ∧ h.p0 = c.p0) ∧
    (∃ l, (c.splitMany ts).getLast? = some l ∧ l.p3 = c.p3) := by
  obtain ⟨t, ts', rfl⟩ := List.exists_cons_of_ne_nil hne
  exact splitLoop_joins (t :: ts') c _

/-- C17, in any arithmetic: the two halves share the cut point and keep the end points. -/
theorem split_joins (c : Cubic K) (t : K) :
    (c.split t).1.p0 = c.p0 ∧ (c.split t).1.p3 = (c.split t).2.p0 ∧ (c.split t).2.p3 = c.p3 := ⟨rfl, rfl, rfl⟩

end Any

end Cubic
end River
