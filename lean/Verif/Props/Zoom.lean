import Verif.Model.Zoom
import Verif.Props.DoubleOrder
import Mathlib.Algebra.BigOperators.Group.List.Basic

/-! # C97: zooming in the viewer

What the user sees of a step by `(u, v)` in the scene is a step by `(sx·u, sy·v)` on the screen, whose second coordinate points down. -/

namespace River
namespace Viewer

/-- By how much an event with Alt should enlarge the picture: by one part in 2000 for each eighth of a degree; without Alt not at all. -/
def Wheel.enlarges {K : Type} [Field K] (w : Wheel) : K := if w.alt then 1 + w.delta / 2000 else 1

section exact
variable {K : Type} [Field K] [LinearOrder K] [IsStrictOrderedRing K] [FTrans K] [LawfulOrd K] [Exact K]
attribute [local instance 10000] FTrans.toFNum

theorem wheel_exact (s : Zoom K) (w : Wheel) : s.wheel w = ⟨s.sx * w.enlarges, s.sy * w.enlarges⟩ := by
  obtain ⟨alt, d⟩ := w
  cases alt with
  | false => simp [Zoom.wheel, Wheel.enlarges]
  | true =>
    have e : (Wheel.factor ⟨true, d⟩ : K) = 1 + (d : K) / 2000 := by
      simp only [Wheel.factor, Exact.add_eq, Exact.mul_eq, Exact.lit_eq]
      push_cast
      ring
    simp only [Zoom.wheel, if_true, e, Wheel.enlarges, Exact.mul_eq, Exact.lit_eq, eq_eq_decide, Rat.cast_one, decide_eq_true_eq]
    split
    · next h => rw [h]; simp
    · rfl

/-- **C97**: whatever wheel events there are, both directions are enlarged by the same factor, the product of the factors of the events, and the vertical direction is
mirrored. So shapes are not distorted, and the order of the events does not matter. -/
theorem zoom_factor (ws : List Wheel) : (Zoom.after ws : Zoom K) = ⟨(ws.map Wheel.enlarges).prod, -(ws.map Wheel.enlarges).prod⟩ := by
  have key : ∀ (ws : List Wheel) (s : Zoom K), ws.foldl Zoom.wheel s = ⟨s.sx * (ws.map Wheel.enlarges).prod, s.sy * (ws.map Wheel.enlarges).prod⟩ := by
    intro ws
    induction ws with
    | nil => intro s; simp
    | cons w ws ih =>
      intro s
      rw [List.foldl_cons, ih, wheel_exact, List.map_cons, List.prod_cons]
      simp only [mul_assoc]
  rw [Zoom.after, key]
  simp [Zoom.init, Exact.lit_eq]

/-- The order of the events does not matter. -/
theorem zoom_perm {ws ws' : List Wheel} (h : ws.Perm ws') : (Zoom.after ws : Zoom K) = Zoom.after ws' := by
  rw [zoom_factor, zoom_factor, (h.map _).prod_eq]

/-- **C97**, exactly: the picture stays upright and does not vanish during all of the events if and only if none of them, with Alt, turns the wheel back by 2000 eighths of
a degree or more. -/
theorem zoom_upright_iff_partial (ws : List Wheel) :
    (∀ us, us <+: ws → 0 < (Zoom.after us : Zoom K).sx ∧ (Zoom.after us : Zoom K).sy < 0) ↔ ∀ w ∈ ws, w.alt = true → -2000 < w.delta := by
  have pos : ∀ w : Wheel, (0 : K) < w.enlarges ↔ (w.alt = true → -2000 < w.delta) := by
    intro w
    unfold Wheel.enlarges
    split
    · next h =>
      simp only [h, forall_const]
      rw [← Int.cast_lt (R := K)]
      push_cast
      constructor
      · intro h; linarith
      · intro h; linarith
    · next h => simp [h]
  constructor
  · intro h w hw
    obtain ⟨a, b, rfl⟩ := List.append_of_mem hw
    have h1 := (h a ⟨w :: b, rfl⟩).1
    have h2 := (h (a ++ [w]) ⟨b, by simp⟩).1
    rw [zoom_factor] at h1 h2
    simp only [List.map_append, List.prod_append, List.map_cons, List.map_nil, List.prod_cons, List.prod_nil, mul_one] at h1 h2
    exact (pos w).1 ((pos_iff_pos_of_mul_pos h2).1 h1)
  · rintro h us ⟨vs, rfl⟩
    rw [zoom_factor]
    have : (0 : K) < (us.map Wheel.enlarges).prod := by
      refine List.prod_pos fun x hx => ?_
      obtain ⟨w, hw, rfl⟩ := List.mem_map.1 hx
      exact (pos w).2 (h w (List.mem_append_left _ hw))
    exact ⟨this, neg_lt_zero.2 this⟩

/-- Turning the wheel and turning it back makes the picture smaller: it is as before only if the wheel was not turned. -/
theorem zoom_back (ws : List Wheel) (d : ℤ) :
    (Zoom.after (ws ++ [⟨true, d⟩, ⟨true, -d⟩]) : Zoom K).sx = (Zoom.after ws : Zoom K).sx * (1 - (d / 2000) ^ 2) ∧
    ((Zoom.after ws : Zoom K).sx ≠ 0 → (Zoom.after (ws ++ [⟨true, d⟩, ⟨true, -d⟩]) : Zoom K) = Zoom.after ws → d = 0) := by
  have e : (Zoom.after (ws ++ [⟨true, d⟩, ⟨true, -d⟩]) : Zoom K).sx = (Zoom.after ws : Zoom K).sx * (1 - (d / 2000) ^ 2) := by
    rw [zoom_factor, zoom_factor]
    simp [Wheel.enlarges]
    ring_nf
    simp
  refine ⟨e, fun h0 h => ?_⟩
  rw [h] at e
  have h1 : (1 : K) - (d / 2000) ^ 2 = 1 := mul_left_cancel₀ h0 (by rw [← e, mul_one])
  have h2 : ((d : K) / 2000) ^ 2 = 0 := by linarith
  have h3 : (d : K) / 2000 = 0 := by simpa using h2
  rcases div_eq_zero_iff.1 h3 with h | h
  · exact_mod_cast h
  · norm_num at h

end exact

/-! ### IEEE doubles -/

/-- **C97** with IEEE doubles: both directions are always enlarged by the same amount, to the last bit. -/
theorem zoom_doubles_shape (ws : List Wheel) : (Zoom.after ws : Zoom Dbl).sy = FNum.neg (Zoom.after ws : Zoom Dbl).sx := by
  have key : ∀ (ws : List Wheel) (s : Zoom Dbl), s.sy = FNum.neg s.sx → (ws.foldl Zoom.wheel s).sy = FNum.neg (ws.foldl Zoom.wheel s).sx := by
    intro ws
    induction ws with
    | nil => intro s h; exact h
    | cons w ws ih =>
      intro s h
      refine ih _ ?_
      unfold Zoom.wheel
      dsimp only
      split_ifs
      · exact h
      · show Dbl.mul s.sy _ = Dbl.neg (Dbl.mul s.sx _)
        rw [h]
        show Dbl.mul (Dbl.neg s.sx) _ = _
        generalize (w.factor : Dbl) = c
        generalize s.sx = a
        have bb : ∀ p q : Bool, ((!p) != q) = !(p != q) := by decide
        cases a <;> cases c <;> simp only [Dbl.neg, Dbl.mul, bb]
        · unfold Dbl.round; dsimp only; split_ifs <;> rfl
        all_goals split_ifs <;> rfl
      · exact h
  exact key ws _ (by decide +kernel)

theorem rnd_le {q r : ℚ} (h0 : 0 ≤ q) (h : q ≤ r) (hr : Rep r) : rndMag q ≤ r := by
  have := rndMag_nearest h0 hr
  rw [abs_of_nonneg (sub_nonneg.2 h)] at this
  have := le_abs_self (rndMag q - q)
  linarith

theorem rnd_ge {q r : ℚ} (h0 : 0 ≤ q) (h : r ≤ q) (hr : Rep r) : r ≤ rndMag q := by
  have := rndMag_nearest h0 hr
  rw [abs_of_nonpos (sub_nonpos.2 h)] at this
  have := neg_abs_le (rndMag q - q)
  linarith

theorem rep_int {n : ℕ} (h : n < 2 ^ 53) : Rep n := ⟨n, 0, h, by norm_num, by simp⟩

theorem rep_half : Rep (4095 / 8192) ∧ Rep (4097 / 8192) ∧ Rep 1 ∧ Rep 0 :=
  ⟨⟨4095, -13, by norm_num, by norm_num, by norm_num⟩, ⟨4097, -13, by norm_num, by norm_num, by norm_num⟩, ⟨1, 0, by norm_num, by norm_num, by norm_num⟩,
    ⟨0, 0, by norm_num, by norm_num, by norm_num⟩⟩

theorem round_fin (s : Bool) {q : ℚ} {n : ℕ} (h0 : 0 ≤ q) (h : q ≤ n) (hn : n < 2 ^ 53) : Dbl.round s q = .num s (rndMag q) := by
  have h1 := rnd_le h0 h (rep_int hn)
  have h2 : (n : ℚ) ≤ dblMax := by
    refine le_trans (b := (2 : ℚ) ^ 53) (by exact_mod_cast hn.le) ?_
    decide +kernel
  unfold Dbl.round
  dsimp only
  rw [if_neg (not_lt.2 (h1.trans h2))]

/-- The factor computed for an event that does not turn the wheel back too fast. -/
theorem factor_ge (w : Wheel) (h : -999 ≤ w.delta) (h' : w.delta < 2 ^ 31) : ∃ m : ℚ, (w.factor : Dbl) = .num false m ∧ 4097 / 8192 ≤ m := by
  obtain ⟨alt, d⟩ := w
  dsimp only at h h'
  have hc : (FNum.lit (1 / 2000) : Dbl) = .num false (1152921504606847 / 2305843009213693952) := by decide +kernel
  have h1 : (FNum.lit 1 : Dbl) = .num false 1 := by decide +kernel
  unfold Wheel.factor
  rw [hc, h1]
  show ∃ m, Dbl.add _ (Dbl.mul (Dbl.lit (d : ℚ)) _) = _ ∧ _
  by_cases hd : d < 0
  · have hq : (d : ℚ) < 0 := by exact_mod_cast hd
    have hq' : -(d : ℚ) ≤ (999 : ℕ) := by
      have : (-999 : ℚ) ≤ d := by exact_mod_cast h
      push_cast; linarith
    have hq0 : 0 ≤ -(d : ℚ) := by linarith
    unfold Dbl.lit
    rw [if_pos hq, round_fin true hq0 hq' (by norm_num)]
    obtain ⟨a, ha⟩ : ∃ a, a = rndMag (-(d : ℚ)) := ⟨_, rfl⟩
    have ha1 : a ≤ 999 := by rw [ha]; exact_mod_cast rnd_le hq0 hq' (rep_int (by norm_num))
    have ha0 : 0 ≤ a := by rw [ha]; exact rnd_ge hq0 hq0 rep_half.2.2.2
    rw [← ha]
    have hp0 : 0 ≤ a * (1152921504606847 / 2305843009213693952) := by positivity
    have hp1 : a * (1152921504606847 / 2305843009213693952) ≤ 4095 / 8192 := by
      have : a * (1152921504606847 / 2305843009213693952) ≤ 999 * (1152921504606847 / 2305843009213693952) := by
        apply mul_le_mul_of_nonneg_right ha1; norm_num
      refine this.trans ?_
      norm_num
    rw [show Dbl.mul (.num true a) (.num false (1152921504606847 / 2305843009213693952)) = Dbl.round true (a * (1152921504606847 / 2305843009213693952)) from rfl,
      round_fin true (n := 1) hp0 (by push_cast; linarith) (by norm_num)]
    obtain ⟨b, hb⟩ : ∃ b, b = rndMag (a * (1152921504606847 / 2305843009213693952)) := ⟨_, rfl⟩
    have hb1 : b ≤ 4095 / 8192 := by rw [hb]; exact rnd_le hp0 hp1 rep_half.1
    have hb0 : 0 ≤ b := by rw [hb]; exact rnd_ge hp0 hp0 rep_half.2.2.2
    rw [← hb]
    unfold Dbl.add Dbl.val
    simp only [if_true, Bool.false_eq_true, if_false]
    rw [if_neg (by linarith), if_neg (by linarith), round_fin false (n := 1) (by linarith) (by push_cast; linarith) (by norm_num)]
    exact ⟨_, rfl, rnd_ge (by linarith) (by linarith) rep_half.2.1⟩
  · have hq0 : (0 : ℚ) ≤ d := by exact_mod_cast not_lt.1 hd
    have hq' : (d : ℚ) ≤ ((2 ^ 31 : ℕ) : ℚ) := by
      have : (d : ℚ) < 2 ^ 31 := by exact_mod_cast h'
      push_cast; linarith
    unfold Dbl.lit
    rw [if_neg (not_lt.2 hq0), round_fin false hq0 hq' (by norm_num)]
    obtain ⟨a, ha⟩ : ∃ a, a = rndMag (d : ℚ) := ⟨_, rfl⟩
    have ha1 : a ≤ ((2 ^ 31 : ℕ) : ℚ) := by rw [ha]; exact rnd_le hq0 hq' (rep_int (by norm_num))
    have ha0 : 0 ≤ a := by rw [ha]; exact rnd_ge hq0 hq0 rep_half.2.2.2
    rw [← ha]
    have hp0 : 0 ≤ a * (1152921504606847 / 2305843009213693952) := by positivity
    have hp1 : a * (1152921504606847 / 2305843009213693952) ≤ ((2 ^ 31 : ℕ) : ℚ) := by
      refine le_trans ?_ ha1
      have : a * (1152921504606847 / 2305843009213693952) ≤ a * 1 := by
        apply mul_le_mul_of_nonneg_left _ ha0; norm_num
      linarith
    rw [show Dbl.mul (.num false a) (.num false (1152921504606847 / 2305843009213693952)) = Dbl.round false (a * (1152921504606847 / 2305843009213693952)) from rfl,
      round_fin false hp0 hp1 (by norm_num)]
    obtain ⟨b, hb⟩ : ∃ b, b = rndMag (a * (1152921504606847 / 2305843009213693952)) := ⟨_, rfl⟩
    have hb1 : b ≤ ((2 ^ 31 : ℕ) : ℚ) := by rw [hb]; exact rnd_le hp0 hp1 (rep_int (by norm_num))
    have hb0 : 0 ≤ b := by rw [hb]; exact rnd_ge hp0 hp0 rep_half.2.2.2
    rw [← hb]
    unfold Dbl.add Dbl.val
    simp only [Bool.false_eq_true, if_false]
    rw [if_neg (by linarith), if_neg (by linarith), round_fin false (n := 2 ^ 31 + 1) (by linarith) (by push_cast at hb1 ⊢; linarith) (by norm_num)]
    exact ⟨_, rfl, rnd_ge (by linarith) (by linarith) rep_half.2.1⟩

/-- What rounding leaves of a positive representable number multiplied by more than one half is positive. -/
theorem rnd_pos {m c : ℚ} (hm : Rep m) (h0 : 0 < m) (hc : 1 / 2 < c) : 0 < rndMag (m * c) ∧ Rep (rndMag (m * c)) := by
  have hq : 0 ≤ m * c := by positivity
  refine ⟨lt_of_le_of_ne (rnd_ge hq hq rep_half.2.2.2) fun e => ?_, rndMag_rep hq⟩
  have := rndMag_nearest hq hm
  rw [← e, zero_sub, abs_neg, abs_of_nonneg hq] at this
  have h1 : |m - m * c| < m * c := by
    rw [abs_lt]
    constructor <;> nlinarith
  linarith

/-- **C97** with IEEE doubles: if no event turns the wheel back by 1000 eighths of a degree or more, the picture stays upright and does not vanish, however often it is
made smaller. (Made larger for long enough, the factor becomes infinite, see `zoom_overflow`.) -/
theorem zoom_doubles_upright_partial (ws : List Wheel) (h : ∀ w ∈ ws, -999 ≤ w.delta ∧ w.delta < 2 ^ 31) :
    (∃ m : ℚ, 0 < m ∧ (Zoom.after ws : Zoom Dbl).sx = .num false m) ∨ (Zoom.after ws : Zoom Dbl).sx = .inf false := by
  have key : ∀ (ws : List Wheel) (s : Zoom Dbl), (∀ w ∈ ws, -999 ≤ w.delta ∧ w.delta < 2 ^ 31) →
      ((∃ m : ℚ, (0 < m ∧ Rep m) ∧ s.sx = .num false m) ∨ s.sx = .inf false) →
      (∃ m : ℚ, (0 < m ∧ Rep m) ∧ (ws.foldl Zoom.wheel s).sx = .num false m) ∨ (ws.foldl Zoom.wheel s).sx = .inf false := by
    intro ws
    induction ws with
    | nil => intro s _ hs; exact hs
    | cons w ws ih =>
      intro s hw hs
      refine ih _ (fun v hv => hw v (List.mem_cons_of_mem _ hv)) ?_
      obtain ⟨c, hc, hc1⟩ := factor_ge w (hw w List.mem_cons_self).1 (hw w List.mem_cons_self).2
      unfold Zoom.wheel
      dsimp only
      split_ifs
      · exact hs
      · show (∃ m, _ ∧ Dbl.mul s.sx _ = _) ∨ Dbl.mul s.sx _ = _
        rw [hc]
        rcases hs with ⟨m, ⟨hm0, hm⟩, e⟩ | e
        · rw [e]
          have := rnd_pos hm hm0 (lt_of_lt_of_le (by norm_num) hc1)
          show (∃ m', _ ∧ Dbl.round false (m * c) = _) ∨ Dbl.round false (m * c) = _
          unfold Dbl.round
          dsimp only
          split_ifs
          · exact .inr rfl
          · exact .inl ⟨_, this, rfl⟩
        · rw [e]
          right
          show (if c = 0 then Dbl.nan else Dbl.inf false) = _
          rw [if_neg (by linarith)]
      · exact hs
  rcases key ws Zoom.init h (.inl ⟨1, ⟨by norm_num, rep_half.2.2.1⟩, by decide +kernel⟩) with ⟨m, hm, e⟩ | e
  · exact .inl ⟨m, hm.1, e⟩
  · exact .inr e

/-- C97 does not hold: an event that turns the wheel back by 2000 eighths of a degree makes everything vanish for good, one of 2400 turns the picture upside down; with
doubles 200 events of -1990 make it vanish, too. -/
theorem zoom_vanishes : (Zoom.after [⟨true, -2000⟩] : Zoom Dbl) = ⟨.num false 0, .num true 0⟩ ∧
    (Zoom.after [⟨true, -2000⟩, ⟨true, 120⟩] : Zoom Dbl) = ⟨.num false 0, .num true 0⟩ ∧
    (Zoom.after [⟨true, -2400⟩] : Zoom Dbl).sx = .num true (900719925474099 / 4503599627370496) ∧
    (Zoom.after (List.replicate 200 ⟨true, -1990⟩) : Zoom Dbl).sx = .num false 0 := by
  decide +kernel

/-- Made larger for long enough the factor is infinite. -/
theorem zoom_overflow : (Zoom.after (List.replicate 60 ⟨true, 2147483647⟩) : Zoom Dbl).sx = .inf false := by decide +kernel

/-- An ordinary case: two steps of a wheel with Alt, one without, one step back. -/
theorem zoom_case : (∀ w ∈ [(⟨true, 120⟩ : Wheel), ⟨true, 120⟩, ⟨false, -5000⟩, ⟨true, -120⟩], -2000 < w.delta ∨ w.alt = false) ∧
    ([(⟨true, 120⟩ : Wheel), ⟨true, 120⟩, ⟨false, -5000⟩, ⟨true, -120⟩].map Wheel.enlarges).prod = (1056184 / 1000000 : ℚ) := by
  refine ⟨by decide, ?_⟩
  norm_num [Wheel.enlarges]

end Viewer
end River
