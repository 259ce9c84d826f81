import Verif.Props.Zoom

/-! # C97 with IEEE doubles: the picture is never turned over -/

namespace River
namespace Viewer

theorem rep_fine : Rep (8191 / 8192) ∧ Rep (1 / 8192) ∧ Rep (4097 / 4096) ∧ Rep (1 / 4096) :=
  ⟨⟨8191, -13, by norm_num, by norm_num, by norm_num⟩, ⟨1, -13, by norm_num, by norm_num, by norm_num⟩, ⟨4097, -12, by norm_num, by norm_num, by norm_num⟩,
    ⟨1, -12, by norm_num, by norm_num, by norm_num⟩⟩

/-- **C97**, IEEE doubles: the factor computed for an event is positive exactly if the wheel is turned back by less than 2000 eighths of a degree, zero for 2000, and
negative beyond, for all angles that are `int`s. -/
theorem factor_sign (w : Wheel) (h : -2 ^ 31 ≤ w.delta) (h' : w.delta < 2 ^ 31) :
    (-2000 < w.delta → ∃ m : ℚ, (w.factor : Dbl) = .num false m ∧ 0 < m) ∧ (w.delta = -2000 → (w.factor : Dbl) = .num false 0) ∧
    (w.delta < -2000 → ∃ m : ℚ, (w.factor : Dbl) = .num true m ∧ 0 < m) := by
  by_cases hbig : -999 ≤ w.delta
  · obtain ⟨m, e, hm⟩ := factor_ge w hbig h'
    exact ⟨fun _ => ⟨m, e, by linarith⟩, fun hc => by omega, fun hc => by omega⟩
  obtain ⟨alt, d⟩ := w
  dsimp only at h h' hbig ⊢
  have hc : (FNum.lit (1 / 2000) : Dbl) = .num false (1152921504606847 / 2305843009213693952) := by decide +kernel
  have h1 : (FNum.lit 1 : Dbl) = .num false 1 := by decide +kernel
  have hq : (d : ℚ) < 0 := by exact_mod_cast (show d < 0 by omega)
  have hq' : -(d : ℚ) ≤ ((2 ^ 31 : ℕ) : ℚ) := by
    have : ((-2 ^ 31 : ℤ) : ℚ) ≤ d := by exact_mod_cast h
    push_cast at this ⊢; linarith
  have hq0 : 0 ≤ -(d : ℚ) := by linarith
  have e0 : (Wheel.factor ⟨alt, d⟩ : Dbl) = Dbl.add (.num false 1) (Dbl.mul (.num true (rndMag (-(d : ℚ)))) (.num false (1152921504606847 / 2305843009213693952))) := by
    unfold Wheel.factor
    rw [hc, h1]
    show Dbl.add _ (Dbl.mul (Dbl.lit (d : ℚ)) _) = _
    unfold Dbl.lit
    rw [if_pos hq, round_fin true hq0 hq' (by norm_num)]
  refine ⟨fun hd => ?_, fun hd => ?_, fun hd => ?_⟩
  · have hd' : -(d : ℚ) ≤ ((1999 : ℕ) : ℚ) := by
      have : ((-1999 : ℤ) : ℚ) ≤ d := by exact_mod_cast (show -1999 ≤ d by omega)
      push_cast at this ⊢; linarith
    rw [e0]
    obtain ⟨a, ha⟩ : ∃ a, a = rndMag (-(d : ℚ)) := ⟨_, rfl⟩
    have ha1 : a ≤ 1999 := by rw [ha]; exact_mod_cast rnd_le hq0 hd' (rep_int (by norm_num))
    have ha0 : 0 ≤ a := by rw [ha]; exact rnd_ge hq0 hq0 rep_half.2.2.2
    rw [← ha]
    have hp0 : 0 ≤ a * (1152921504606847 / 2305843009213693952) := by positivity
    have hp1 : a * (1152921504606847 / 2305843009213693952) ≤ 8191 / 8192 := by
      have : a * (1152921504606847 / 2305843009213693952) ≤ 1999 * (1152921504606847 / 2305843009213693952) := by
        apply mul_le_mul_of_nonneg_right ha1; norm_num
      refine this.trans ?_
      norm_num
    rw [show Dbl.mul (.num true a) (.num false (1152921504606847 / 2305843009213693952)) = Dbl.round true (a * (1152921504606847 / 2305843009213693952)) from rfl,
      round_fin true (n := 1) hp0 (by push_cast; linarith) (by norm_num)]
    obtain ⟨b, hb⟩ : ∃ b, b = rndMag (a * (1152921504606847 / 2305843009213693952)) := ⟨_, rfl⟩
    have hb1 : b ≤ 8191 / 8192 := by rw [hb]; exact rnd_le hp0 hp1 rep_fine.1
    have hb0 : 0 ≤ b := by rw [hb]; exact rnd_ge hp0 hp0 rep_half.2.2.2
    rw [← hb]
    unfold Dbl.add Dbl.val
    simp only [if_true, Bool.false_eq_true, if_false]
    rw [if_neg (by linarith), if_neg (by linarith), round_fin false (n := 1) (by linarith) (by push_cast; linarith) (by norm_num)]
    exact ⟨_, rfl, lt_of_lt_of_le (by norm_num) (rnd_ge (by linarith) (by linarith) rep_fine.2.1)⟩
  · subst hd
    cases alt <;> decide +kernel
  · have hd' : ((2001 : ℕ) : ℚ) ≤ -(d : ℚ) := by
      have : (d : ℚ) ≤ ((-2001 : ℤ) : ℚ) := by exact_mod_cast (show d ≤ -2001 by omega)
      push_cast at this ⊢; linarith
    rw [e0]
    obtain ⟨a, ha⟩ : ∃ a, a = rndMag (-(d : ℚ)) := ⟨_, rfl⟩
    have ha1 : a ≤ ((2 ^ 31 : ℕ) : ℚ) := by rw [ha]; exact rnd_le hq0 hq' (rep_int (by norm_num))
    have ha0 : 2001 ≤ a := by rw [ha]; exact_mod_cast rnd_ge hq0 hd' (rep_int (by norm_num))
    rw [← ha]
    have hp0 : 4097 / 4096 ≤ a * (1152921504606847 / 2305843009213693952) := by
      have : 2001 * (1152921504606847 / 2305843009213693952) ≤ a * (1152921504606847 / 2305843009213693952) := by
        apply mul_le_mul_of_nonneg_right ha0; norm_num
      refine le_trans ?_ this
      norm_num
    have hp1 : a * (1152921504606847 / 2305843009213693952) ≤ ((2 ^ 31 : ℕ) : ℚ) := by
      refine le_trans ?_ ha1
      have : a * (1152921504606847 / 2305843009213693952) ≤ a * 1 := by
        apply mul_le_mul_of_nonneg_left _ (by linarith); norm_num
      linarith
    rw [show Dbl.mul (.num true a) (.num false (1152921504606847 / 2305843009213693952)) = Dbl.round true (a * (1152921504606847 / 2305843009213693952)) from rfl,
      round_fin true (by linarith) hp1 (by norm_num)]
    obtain ⟨b, hb⟩ : ∃ b, b = rndMag (a * (1152921504606847 / 2305843009213693952)) := ⟨_, rfl⟩
    have hb1 : b ≤ ((2 ^ 31 : ℕ) : ℚ) := by rw [hb]; exact rnd_le (by linarith) hp1 (rep_int (by norm_num))
    have hb0 : 4097 / 4096 ≤ b := by rw [hb]; exact rnd_ge (by linarith) hp0 rep_fine.2.2.1
    rw [← hb]
    unfold Dbl.add Dbl.val
    simp only [if_true, Bool.false_eq_true, if_false]
    rw [if_neg (by linarith), if_pos (by linarith), round_fin true (n := 2 ^ 31) (by linarith) (by push_cast at hb1 ⊢; linarith) (by norm_num)]
    exact ⟨_, rfl, lt_of_lt_of_le (by norm_num) (rnd_ge (by linarith) (by linarith) rep_fine.2.2.2)⟩

/-- **C97** with IEEE doubles: as long as every event with Alt turns the wheel back by less than 2000 eighths of a degree the picture is never turned over and its
scale is always a number or infinite. (It may vanish by underflow, see `zoom_vanishes`.) -/
theorem zoom_doubles_never_turned_partial (ws : List Wheel) (h : ∀ w ∈ ws, w.alt = true → -2000 < w.delta ∧ w.delta < 2 ^ 31) :
    (∃ m : ℚ, 0 ≤ m ∧ (Zoom.after ws : Zoom Dbl).sx = .num false m) ∨ (Zoom.after ws : Zoom Dbl).sx = .inf false := by
  have key : ∀ (ws : List Wheel) (s : Zoom Dbl), (∀ w ∈ ws, w.alt = true → -2000 < w.delta ∧ w.delta < 2 ^ 31) →
      ((∃ m : ℚ, 0 ≤ m ∧ s.sx = .num false m) ∨ s.sx = .inf false) →
      (∃ m : ℚ, 0 ≤ m ∧ (ws.foldl Zoom.wheel s).sx = .num false m) ∨ (ws.foldl Zoom.wheel s).sx = .inf false := by
    intro ws
    induction ws with
    | nil => intro s _ hs; exact hs
    | cons w ws ih =>
      intro s hw hs
      refine ih _ (fun v hv => hw v (List.mem_cons_of_mem _ hv)) ?_
      unfold Zoom.wheel
      dsimp only
      split_ifs with ha
      · exact hs
      · obtain ⟨l, u⟩ := hw w List.mem_cons_self ha
        obtain ⟨c, hc, hc1⟩ := (factor_sign w (by linarith) u).1 l
        show (∃ m, _ ∧ Dbl.mul s.sx _ = _) ∨ Dbl.mul s.sx _ = _
        rw [hc]
        rcases hs with ⟨m, hm, e⟩ | e
        · rw [e]
          have hq : 0 ≤ m * c := by positivity
          show (∃ m', _ ∧ Dbl.round false (m * c) = _) ∨ Dbl.round false (m * c) = _
          unfold Dbl.round
          dsimp only
          split_ifs
          · exact .inr rfl
          · exact .inl ⟨_, rnd_ge hq hq rep_half.2.2.2, rfl⟩
        · rw [e]
          right
          show (if c = 0 then Dbl.nan else Dbl.inf false) = _
          rw [if_neg hc1.ne']
      · exact hs
  exact key ws Zoom.init h (.inl ⟨1, by norm_num, by decide +kernel⟩)

/-- And an event beyond that does turn it over: after events that do not, one that turns the wheel back by more than 2000 eighths of a degree makes the sign of the scale
negative. -/
theorem zoom_doubles_turned (ws : List Wheel) (h : ∀ w ∈ ws, w.alt = true → -2000 < w.delta ∧ w.delta < 2 ^ 31) (d : ℤ) (hd : -2 ^ 31 ≤ d) (hd' : d < -2000) :
    (∃ m : ℚ, 0 ≤ m ∧ (Zoom.after (ws ++ [⟨true, d⟩]) : Zoom Dbl).sx = .num true m) ∨ (Zoom.after (ws ++ [⟨true, d⟩]) : Zoom Dbl).sx = .inf true := by
  have hs := zoom_doubles_never_turned_partial ws h
  obtain ⟨c, hc, hc1⟩ := (factor_sign ⟨true, d⟩ hd (by dsimp only; omega)).2.2 hd'
  have e : (Zoom.after (ws ++ [⟨true, d⟩]) : Zoom Dbl) = Zoom.wheel (Zoom.after ws) ⟨true, d⟩ := by
    unfold Zoom.after
    rw [List.foldl_append]; rfl
  rw [e]
  generalize (Zoom.after ws : Zoom Dbl) = s at hs
  have hne : ((Wheel.factor ⟨true, d⟩ : Dbl) ==. FNum.lit 1) = false := by
    rw [hc]
    have h1 : (FNum.lit 1 : Dbl) = .num false 1 := by decide +kernel
    rw [h1]
    show Dbl.eq _ _ = false
    simp [Dbl.eq, Dbl.val]
    linarith
  unfold Zoom.wheel
  dsimp only
  rw [if_pos rfl, hne, if_neg (by simp)]
  show (∃ m, _ ∧ Dbl.mul s.sx _ = _) ∨ Dbl.mul s.sx _ = _
  rw [hc]
  rcases hs with ⟨m, hm, e⟩ | e
  · rw [e]
    have hq : 0 ≤ m * c := by positivity
    show (∃ m', _ ∧ Dbl.round true (m * c) = _) ∨ Dbl.round true (m * c) = _
    unfold Dbl.round
    dsimp only
    split_ifs
    · exact .inr rfl
    · exact .inl ⟨_, rnd_ge hq hq rep_half.2.2.2, rfl⟩
  · rw [e]
    right
    show (if c = 0 then Dbl.nan else Dbl.inf true) = _
    rw [if_neg hc1.ne']

/-- A case of both: a notch forwards, then 1900 back; then 2400 back. -/
theorem zoom_turned_case : (∀ w ∈ [(⟨true, 120⟩ : Wheel), ⟨true, -1900⟩], w.alt = true → -2000 < w.delta ∧ w.delta < 2 ^ 31) ∧
    (Zoom.after [⟨true, 120⟩, ⟨true, -1900⟩] : Zoom Dbl).sx = .num false (7638104968020351 / 144115188075855872) ∧
    (Zoom.after [⟨true, 120⟩, ⟨true, -1900⟩, ⟨true, -2400⟩] : Zoom Dbl).sx = .num true (6110483974416279 / 576460752303423488) := by
  decide +kernel

end Viewer
end River
