import Verif.Spec.Numeral
import Mathlib.Tactic.FinCases

/-! # C06: every way of writing a number -/

namespace River
namespace Numeral
open DecLex

theorem digit_char (d : Fin 10) : (Char.ofNat (48 + d.val)).isDigit = true ∧ (Char.ofNat (48 + d.val)).toNat - 48 = d.val ∧
    Char.ofNat (48 + d.val) ≠ '+' ∧ Char.ofNat (48 + d.val) ≠ '-' ∧ Char.ofNat (48 + d.val) ≠ '.' := by
  fin_cases d <;> decide

theorem digits_run (ds : List (Fin 10)) {r : List Char} (hr : ∀ c ∈ r.head?, c.isDigit = false) (a k : ℕ) :
    digits a k (digitChars ds ++ r) = (ds.foldl (fun a d => a * 10 + d.val) a, k + ds.length, r) := by
  induction ds generalizing a k with
  | nil =>
    cases r with
    | nil => simp [digitChars, digits]
    | cons c cs =>
      have := hr c (by simp)
      simp [digitChars, digits, this]
  | cons d ds ih =>
    obtain ⟨h1, h2, -⟩ := digit_char d
    have e : digitChars (d :: ds) ++ r = Char.ofNat (48 + d.val) :: (digitChars ds ++ r) := rfl
    rw [e, digits, if_pos h1, h2, ih]
    simp [Nat.add_assoc, Nat.add_comm 1]

theorem sign_text (s : SignText) {r : List Char} (hr : ∀ c ∈ r.head?, c ≠ '+' ∧ c ≠ '-') :
    DecLex.sign (s.text ++ r) = (decide (s = .minus), r) := by
  cases s with
  | plus => rfl
  | minus => rfl
  | none =>
    show DecLex.sign r = _
    unfold DecLex.sign
    split
    · exact absurd rfl (hr '-' (by simp)).2
    · exact absurd rfl (hr '+' (by simp)).1
    · rfl

/-- What the reader does with sign, digits, point and digits, whatever follows that does not continue them. -/
theorem lex_mantissa (n : Numeral) (h : n.whole ++ n.frac.getD [] ≠ []) (hx : n.exp = none) {r : List Char}
    (hr : ∀ c ∈ r.head?, c.isDigit = false ∧ (n.frac = none → c ≠ '.')) :
    DecLex.lex (n.text ++ r) = some ((if n.sign = .minus then -1 else 1) * ((nat (n.whole ++ n.frac.getD []) : ℚ) * 10 ^ ((expo r).1 - ((n.frac.getD []).length : ℤ))), (expo r).2) := by
  obtain ⟨sg, wh, fr, ex⟩ := n
  dsimp only at *
  subst hx
  have hsign : ∀ t : List Char, (wh ≠ [] ∨ ∃ u, t = '.' :: u) → DecLex.sign (sg.text ++ (digitChars wh ++ t)) = (decide (sg = .minus), digitChars wh ++ t) := by
    intro t ht
    refine sign_text sg fun c hc => ?_
    cases wh with
    | nil =>
      obtain ⟨u, rfl⟩ := ht.resolve_left (by simp)
      simp [digitChars] at hc
      subst hc; decide
    | cons d ds =>
      simp [digitChars] at hc
      subst hc
      exact ⟨(digit_char d).2.2.1, (digit_char d).2.2.2.1⟩
  cases fr with
  | none =>
    have hw : wh ≠ [] := by simpa using h
    have e : Numeral.text ⟨sg, wh, none, none⟩ ++ r = sg.text ++ (digitChars wh ++ r) := by simp [Numeral.text, expText]
    have hfr : ∀ i, DecLex.frac i r = (i, 0, r) := by
      intro i
      unfold DecLex.frac
      split
      · exact absurd rfl ((hr '.' (by simp)).2 rfl)
      · rfl
    unfold DecLex.lex
    rw [e, hsign r (.inl hw)]
    dsimp only
    rw [digits_run wh (fun c hc => (hr c hc).1)]
    dsimp only
    rw [hfr]
    have : ¬ (0 + wh.length + 0 = 0) := by
      have := List.length_pos_of_ne_nil hw; omega
    rw [if_neg this]
    simp only [Option.getD_none, List.append_nil, decide_eq_true_eq, nat, List.length_nil]
    split <;> simp
  | some f =>
    have e : Numeral.text ⟨sg, wh, some f, none⟩ ++ r = sg.text ++ (digitChars wh ++ ('.' :: (digitChars f ++ r))) := by simp [Numeral.text, expText]
    unfold DecLex.lex
    rw [e, hsign _ (.inr ⟨_, rfl⟩)]
    dsimp only
    rw [digits_run wh (by simp)]
    dsimp only
    rw [show ∀ i t, DecLex.frac i ('.' :: t) = digits i 0 t from fun _ _ => rfl, digits_run f (fun c hc => (hr c hc).1)]
    dsimp only
    have : ¬ (0 + wh.length + (0 + f.length) = 0) := by
      intro hc
      apply h
      simp only [Option.getD_some, List.append_eq_nil_iff]
      exact ⟨List.length_eq_zero_iff.1 (by omega), List.length_eq_zero_iff.1 (by omega)⟩
    rw [if_neg this]
    simp only [Option.getD_some, decide_eq_true_eq, nat, List.foldl_append, Nat.zero_add]
    split <;> simp

/-- **C06**: every number written with a sign or none, digits with a point anywhere among them or none, and an exponent or none, with a small or capital letter, is read as
its value, up to the first character that does not continue it. -/
theorem lex_numeral (n : Numeral) (h : n.Valid) {r : List Char} (hr : Ends r) : DecLex.lex (n.text ++ r) = some (n.value, r) := by
  obtain ⟨sg, wh, fr, ex⟩ := n
  obtain ⟨h1, h2⟩ := h
  have e : (⟨sg, wh, fr, ex⟩ : Numeral).text ++ r =
      (⟨sg, wh, fr, none⟩ : Numeral).text ++ (expText ex ++ r) := by
    simp [Numeral.text, expText]
  rw [e]
  cases ex with
  | none =>
    rw [show expText none ++ r = r from rfl, lex_mantissa ⟨sg, wh, fr, none⟩ h1 rfl (fun c hc => ⟨(hr c hc).1, fun _ => (hr c hc).2.1⟩)]
    have : expo r = (0, r) := by
      unfold expo
      cases r with
      | nil => rfl
      | cons c t =>
        have := hr c (by simp)
        simp [this.2.2.1, this.2.2.2]
    simp [List.nil_append, this, Numeral.value, Numeral.exponent, mul_assoc]
  | some x =>
    obtain ⟨cap, s, ds⟩ := x
    have hds : ds ≠ [] := h2 (cap, s, ds) rfl
    rw [show expText (some (cap, s, ds)) = (if cap then 'E' else 'e') :: (s.text ++ digitChars ds) from rfl]
    rw [lex_mantissa ⟨sg, wh, fr, none⟩ h1 rfl (by intro c hc; cases cap <;> simp at hc <;> subst hc <;> exact ⟨by decide, fun _ => by decide⟩)]
    have hsg : DecLex.sign (s.text ++ (digitChars ds ++ r)) = (decide (s = .minus), digitChars ds ++ r) := by
      refine sign_text s fun c hc => ?_
      cases ds with
      | nil => exact absurd rfl hds
      | cons d ds =>
        simp [digitChars] at hc
        subst hc
        exact ⟨(digit_char d).2.2.1, (digit_char d).2.2.2.1⟩
    have : expo ((if cap then 'E' else 'e') :: (s.text ++ digitChars ds) ++ r) = ((if s = .minus then -(nat ds : ℤ) else nat ds), r) := by
      unfold expo
      simp only [List.cons_append, List.append_assoc]
      rw [if_pos (by cases cap <;> simp), hsg]
      dsimp only
      rw [digits_run ds (fun c hc => (hr c hc).1)]
      dsimp only
      have : ¬ (0 + ds.length = 0) := by
        have := List.length_pos_of_ne_nil hds; omega
      rw [if_neg this]
      simp [nat]
    rw [this]
    simp [Numeral.value, Numeral.exponent, mul_assoc]

/-- **C06**: a letter `e` after a number that no digits follow does not belong to it. -/
theorem lex_lone_letter (n : Numeral) (h : n.whole ++ n.frac.getD [] ≠ []) (hx : n.exp = none) (c : Char) (hc : c = 'e' ∨ c = 'E') (s : SignText) (r : List Char)
    (hr : ∀ c ∈ r.head?, c.isDigit = false ∧ c ≠ '+' ∧ c ≠ '-') :
    DecLex.lex (n.text ++ c :: (s.text ++ r)) = some (n.value, c :: (s.text ++ r)) := by
  rw [lex_mantissa n h hx (by intro d hd; simp at hd; subst hd; rcases hc with rfl | rfl <;> exact ⟨by decide, fun _ => by decide⟩)]
  have : expo (c :: (s.text ++ r)) = (0, c :: (s.text ++ r)) := by
    unfold expo
    dsimp only
    rw [if_pos hc, sign_text s (fun c hc => (hr c hc).2)]
    have e := digits_run [] (fun c hc => (hr c hc).1) 0 0
    simp only [digitChars, List.map_nil, List.nil_append, List.foldl_nil, List.length_nil] at e
    simp only [e]
    rfl
  rw [this]
  simp [Numeral.value, Numeral.exponent, hx, mul_assoc]

/-- Cases: `+.5E+2,` is read as 50 up to the comma, `-12e` as -12 up to the letter. -/
theorem numeral_cases : (⟨.plus, [], some [5], some (true, .plus, [2])⟩ : Numeral).Valid ∧
    (⟨.plus, [], some [5], some (true, .plus, [2])⟩ : Numeral).text = "+.5E+2".toList ∧
    DecLex.lex "+.5E+2,".toList = some (50, [',']) ∧ DecLex.lex "-12e".toList = some (-12, ['e']) := by
  refine ⟨⟨by simp, by simp⟩, by decide, ?_, ?_⟩ <;> decide +kernel

end Numeral
end River
