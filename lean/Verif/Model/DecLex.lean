import Verif.Spec.MakePath
import Mathlib.Tactic.IntervalCases

/-!
# A concrete decimal number reader

`qi::double_` is third-party code; the theorems about `make_path` hold for every `NumLex`.  This file gives one
concrete instance (optional sign, digits, optional fraction, optional exponent; exact rational value, no rounding, the
words `inf` and `nan` not recognised) together with a printer that satisfies the `Printer` laws, so the hypotheses of
those theorems are met by a real syntax.  It is used only as an instance (`/repo/src/src/river.cpp:53` uses `double_`).
-/

namespace River
namespace DecLex

/-- Value of a run of decimal digits: accumulated value, number of digits, rest (part of `double_`, `river.cpp:53`). -/
def digits (acc cnt : Nat) : List Char → Nat × Nat × List Char
  | [] => (acc, cnt, [])
  | c :: cs => if c.isDigit then digits (acc * 10 + (c.toNat - 48)) (cnt + 1) cs else (acc, cnt, c :: cs)

/-- Optional sign (part of `double_`, `river.cpp:53`). -/
def sign : List Char → Bool × List Char
  | '-' :: s => (true, s)
  | '+' :: s => (false, s)
  | s => (false, s)

/-- Fraction part: continue accumulating after a point (part of `double_`, `river.cpp:53`). -/
def frac (i : Nat) : List Char → Nat × Nat × List Char
  | '.' :: t => digits i 0 t
  | s => (i, 0, s)

/-- Optional exponent; without digits after the letter nothing is consumed (part of `double_`, `river.cpp:53`). -/
def expo (s : List Char) : Int × List Char :=
  match s with
  | [] => (0, [])
  | c :: t =>
    if c = 'e' ∨ c = 'E' then
      let sg := sign t
      let d := digits 0 0 sg.2
      if d.2.1 = 0 then (0, s) else ((if sg.1 then -(d.1 : Int) else d.1), d.2.2)
    else (0, s)

/-- The reader (part of `double_`, `river.cpp:53`). -/
def lex (s : List Char) : Option (Rat × List Char) :=
  let sg := sign s
  let d := digits 0 0 sg.2
  let f := frac d.1 d.2.2
  if d.2.1 + f.2.1 = 0 then none
  else
    let e := expo f.2.2
    let v : Rat := (f.1 : Rat) * (10 : Rat) ^ (e.1 - f.2.1)
    some (if sg.1 then -v else v, e.2)

theorem digits_length (s : List Char) (acc cnt : Nat) :
    (digits acc cnt s).2.2.length + (digits acc cnt s).2.1 = s.length + cnt := by
  induction s generalizing acc cnt with
  | nil => simp [digits]
  | cons c cs ih =>
    unfold digits; split
    · rw [ih]; simp; omega
    · rfl

theorem sign_length (s : List Char) : (sign s).2.length ≤ s.length := by
  unfold sign; split <;> simp

theorem frac_length (i : Nat) (s : List Char) : (frac i s).2.2.length + (frac i s).2.1 ≤ s.length := by
  unfold frac; split
  · rename_i t; have := digits_length t i 0; simp; omega
  · simp

theorem expo_length (s : List Char) : (expo s).2.length ≤ s.length := by
  unfold expo
  split
  · simp
  · rename_i c t
    split
    · simp only
      split
      · simp
      · have := digits_length (sign t).2 0 0
        have := sign_length t
        simp; omega
    · simp

/-- The instance (part of `double_`, `river.cpp:53`). -/
def decLex : NumLex Rat where
  lex := lex
  shorter := by
    intro s k r h
    unfold lex at h
    simp only at h
    split at h
    · cases h
    · injection h with h
      injection h with h1 h2
      rw [← h2]
      have h3 := expo_length (frac (digits 0 0 (sign s).2).1 (digits 0 0 (sign s).2).2.2).2.2
      have h4 := frac_length (digits 0 0 (sign s).2).1 (digits 0 0 (sign s).2).2.2
      have h5 := digits_length (sign s).2 0 0
      have h6 := sign_length s
      omega

/-- Digit character (not in the code: a text for `double_`, `river.cpp:53`). -/
def dig (n : Nat) : Char := Char.ofNat (48 + n)

/-- Decimal digits of a natural number (not in the code: a text for `double_`, `river.cpp:53`). -/
def natDigits (n : Nat) : List Char :=
  if n < 10 then [dig n] else natDigits (n / 10) ++ [dig (n % 10)]
  termination_by n

theorem dig_isDigit {n : Nat} (h : n < 10) : (dig n).isDigit = true := by
  interval_cases n <;> decide
theorem dig_val {n : Nat} (h : n < 10) : (dig n).toNat - 48 = n := by
  interval_cases n <;> decide

theorem digits_append (s rest : List Char) (acc cnt : Nat) (hs : ∀ c ∈ s, c.isDigit = true) :
    digits acc cnt (s ++ rest) = digits (digits acc cnt s).1 (digits acc cnt s).2.1 rest := by
  induction s generalizing acc cnt with
  | nil => simp [digits]
  | cons c cs ih =>
    have hc := hs c (by simp)
    simp only [List.cons_append, digits, hc, if_true]
    exact ih _ _ (fun d hd => hs d (by simp [hd]))

theorem natDigits_isDigit (n : Nat) : ∀ c ∈ natDigits n, c.isDigit = true := by
  fun_induction natDigits n with
  | case1 n h => intro c hc; simp at hc; subst hc; exact dig_isDigit h
  | case2 n h ih =>
    intro c hc
    rcases List.mem_append.mp hc with hc | hc
    · exact ih c hc
    · simp at hc; subst hc; exact dig_isDigit (Nat.mod_lt _ (by norm_num))

theorem natDigits_ne (n : Nat) : natDigits n ≠ [] := by
  unfold natDigits; split <;> simp

theorem digits_stop (acc cnt : Nat) (rest : List Char) (hr : ∀ c t, rest = c :: t → c.isDigit = false) :
    digits acc cnt rest = (acc, cnt, rest) := by
  cases rest with
  | nil => rfl
  | cons c t => simp [digits, hr c t rfl]

theorem digits_natDigits (n cnt : Nat) (rest : List Char) (hr : ∀ c t, rest = c :: t → c.isDigit = false) :
    digits 0 cnt (natDigits n ++ rest) = (n, cnt + (natDigits n).length, rest) := by
  rw [digits_append _ _ _ _ (natDigits_isDigit n)]
  have key : ∀ n cnt, digits 0 cnt (natDigits n) = (n, cnt + (natDigits n).length, []) := by
    intro n
    fun_induction natDigits n with
    | case1 n h => intro cnt; simp [digits, dig_isDigit h, dig_val h]
    | case2 n h ih =>
      intro cnt
      rw [digits_append _ _ _ _ (natDigits_isDigit _), ih]
      have hm : n % 10 < 10 := Nat.mod_lt _ (by norm_num)
      simp only [digits, dig_isDigit hm, if_true, dig_val hm, List.length_append, List.length_cons, List.length_nil]
      have := Nat.div_add_mod n 10
      ext <;> simp <;> omega
  rw [key]
  exact digits_stop _ _ _ hr

/-- Numbers with a finite decimal expansion (not in the code: a text for `double_`, `river.cpp:53`). -/
def IsDecimal (q : Rat) : Prop := ∃ (m : Int) (k : Nat), q = (m : Rat) * (10 : Rat) ^ (-(k : Int))

/-- Text of the decimal `m * 10^-k` (not in the code: a text for `double_`, `river.cpp:53`). -/
def prDec (m : Int) (k : Nat) : List Char :=
  (if m < 0 then ['-'] else []) ++ (natDigits m.natAbs ++ ('e' :: '-' :: natDigits k))

theorem sign_digits (n : Nat) (s : List Char) : sign (natDigits n ++ s) = (false, natDigits n ++ s) := by
  cases h : natDigits n with
  | nil => exact absurd h (natDigits_ne n)
  | cons c cs =>
    have hc := natDigits_isDigit n c (by simp [h])
    unfold sign
    split
    · rename_i heq; simp at heq; rw [heq.1] at hc; exact absurd hc (by decide)
    · rename_i heq; simp at heq; rw [heq.1] at hc; exact absurd hc (by decide)
    · rfl

theorem lex_prDec (m : Int) (k : Nat) (rest : List Char) (hr : ∀ c t, rest = c :: t → c.isDigit = false) :
    lex (prDec m k ++ rest) = some ((m : Rat) * (10 : Rat) ^ (-(k : Int)), rest) := by
  have hE : ∀ s : List Char, digits 0 0 (natDigits m.natAbs ++ ('e' :: '-' :: s)) =
      (m.natAbs, (natDigits m.natAbs).length, 'e' :: '-' :: s) := by
    intro s
    rw [digits_natDigits _ _ _ (by intro c t h; injection h with h1 _; subst h1; decide)]; simp
  have hlen : (natDigits m.natAbs).length ≠ 0 := by simp [natDigits_ne]
  have hlenk : (natDigits k).length ≠ 0 := by simp [natDigits_ne]
  have hs : sign (prDec m k ++ rest) =
      (decide (m < 0), natDigits m.natAbs ++ ('e' :: '-' :: (natDigits k ++ rest))) := by
    unfold prDec
    split
    · rename_i h; simp [sign, h]
    · rename_i h
      have := sign_digits m.natAbs ('e' :: '-' :: (natDigits k ++ rest))
      simp [h] at this ⊢
      exact this
  unfold lex
  rw [hs]
  simp only [hE]
  have hf : frac m.natAbs ('e' :: '-' :: (natDigits k ++ rest)) = (m.natAbs, 0, 'e' :: '-' :: (natDigits k ++ rest)) := by
    unfold frac; split
    · rename_i heq; simp at heq
    · rfl
  rw [hf]
  have he : expo ('e' :: '-' :: (natDigits k ++ rest)) = (-(k : Int), rest) := by
    unfold expo
    simp only [true_or, if_true, sign]
    rw [digits_natDigits _ _ _ hr]
    simp [hlenk]
  simp only [he, Nat.add_zero, hlen, if_false]
  congr 2
  by_cases h : m < 0
  · simp only [h, decide_true, if_true, Nat.cast_zero, sub_zero]
    rw [← neg_mul]; congr 1
    have : ((m.natAbs : Int) : Rat) = ((-m : Int) : Rat) := by congr 1; omega
    rw [show ((m.natAbs : Nat) : Rat) = ((m.natAbs : Int) : Rat) by simp, this]; simp
  · simp only [h, decide_false, Nat.cast_zero, sub_zero]
    have : ((m.natAbs : Int) : Rat) = (m : Rat) := by congr 1; omega
    rw [show ((m.natAbs : Nat) : Rat) = ((m.natAbs : Int) : Rat) by simp, this]; simp

open Classical in
/-- A printer for all finite decimals (not in the code: a text for `double_`, `river.cpp:53`). -/
noncomputable def prDecimal (q : Rat) : List Char :=
  if h : IsDecimal q then prDec h.choose h.choose_spec.choose else []

/-- The printer laws hold for the concrete reader (not in the code: a text for `double_`, `river.cpp:53`). -/
noncomputable def decPrinter : MakePath.Printer decLex IsDecimal where
  pr := prDecimal
  noSp := by
    intro q hq c t h
    unfold prDecimal at h
    rw [dif_pos hq] at h
    unfold prDec at h
    split at h
    · injection h with h1 _; subst h1; decide
    · cases hd : natDigits hq.choose.natAbs with
      | nil => exact absurd hd (natDigits_ne _)
      | cons d ds =>
        rw [hd] at h
        simp only [List.nil_append, List.cons_append] at h
        injection h with h1 _
        subst h1
        have hc := natDigits_isDigit _ d (by rw [hd]; simp)
        unfold isSp
        by_contra hsp
        simp only [Bool.not_eq_false, Bool.or_eq_true, beq_iff_eq] at hsp
        rcases hsp with ((((h | h) | h) | h) | h) | h <;> subst h <;> exact absurd hc (by decide)
  read := by
    intro q hq rest hr
    show lex _ = _
    have hd : ∀ c t, rest = c :: t → c.isDigit = false := by
      intro c t h
      rcases hr c t h with hsp | hm
      · unfold isSp at hsp
        simp only [Bool.or_eq_true, beq_iff_eq] at hsp
        rcases hsp with ((((h | h) | h) | h) | h) | h <;> subst h <;> decide
      · simp at hm
        rcases hm with h | h | h | h <;> subst h <;> decide
    unfold prDecimal
    rw [dif_pos hq, lex_prDec _ _ _ hd, ← hq.choose_spec.choose_spec]

end DecLex
end River
