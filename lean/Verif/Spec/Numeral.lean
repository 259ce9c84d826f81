import Verif.Model.DecLex

/-! # Specification: the numbers `make_path` reads (C06)

A sign or none; digits, a point and more digits, at least one digit in all; then nothing or an exponent: a letter, a sign or none, digits. -/

namespace River

/-- A sign as written: none, `+` or `-`. -/
inductive SignText where
  | none
  | plus
  | minus
deriving DecidableEq

def SignText.text : SignText → List Char
  | .none => []
  | .plus => ['+']
  | .minus => ['-']

/-- A number as written. -/
structure Numeral where
  sign : SignText
  whole : List (Fin 10)
  frac : Option (List (Fin 10))
  /-- Letter a capital one, sign, digits. -/
  exp : Option (Bool × SignText × List (Fin 10))

namespace Numeral

def digitChars (ds : List (Fin 10)) : List Char := ds.map fun d => Char.ofNat (48 + d.val)

/-- The number the digits make, in base ten. -/
def nat (ds : List (Fin 10)) : ℕ := ds.foldl (fun a d => a * 10 + d.val) 0

def expText : Option (Bool × SignText × List (Fin 10)) → List Char
  | none => []
  | some (cap, s, ds) => (if cap then 'E' else 'e') :: (s.text ++ digitChars ds)

def text (n : Numeral) : List Char :=
  n.sign.text ++ digitChars n.whole ++ (match n.frac with | none => [] | some f => '.' :: digitChars f) ++ expText n.exp

/-- At least one digit before the exponent, and one in it. -/
def Valid (n : Numeral) : Prop := n.whole ++ n.frac.getD [] ≠ [] ∧ ∀ e ∈ n.exp, e.2.2 ≠ []

def exponent (n : Numeral) : ℤ := match n.exp with
  | none => 0
  | some (_, s, ds) => if s = .minus then -(nat ds : ℤ) else nat ds

/-- The value: all digits as one whole number, the point moved. -/
def value (n : Numeral) : ℚ :=
  (if n.sign = .minus then -1 else 1) * (nat (n.whole ++ n.frac.getD []) : ℚ) * 10 ^ (n.exponent - (n.frac.getD []).length)

/-- What may follow: not something that continues the number. -/
def Ends (r : List Char) : Prop := ∀ c ∈ r.head?, c.isDigit = false ∧ c ≠ '.' ∧ c ≠ 'e' ∧ c ≠ 'E'

end Numeral
end River
