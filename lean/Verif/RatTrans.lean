import Verif.Num

/-! # Rational arithmetic for concrete cases

The concrete cases with straight lines are computed over `ℚ`. Nothing on their way uses a root or a trigonometric
function; these are therefore given dummy values here. Do not use this instance for anything with curves. -/

namespace River

/-- Dummy elementary functions on `ℚ`; see above. -/
instance : FTrans ℚ where
  sqrt := fun _ => 0
  cbrt := fun _ => 0
  powi := fun x _ => x
  cos := fun x => x
  sin := fun x => x
  atan := fun x => x

end River
