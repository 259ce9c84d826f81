import Verif.Model.Double
import Verif.Props.PolygonsDemo
import Verif.Props.Result

/-! # C72: doubles

First, that the model of `double` rounds as IEEE 754 demands; then what rounding does to the results. -/

namespace River

/-- The non-negative numbers a finite `double` can hold, overflow aside: 53 bits times a power of two not below `2 ^ (-1074)`. -/
def Rep (r : ℚ) : Prop := ∃ (m : ℕ) (e : ℤ), m < 2 ^ 53 ∧ -1074 ≤ e ∧ r = m * 2 ^ e

theorem pow2_eq (k : ℤ) : pow2 k = 2 ^ k := by
  cases k with
  | ofNat n => simp [pow2]
  | negSucc n =>
    change mkRat 1 (2 ^ (n + 1)) = _
    rw [zpow_negSucc, Rat.mkRat_eq_div]
    push_cast
    rw [one_div]

theorem nearestEven_near {q : ℚ} (hq : 0 ≤ q) : |(nearestEven q : ℚ) - q| ≤ 1 / 2 := by
  have hn : q.num = (q.num.natAbs : ℤ) := (Int.natAbs_of_nonneg (Rat.num_nonneg.2 hq)).symm
  obtain ⟨a, ha⟩ : ∃ a, a = q.num.natAbs := ⟨_, rfl⟩
  obtain ⟨d, hd⟩ : ∃ d, d = q.den := ⟨_, rfl⟩
  have hdpos : (0 : ℚ) < d := by rw [hd]; exact_mod_cast q.den_pos
  have hqe : q = (a : ℚ) / d := by
    have := Rat.num_div_den q
    rw [hn, ← ha, ← hd, Int.cast_natCast] at this
    exact this.symm
  have hdm : a = d * (a / d) + a % d := (Nat.div_add_mod a d).symm
  have hdm' : (a : ℚ) = d * (a / d : ℕ) + (a % d : ℕ) := by exact_mod_cast hdm
  have key : q = (a / d : ℕ) + (a % d : ℕ) / (d : ℚ) := by
    rw [hqe, eq_comm, eq_div_iff hdpos.ne', add_mul, div_mul_cancel₀ _ hdpos.ne']
    linarith
  unfold nearestEven
  simp only [← ha, ← hd]
  obtain ⟨n, hnn⟩ : ∃ n, n = a / d := ⟨_, rfl⟩
  obtain ⟨r, hr⟩ : ∃ r, r = a % d := ⟨_, rfl⟩
  rw [← hnn, ← hr] at key ⊢
  have hr0 : (0 : ℚ) ≤ r / d := by positivity
  have hrd : r < d := by rw [hr]; exact Nat.mod_lt _ (by exact_mod_cast hdpos)
  have hr1 : (r : ℚ) / d < 1 := by rw [div_lt_one hdpos]; exact_mod_cast hrd
  have h1 : 2 * r < d → (r : ℚ) / d < 1 / 2 := by
    intro h
    rw [div_lt_iff₀ hdpos]
    have : (2 * r : ℚ) < d := by exact_mod_cast h
    linarith
  have h2 : ¬ 2 * r < d → 1 / 2 ≤ (r : ℚ) / d := by
    intro h
    rw [le_div_iff₀ hdpos]
    have : (d : ℚ) ≤ 2 * r := by exact_mod_cast not_lt.1 h
    linarith
  have h3 : ¬ d < 2 * r → (r : ℚ) / d ≤ 1 / 2 := by
    intro h
    rw [div_le_iff₀ hdpos]
    have : (2 * r : ℚ) ≤ d := by exact_mod_cast not_lt.1 h
    linarith
  rw [abs_le]
  split_ifs with c1 c2 c3
  · have := h1 c1
    constructor <;> linarith
  · have := h2 c1
    push_cast
    constructor <;> linarith
  · have := h2 c1
    have := h3 c2
    constructor <;> linarith
  · have := h2 c1
    have := h3 c2
    push_cast
    constructor <;> linarith

/-- No natural number is nearer. -/
theorem nearestEven_nearest {q : ℚ} (hq : 0 ≤ q) (k : ℤ) : |(nearestEven q : ℚ) - q| ≤ |(k : ℚ) - q| := by
  have h := nearestEven_near hq
  by_cases he : k = nearestEven q
  · rw [he]; rfl
  · have h1 : (1 : ℚ) ≤ |(k : ℚ) - nearestEven q| := by
      have : (1 : ℤ) ≤ |k - nearestEven q| := Int.one_le_abs (sub_ne_zero.2 he)
      exact_mod_cast this
    have h2 : |(k : ℚ) - nearestEven q| ≤ |(k : ℚ) - q| + |(nearestEven q : ℚ) - q| := by
      have := abs_sub_le (k : ℚ) q (nearestEven q)
      rwa [abs_sub_comm q] at this
    linarith

theorem leadExp_spec {q : ℚ} (hq : 0 < q) : -1022 ≤ leadExp q ∧ q < 2 ^ (leadExp q + 1) ∧ (-1022 < leadExp q → 2 ^ leadExp q ≤ q) := by
  have hn : q.num = (q.num.natAbs : ℤ) := (Int.natAbs_of_nonneg (Rat.num_nonneg.2 hq.le)).symm
  obtain ⟨a, ha⟩ : ∃ a, a = q.num.natAbs := ⟨_, rfl⟩
  obtain ⟨d, hd⟩ : ∃ d, d = q.den := ⟨_, rfl⟩
  have hd0 : d ≠ 0 := by rw [hd]; exact q.den_nz
  have hdpos : (0 : ℚ) < d := by exact_mod_cast Nat.pos_of_ne_zero hd0
  have hqe : q = (a : ℚ) / d := by
    have := Rat.num_div_den q
    rw [hn, ← ha, ← hd, Int.cast_natCast] at this
    exact this.symm
  have ha0 : a ≠ 0 := by
    rintro rfl
    rw [hqe] at hq
    simp at hq
  have a1 : (2 : ℚ) ^ (Nat.log2 a : ℤ) ≤ a := by
    rw [zpow_natCast]; exact_mod_cast Nat.log2_self_le ha0
  have a2 : (a : ℚ) < 2 ^ ((Nat.log2 a : ℤ) + 1) := by
    have := Nat.lt_log2_self (n := a)
    have h : (a : ℚ) < 2 ^ (Nat.log2 a + 1) := by exact_mod_cast this
    exact_mod_cast h
  have d1 : (2 : ℚ) ^ (Nat.log2 d : ℤ) ≤ d := by
    rw [zpow_natCast]; exact_mod_cast Nat.log2_self_le hd0
  have d2 : (d : ℚ) < 2 ^ ((Nat.log2 d : ℤ) + 1) := by
    have := Nat.lt_log2_self (n := d)
    have h : (d : ℚ) < 2 ^ (Nat.log2 d + 1) := by exact_mod_cast this
    exact_mod_cast h
  obtain ⟨e, he⟩ : ∃ e : ℤ, e = (Nat.log2 a : ℤ) - (Nat.log2 d : ℤ) := ⟨_, rfl⟩
  have u1 : q < 2 ^ (e + 1) := by
    rw [hqe, div_lt_iff₀ hdpos]
    calc (a : ℚ) < 2 ^ ((Nat.log2 a : ℤ) + 1) := a2
      _ = 2 ^ (e + 1) * 2 ^ (Nat.log2 d : ℤ) := by rw [← zpow_add₀ (by norm_num)]; congr 1; omega
      _ ≤ 2 ^ (e + 1) * d := by gcongr
  have l1 : 2 ^ (e - 1) ≤ q := by
    rw [hqe, le_div_iff₀ hdpos]
    calc (2 : ℚ) ^ (e - 1) * d ≤ 2 ^ (e - 1) * 2 ^ ((Nat.log2 d : ℤ) + 1) := by gcongr
      _ = 2 ^ (Nat.log2 a : ℤ) := by rw [← zpow_add₀ (by norm_num)]; congr 1; omega
      _ ≤ a := a1
  unfold leadExp
  simp only [← ha, ← hd, ← he, pow2_eq]
  split_ifs with h
  · refine ⟨le_max_right _ _, lt_of_lt_of_le h ?_, fun hm => ?_⟩
    · exact zpow_le_zpow_right₀ (by norm_num) (by omega)
    · rw [max_eq_left (by omega)]; exact l1
  · refine ⟨le_max_right _ _, lt_of_lt_of_le u1 ?_, fun hm => ?_⟩
    · exact zpow_le_zpow_right₀ (by norm_num) (by omega)
    · rw [max_eq_left (by omega)]; exact not_lt.1 h

/-- What rounding delivers is representable. -/
theorem rndMag_rep {q : ℚ} (hq : 0 ≤ q) : Rep (rndMag q) := by
  unfold rndMag
  split_ifs with h0
  · exact ⟨0, 0, by norm_num, by norm_num, by simp⟩
  have hq' : 0 < q := lt_of_le_of_ne hq (Ne.symm h0)
  obtain ⟨h1, h2, h3⟩ := leadExp_spec hq'
  simp only [pow2_eq]
  obtain ⟨E, hE⟩ : ∃ E, E = leadExp q := ⟨_, rfl⟩
  rw [← hE] at h1 h2 h3 ⊢
  have hu : (0 : ℚ) < 2 ^ (E - 52) := by positivity
  obtain ⟨n, hn⟩ : ∃ n, n = nearestEven (q / 2 ^ (E - 52)) := ⟨_, rfl⟩
  have hx : q / 2 ^ (E - 52) < 2 ^ 53 := by
    rw [div_lt_iff₀ hu]
    calc q < 2 ^ (E + 1) := h2
      _ = 2 ^ 53 * 2 ^ (E - 52) := by
        rw [show (2 : ℚ) ^ 53 = 2 ^ (53 : ℤ) by norm_cast, ← zpow_add₀ (by norm_num)]; congr 1; omega
  have hn53 : n ≤ 2 ^ 53 := by
    have hnear := nearestEven_nearest (q := q / 2 ^ (E - 52)) (by positivity) (2 ^ 53)
    rw [← hn] at hnear
    by_contra hc
    push Not at hc
    have hc' : ((2 ^ 53 : ℕ) : ℚ) + 1 ≤ n := by exact_mod_cast hc
    push_cast at hnear hc'
    rw [abs_of_nonneg (by linarith), abs_of_nonneg (by linarith)] at hnear
    linarith
  rw [← hn]
  rcases hn53.lt_or_eq with h | h
  · exact ⟨n, E - 52, h, by omega, rfl⟩
  · refine ⟨2 ^ 52, E - 51, by norm_num, by omega, ?_⟩
    rw [h]
    rw [show ((2 ^ 53 : ℕ) : ℚ) = 2 ^ (53 : ℤ) by norm_num, show ((2 ^ 52 : ℕ) : ℚ) = 2 ^ (52 : ℤ) by norm_num, ← zpow_add₀ (by norm_num), ← zpow_add₀ (by norm_num)]
    congr 1; omega

/-- **The model of `double` rounds to nearest**: no representable number lies nearer to a number than the one it is rounded to. -/
theorem rndMag_nearest {q : ℚ} (hq : 0 ≤ q) {r : ℚ} (hr : Rep r) : |rndMag q - q| ≤ |r - q| := by
  unfold rndMag
  split_ifs with h0
  · rw [h0]; simp
  have hq' : 0 < q := lt_of_le_of_ne hq (Ne.symm h0)
  obtain ⟨h1, h2, h3⟩ := leadExp_spec hq'
  simp only [pow2_eq]
  obtain ⟨E, hE⟩ : ∃ E, E = leadExp q := ⟨_, rfl⟩
  rw [← hE] at h1 h2 h3 ⊢
  have hu : (0 : ℚ) < 2 ^ (E - 52) := by positivity
  obtain ⟨x, hx⟩ : ∃ x, x = q / 2 ^ (E - 52) := ⟨_, rfl⟩
  have hqx : q = x * 2 ^ (E - 52) := by rw [hx, div_mul_cancel₀ _ hu.ne']
  have hx0 : 0 ≤ x := by rw [hx]; positivity
  rw [← hx]
  have hscale : ∀ k : ℚ, |k * 2 ^ (E - 52) - q| = |k - x| * 2 ^ (E - 52) := by
    intro k
    rw [hqx, ← sub_mul, abs_mul, abs_of_pos hu]
  rw [hscale]
  obtain ⟨m, e, hm, he, rfl⟩ := hr
  by_cases hc : E - 52 ≤ e
  · obtain ⟨j, hj⟩ := Int.eq_ofNat_of_zero_le (sub_nonneg.2 hc)
    have : (m : ℚ) * 2 ^ e = ((m * 2 ^ j : ℕ) : ℤ) * 2 ^ (E - 52) := by
      push_cast
      rw [mul_assoc]
      congr 1
      rw [← zpow_natCast, ← zpow_add₀ (by norm_num)]
      congr 1; omega
    rw [this, hscale]
    exact mul_le_mul_of_nonneg_right (nearestEven_nearest hx0 _) hu.le
  · push Not at hc
    have hE' : -1022 < E := by omega
    have hlow := h3 hE'
    have hm' : (m : ℚ) * 2 ^ e ≤ 2 ^ E := by
      have : (m : ℚ) ≤ 2 ^ (53 : ℤ) := by
        have : (m : ℚ) ≤ 2 ^ 53 := by exact_mod_cast hm.le
        exact_mod_cast this
      calc (m : ℚ) * 2 ^ e ≤ 2 ^ (53 : ℤ) * 2 ^ e := by gcongr
        _ = 2 ^ (53 + e) := by rw [← zpow_add₀ (by norm_num)]
        _ ≤ 2 ^ E := zpow_le_zpow_right₀ (by norm_num) (by omega)
    have hE52 : (2 : ℚ) ^ E = ((2 ^ 52 : ℕ) : ℤ) * 2 ^ (E - 52) := by
      rw [show (((2 ^ 52 : ℕ) : ℤ) : ℚ) = 2 ^ (52 : ℤ) by norm_num, ← zpow_add₀ (by norm_num)]
      congr 1; omega
    have hn := nearestEven_nearest hx0 ((2 ^ 52 : ℕ) : ℤ)
    calc |(nearestEven x : ℚ) - x| * 2 ^ (E - 52) ≤ |(((2 ^ 52 : ℕ) : ℤ) : ℚ) - x| * 2 ^ (E - 52) := mul_le_mul_of_nonneg_right hn hu.le
      _ = |2 ^ E - q| := by rw [← hscale, ← hE52]
      _ ≤ |(m : ℚ) * 2 ^ e - q| := by
        rw [abs_of_nonpos (by linarith), abs_of_nonpos (by linarith)]
        linarith

/-- Representable numbers are not changed by rounding. -/
theorem rndMag_exact {q : ℚ} (hq : 0 ≤ q) (hr : Rep q) : rndMag q = q := by
  have := rndMag_nearest hq hr
  rw [sub_self, abs_zero] at this
  exact sub_eq_zero.1 (abs_eq_zero.1 (le_antisymm this (abs_nonneg _)))

/-! ## Results computed with doubles -/

/-- The polygon with corners of these (representable) coordinates. -/
def dblPoly (P : List (Vec2 ℚ)) : Path Dbl := Path.build (polyCmds (P.map (fun p => ⟨Dbl.of p.x, Dbl.of p.y⟩)))

/-- What one call of `process` on a new processor tells the callbacks, computed with doubles. -/
def runDbl (ct : ClipType) (fr : FillRule) (subject clip : List (List (Vec2 ℚ))) : Option (Option (List (Event Dbl))) :=
  ((Clipper.new (K := Dbl)).addPath (subject.map dblPoly) .subject).bind (fun c1 =>
    (c1.addPath (clip.map dblPoly) .clip).bind (fun c2 =>
      (c2.process demoEnv (fun l => insSort (fun a b => a.less b) l) 60 ct fr Path.recorder []).map (fun r => r.map (·.2))))

/-- The counter-clockwise rectangle. -/
def rect4 (a b c d : ℚ) : List (Vec2 ℚ) := [⟨a, b⟩, ⟨c, b⟩, ⟨c, d⟩, ⟨a, d⟩]

/-- **C72 is false**: the union of three rectangles with small integer coordinates. They are in general position, so exact
arithmetic delivers the union (`process_polygons`); with doubles the call is undefined behaviour. -/
theorem doubles_rectangles_ub : GeneralPolygons ([rect4 6 3 7 12] ++ [rect4 1 4 12 9, rect4 7 0 11 11]) ∧
    runDbl .union .positive [rect4 6 3 7 12] [rect4 1 4 12 9, rect4 7 0 11 11] = none :=
  ⟨generalB_sound (by decide +kernel), by decide +kernel⟩

/-- **C72 is false**: the union of two triangles that meet in one point. With doubles nothing is delivered. -/
theorem doubles_triangles_lost : GeneralPolygons ([[⟨2, 2⟩, ⟨3, 5⟩, ⟨2, 3⟩]] ++ [[⟨2, 1⟩, ⟨5, 0⟩, ⟨0, 5⟩]] : List (List (Vec2 ℚ))) ∧
    runDbl .union .positive [[⟨2, 2⟩, ⟨3, 5⟩, ⟨2, 3⟩]] [[⟨2, 1⟩, ⟨5, 0⟩, ⟨0, 5⟩]] = some (some []) ∧
    polyWinding [[⟨2, 1⟩, ⟨5, 0⟩, ⟨0, 5⟩]] (2 : ℚ) (3 / 2) = 1 :=
  ⟨generalB_sound (by decide +kernel), by decide +kernel, by decide +kernel⟩

/-- The corners of a callback sequence as numbers. -/
def dblCorners (es : List (Event Dbl)) : List (ℚ × ℚ) :=
  es.filterMap (fun e => match e.cmd with | .lineto q => some (q.x.toRat, q.y.toRat) | _ => none)

/-- **C72**, a case that goes well: the union of two overlapping squares. -/
theorem doubles_squares : (runDbl .union .positive [rect4 0 0 10 10] [rect4 5 5 15 15]).map (fun r => r.map dblCorners) =
    some (some [(10, 0), (10, 5), (15, 5), (15, 15), (5, 15), (5, 10), (0, 10), (0, 0)]) := by decide +kernel

/-- **C72**, corners next to where they should be: of the corners of two crossing rectangles with integer coordinates, one is
delivered beside the grid. -/
theorem doubles_off_grid : GeneralPolygons ([rect4 5 29 53 50] ++ [rect4 20 3 30 60]) ∧
    ∃ es, runDbl .union .positive [rect4 5 29 53 50] [rect4 20 3 30 60] = some (some es) ∧ ∃ p ∈ dblCorners es, p.1.den ≠ 1 ∨ p.2.den ≠ 1 := by
  refine ⟨generalB_sound (by decide +kernel), ?_⟩
  have h : ((runDbl .union .positive [rect4 5 29 53 50] [rect4 20 3 30 60]).bind (fun r => r.map (fun es =>
      (dblCorners es).any (fun p => decide (p.1.den ≠ 1 ∨ p.2.den ≠ 1))))) = some true := by decide +kernel
  rw [Option.bind_eq_some_iff] at h
  obtain ⟨r, h1, h2⟩ := h
  rw [Option.map_eq_some_iff] at h2
  obtain ⟨es, rfl, h3⟩ := h2
  rw [List.any_eq_true] at h3
  obtain ⟨p, hp, h4⟩ := h3
  exact ⟨es, h1, p, hp, of_decide_eq_true h4⟩

/-- `clamp_0_2pi` is documented to deliver values in `[0, 2π)` (`rmath.h:13-14`). With doubles it delivers `2π` itself for `-0.0` and for
very small negative angles. -/
theorem doubles_clamp : clamp2pi (Dbl.num true 0) = (FAngle.pi : Dbl) *. FNum.lit 2 ∧
    clamp2pi (Dbl.lit (-1 / 10 ^ 20)) = (FAngle.pi : Dbl) *. FNum.lit 2 := by decide +kernel

/-! ## What holds for doubles

Finite doubles, `+0` and `-0` taken together, are totally ordered, so the theorems about the sweep that assume no more of the
arithmetic than a total order apply to them. -/

/-- A number with the sign and the rounding of `double`. -/
def rndSigned (v : ℚ) : ℚ := if v < 0 then -rndMag (-v) else rndMag v

/-- Finite doubles without the sign of zero. Overflow and division by zero do not occur. -/
def R64 : Type := ℚ

instance : DecidableEq R64 := inferInstanceAs (DecidableEq ℚ)
instance : LinearOrder R64 := inferInstanceAs (LinearOrder ℚ)

/-- The value. -/
def R64.q (a : R64) : ℚ := a

/-- The double with the given value. -/
def R64.of (q : ℚ) : R64 := q

/-- Arithmetic of doubles as long as it stays finite; functions of `<cmath>` are dummies. -/
instance : FTrans R64 where
  add a b := R64.of (rndSigned (a.q + b.q))
  sub a b := R64.of (rndSigned (a.q - b.q))
  mul a b := R64.of (rndSigned (a.q * b.q))
  div a b := R64.of (rndSigned (a.q / b.q))
  neg a := R64.of (-a.q)
  lt a b := decide (a.q < b.q)
  le a b := decide (a.q ≤ b.q)
  eq a b := decide (a.q = b.q)
  lit q := R64.of (rndSigned q)
  isFinite _ := true
  maxNum := R64.of dblMax
  sqrt := fun x => x
  cbrt := fun x => x
  powi := fun x _ => x
  cos := fun x => x
  sin := fun x => x
  atan := fun x => x

/-- The value of a finite double. -/
def Dbl.fin? : Dbl → Option R64
  | .num s m => some (R64.of (Dbl.val s m))
  | _ => none

theorem Dbl.fin_round {s : Bool} {m : ℚ} {r : R64} (h : (Dbl.round s m).fin? = some r) : r.q = Dbl.val s (rndMag m) := by
  unfold Dbl.round at h
  simp only at h
  split at h
  · simp [Dbl.fin?] at h
  · simp only [Dbl.fin?, Option.some.injEq] at h
    rw [← h]; rfl

theorem Dbl.rnd_val (s : Bool) {m : ℚ} (hm : 0 ≤ m) : rndSigned (Dbl.val s m) = Dbl.val s (rndMag m) := by
  unfold rndSigned Dbl.val
  cases s
  · simp [not_lt.2 hm]
  · rcases hm.lt_or_eq with h | h
    · simp [h]
    · simp [← h, rndMag]

/-- Whether the magnitude of a double is not negative. -/
def Dbl.Proper : Dbl → Prop
  | .num _ m => 0 ≤ m
  | _ => True

/-- **The two models of `double` agree**: where sum, product or quotient of two finite doubles are finite, they are the sum, product
and quotient of the ordered model. -/
theorem Dbl.agree {x y : Dbl} {a b r : R64} (px : x.Proper) (py : y.Proper) (hx : x.fin? = some a) (hy : y.fin? = some b) :
    ((x +. y).fin? = some r → a +. b = r) ∧ ((x *. y).fin? = some r → a *. b = r) ∧ ((x /. y).fin? = some r → a /. b = r) ∧
    (x <. y) = (a <. b) ∧ (x ==. y) = (a ==. b) := by
  cases x with
  | inf s => simp [Dbl.fin?] at hx
  | nan => simp [Dbl.fin?] at hx
  | num s m =>
  cases y with
  | inf s => simp [Dbl.fin?] at hy
  | nan => simp [Dbl.fin?] at hy
  | num t n =>
    simp only [Dbl.fin?, Option.some.injEq] at hx hy
    subst hx; subst hy
    have hm : 0 ≤ m := px
    have hn : 0 ≤ n := py
    refine ⟨fun h => ?_, fun h => ?_, fun h => ?_, rfl, rfl⟩
    · change (Dbl.add (.num s m) (.num t n)).fin? = some r at h
      change rndSigned (Dbl.val s m + Dbl.val t n) = r
      unfold Dbl.add at h
      simp only at h
      split at h
      · next h0 =>
        simp only [Dbl.fin?, Option.some.injEq] at h
        rw [← h, h0]
        simp [rndSigned, rndMag, Dbl.val, R64.of]
      · split at h
        · next h0 h1 =>
          have := Dbl.fin_round h
          refine Eq.trans ?_ this.symm
          unfold rndSigned
          rw [if_pos h1]
          rfl
        · next h0 h1 =>
          have := Dbl.fin_round h
          refine Eq.trans ?_ this.symm
          unfold rndSigned
          rw [if_neg h1]
          rfl
    · change (Dbl.round (s != t) (m * n)).fin? = some r at h
      change rndSigned (Dbl.val s m * Dbl.val t n) = r
      have := Dbl.fin_round h
      refine Eq.trans ?_ this.symm
      rw [← Dbl.rnd_val _ (mul_nonneg hm hn)]
      congr 2
      unfold Dbl.val
      cases s <;> cases t <;> simp
    · change (Dbl.div (.num s m) (.num t n)).fin? = some r at h
      change rndSigned (Dbl.val s m / Dbl.val t n) = r
      unfold Dbl.div at h
      simp only at h
      split at h
      · split at h <;> simp [Dbl.fin?] at h
      · have := Dbl.fin_round h
        refine Eq.trans ?_ this.symm
        rw [← Dbl.rnd_val _ (div_nonneg hm hn)]
        congr 2
        unfold Dbl.val
        cases s <;> cases t <;> simp [neg_div, div_neg]

instance : LawfulOrd R64 where
  lt_iff a b := by
    change decide (a.q < b.q) = true ↔ _
    rw [decide_eq_true_eq]; rfl
  le_iff a b := by
    change decide (a.q ≤ b.q) = true ↔ _
    rw [decide_eq_true_eq]; rfl
  eq_iff a b := by
    change decide (a.q = b.q) = true ↔ _
    rw [decide_eq_true_eq]; rfl

/-- **C72**, what holds: with doubles, if the pieces into which the contours are broken are arranged (lie in order at every height, as
computed by the code) and the result lies to the same side of its boundary everywhere, a call ends without undefined behaviour and
delivers closed contours that consist of exactly the pieces that separate inside and outside, each once. Missing: conditions on crossing
contours that are enough for this (for contours that do not cross see `process_doubles`). -/
theorem doubles_boundary_partial (env : Env R64) (hok : env.Ok) (msort : List (LocMin R64) → List (LocMin R64)) (hm : MinSort msort)
    (c : Clipper R64) (hc : c.Reach env) (hnew : c.out.polys = []) {rings : List (Ring R64)} (hp : processIntersect env c.rings = some rings)
    (A : Arranged rings) (ct : ClipType) (fr : FillRule) (σ : Int) (hσ : σ = 1 ∨ σ = -1) (D : Directed rings ct fr σ) :
    ∃ n, ∀ fuel, n ≤ fuel → ∃ (c' : Clipper R64) (es : List (List (Event R64))),
      c.process env msort fuel ct fr Path.recorder [] = some (some (c', es.flatten)) ∧
      (∀ x ∈ es, IsContour zeroPt x ∧ ClosedContour x) ∧
      ∃ (B : List (Side R64)) (H : List (Vec2 R64 × Seg R64)), Outline rings ct fr σ B ∧
        HBoundary rings ct fr (H : Multiset (Vec2 R64 × Seg R64)) ∧
        (drawn es.flatten).Perm (B.map Side.event ++ H.map pieceEvent) :=
  process_boundary env hok msort hm c hc hnew hp A ct fr σ hσ D

end River
