import Verif.Model.Format
import Verif.Props.MakePath
import Verif.Props.Double

/-! # C89: curves written with six decimals and read again -/

namespace River
open MakePath DecLex

/-- The number the text of a finite double stands for. -/
def sixth : Dbl → ℚ
  | .num s m => Dbl.val s ((nearestEven (m * 1000000) : ℚ) / 1000000)
  | _ => 0

/-- A finite double (with a magnitude that is not negative). -/
def Dbl.Finite (x : Dbl) : Prop := ∃ s m, x = .num s m ∧ 0 ≤ m

theorem padDigits_isDigit (k n : Nat) : ∀ c ∈ padDigits k n, c.isDigit = true := by
  induction k generalizing n with
  | zero => simp [padDigits]
  | succ k ih =>
    intro c hc
    rcases List.mem_append.1 hc with hc | hc
    · exact ih _ c hc
    · rw [List.mem_singleton] at hc; subst hc; exact dig_isDigit (Nat.mod_lt _ (by norm_num))

theorem digits_pad (k : Nat) : ∀ n acc cnt, digits acc cnt (padDigits k n) = (acc * 10 ^ k + n % 10 ^ k, cnt + k, []) := by
  induction k with
  | zero => intro n acc cnt; simp [padDigits, digits, Nat.mod_one]
  | succ k ih =>
    intro n acc cnt
    have hm : n % 10 < 10 := Nat.mod_lt _ (by norm_num)
    rw [padDigits, digits_append _ _ _ _ (padDigits_isDigit _ _), ih]
    simp only [digits, dig_isDigit hm, if_true, dig_val hm]
    have h1 : n % 10 ^ (k + 1) = n % 10 + 10 * (n / 10 % 10 ^ k) := by rw [Nat.pow_succ, Nat.mul_comm, Nat.mod_mul]
    refine Prod.ext ?_ (Prod.ext ?_ rfl)
    · simp only; rw [h1, Nat.pow_succ]; ring
    · simp only; omega

/-- The text of a finite number is read as the number rounded to six decimals, if no digit and no exponent follows. -/
theorem lex_fmtF {x : Dbl} (hx : x.Finite) (rest : List Char) (hr : ∀ c t, rest = c :: t → c.isDigit = false ∧ c ≠ 'e' ∧ c ≠ 'E') :
    lex (fmtF x ++ rest) = some (sixth x, rest) := by
  obtain ⟨s, m, rfl, hm⟩ := hx
  obtain ⟨n, hn⟩ : ∃ n, n = nearestEven (m * 1000000) := ⟨_, rfl⟩
  have hs : sign (fmtF (.num s m) ++ rest) = (s, natDigits (n / 1000000) ++ ('.' :: (padDigits 6 n ++ rest))) := by
    have h0 := sign_digits (n / 1000000) ('.' :: (padDigits 6 n ++ rest))
    cases s
    · simpa [fmtF, fmtMag, ← hn] using h0
    · simp [fmtF, fmtMag, ← hn, sign]
  have hd : digits 0 0 (natDigits (n / 1000000) ++ ('.' :: (padDigits 6 n ++ rest))) =
      (n / 1000000, (natDigits (n / 1000000)).length, '.' :: (padDigits 6 n ++ rest)) := by
    rw [digits_natDigits _ _ _ (by intro c t h; injection h with h1 _; subst h1; decide)]; simp
  have hf : frac (n / 1000000) ('.' :: (padDigits 6 n ++ rest)) = (n, 6, rest) := by
    show digits _ 0 _ = _
    rw [digits_append _ _ _ _ (padDigits_isDigit _ _), digits_pad, digits_stop _ _ _ (fun c t h => (hr c t h).1)]
    have := Nat.div_add_mod n 1000000
    norm_num
    omega
  have he : expo rest = (0, rest) := by
    cases rest with
    | nil => rfl
    | cons c t =>
      have := hr c t rfl
      simp [expo, this.2.1, this.2.2]
  unfold lex
  rw [hs]
  simp only [hd, hf, he]
  rw [if_neg (by omega)]
  congr 2
  simp only [sixth, ← hn, Dbl.val]
  have : (n : ℚ) * 10 ^ ((0 : ℤ) - ((6 : ℕ) : ℤ)) = (n : ℚ) / 1000000 := by
    rw [div_eq_mul_inv]; congr 1
  rw [this]

/-- **C89**: a number written with `%f` and read again is at most half a millionth away, and a whole number of millionths. -/
theorem sixth_near {x : Dbl} (hx : x.Finite) : (∀ s m, x = .num s m → |sixth x - Dbl.val s m| ≤ 1 / 2000000) ∧ ∃ k : ℤ, sixth x = k / 1000000 := by
  obtain ⟨s, m, rfl, hm⟩ := hx
  refine ⟨?_, ?_⟩
  · intro s' m' h
    injection h with h1 h2
    subst h1; subst h2
    have h := nearestEven_near (q := m * 1000000) (by positivity)
    have h' : |(nearestEven (m * 1000000) : ℚ) / 1000000 - m| ≤ 1 / 2000000 := by
      rw [abs_le] at h ⊢
      constructor <;> linarith [h.1, h.2]
    cases s
    · simpa [sixth, Dbl.val] using h'
    · rw [← abs_neg]
      simpa [sixth, Dbl.val, sub_eq_add_neg, add_comm] using h'
  · cases s
    · exact ⟨nearestEven (m * 1000000), by simp [sixth, Dbl.val]⟩
    · exact ⟨-(nearestEven (m * 1000000) : ℤ), by simp [sixth, Dbl.val, neg_div]⟩

/-- No text of another value with six decimals is nearer: numbers that have six decimals are kept. -/
theorem sixth_exact {s : Bool} {k : ℕ} : sixth (.num s ((k : ℚ) / 1000000)) = Dbl.val s ((k : ℚ) / 1000000) := by
  have h : nearestEven ((k : ℚ) / 1000000 * 1000000) = k := by
    have h0 : (k : ℚ) / 1000000 * 1000000 = k := by ring
    rw [h0]
    have := nearestEven_nearest (q := (k : ℚ)) (by positivity) k
    rw [Int.cast_natCast, sub_self, abs_zero] at this
    have := abs_nonpos_iff.1 this
    have := sub_eq_zero.1 this
    exact_mod_cast this
  simp only [sixth, h]

/-- A point read from its text. -/
def sixthPt (p : Vec2 Dbl) : Vec2 ℚ := ⟨sixth p.x, sixth p.y⟩

theorem fmtF_head {x : Dbl} (hx : x.Finite) (rest : List Char) : ∀ c t, fmtF x ++ rest = c :: t → isSp c = false := by
  obtain ⟨s, m, rfl, -⟩ := hx
  intro c t h
  cases s
  · obtain ⟨n, hn⟩ : ∃ n, n = nearestEven (m * 1000000) / 1000000 := ⟨_, rfl⟩
    simp only [fmtF, fmtMag, ← hn] at h
    cases hd : natDigits n with
    | nil => exact absurd hd (natDigits_ne _)
    | cons d ds =>
      rw [hd] at h
      have hc := natDigits_isDigit n d (by rw [hd]; simp)
      simp at h
      rw [h.1] at hc
      by_contra hsp
      simp only [isSp, Bool.not_eq_false, Bool.or_eq_true, beq_iff_eq] at hsp
      rcases hsp with ((((h | h) | h) | h) | h) | h <;> subst h <;> exact absurd hc (by decide)
  · simp [fmtF] at h
    rw [← h.1]; decide

theorem sp_rest (s : List Char) : ∀ c t, ' ' :: s = c :: t → c.isDigit = false ∧ c ≠ 'e' ∧ c ≠ 'E' := by
  intro c t h; injection h with h _; subst h; decide

theorem pointAt_fmt {p : Vec2 Dbl} (hx : p.x.Finite) (hy : p.y.Finite) (rest : List Char)
    (hr : ∀ c t, rest = c :: t → c.isDigit = false ∧ c ≠ 'e' ∧ c ≠ 'E') : PointAt decLex (' ' :: (fmtPoint p ++ rest)) (sixthPt p) rest := by
  have ws : IsWs [' '] := by intro c hc; rw [List.mem_singleton] at hc; subst hc; decide
  have h1 : NumAt decLex ([' '] ++ (fmtF p.x ++ (' ' :: (fmtF p.y ++ rest)))) (sixth p.x) (' ' :: (fmtF p.y ++ rest)) :=
    .mk _ _ _ _ ws (fmtF_head hx _) (lex_fmtF hx _ (sp_rest _))
  have h2 : NumAt decLex ([' '] ++ (fmtF p.y ++ rest)) (sixth p.y) rest := .mk _ _ _ _ ws (fmtF_head hy _) (lex_fmtF hy _ hr)
  have := PointAt.mk _ _ _ _ _ h1 h2
  simpa [fmtPoint, sixthPt] using this

/-- The points of a curve but the first have finite coordinates. -/
def FinitePt (p : Vec2 Dbl) : Prop := p.x.Finite ∧ p.y.Finite

theorem cmdAt_fmt {b : Cubic Dbl} (h1 : FinitePt b.p1) (h2 : FinitePt b.p2) (h3 : FinitePt b.p3) (rest : List Char)
    (hr : ∀ c t, rest = c :: t → c.isDigit = false ∧ c ≠ 'e' ∧ c ≠ 'E') :
    CmdAt decLex (fmtCurve b ++ rest) (.c (sixthPt b.p1) (sixthPt b.p2) (sixthPt b.p3)) rest := by
  have ws : IsWs [' '] := by intro c hc; rw [List.mem_singleton] at hc; subst hc; decide
  have p3 := pointAt_fmt h3.1 h3.2 rest hr
  have p2 := pointAt_fmt h2.1 h2.2 _ (sp_rest (fmtPoint b.p3 ++ rest))
  have p1 := pointAt_fmt h1.1 h1.2 _ (sp_rest (fmtPoint b.p2 ++ (' ' :: (fmtPoint b.p3 ++ rest))))
  have := CmdAt.c [' '] _ _ _ _ _ _ _ ws p1 p2 p3
  simpa [fmtCurve] using this

/-- **C89**: the text the test program makes of a sequence of curves with finite coordinates is read by `make_path` as one path: it starts at the
first point of the first curve and consists of one curve for each curve of the sequence, in that order, with all coordinates rounded to six
decimals. The first point of each later curve is not written: its curve starts where the one before it ends. -/
theorem curves_read (b : Cubic Dbl) (bs : List (Cubic Dbl)) (h0 : FinitePt b.p0)
    (h : ∀ c ∈ b :: bs, FinitePt c.p1 ∧ FinitePt c.p2 ∧ FinitePt c.p3) :
    (curvesText (b :: bs)).bind (makePath decLex) =
      some [Path.build (.moveto (sixthPt b.p0) :: (b :: bs).map (fun c => .cubicto (sixthPt c.p1) (sixthPt c.p2) (sixthPt c.p3)))] := by
  have hcs : ∀ l : List (Cubic Dbl), (∀ c ∈ l, FinitePt c.p1 ∧ FinitePt c.p2 ∧ FinitePt c.p3) →
      CmdsAt decLex (l.flatMap fmtCurve) (l.map (fun c => .c (sixthPt c.p1) (sixthPt c.p2) (sixthPt c.p3))) [] := by
    intro l hl
    induction l with
    | nil => exact .nil _
    | cons c l ih =>
      obtain ⟨a1, a2, a3⟩ := hl c (List.mem_cons_self ..)
      rw [List.flatMap_cons, List.map_cons]
      refine .cons _ _ _ _ _ (cmdAt_fmt a1 a2 a3 _ ?_) (ih (fun c hc => hl c (List.mem_cons_of_mem _ hc)))
      intro d t hd
      cases l with
      | nil => simp at hd
      | cons c' l' =>
        simp [fmtCurve] at hd
        rw [← hd.1]; decide
  have hm : CmdAt decLex ("m ".toList ++ (fmtPoint b.p0 ++ (b :: bs).flatMap fmtCurve)) (.m (sixthPt b.p0)) ((b :: bs).flatMap fmtCurve) := by
    have hp := pointAt_fmt h0.1 h0.2 ((b :: bs).flatMap fmtCurve) (by
      intro d t hd
      simp [fmtCurve] at hd
      rw [← hd.1]; decide)
    have := CmdAt.m [] _ _ _ (by intro c hc; cases hc) hp
    simpa using this
  have key := makePath_of_cmdsAt decLex _ _ _ (.cons _ _ _ _ _ hm (hcs _ h)) (by
    intro c r hc
    have := (pCmd_iff decLex _ _ _).2 hc
    have hl := pCmd_length decLex this
    simp at hl)
  rw [curvesText, Option.bind_some, key]
  have hf : ∀ l : List (Cubic Dbl), (l.map (fun c => (TCmd.c (sixthPt c.p1) (sixthPt c.p2) (sixthPt c.p3) : TCmd ℚ))).filterMap TCmd.toCmd =
      l.map (fun c => .cubicto (sixthPt c.p1) (sixthPt c.p2) (sixthPt c.p3)) := by
    intro l; induction l with
    | nil => rfl
    | cons c l ih => simp [TCmd.toCmd, ih]
  have hg : ∀ (l : List (Cubic Dbl)) (p : Vec2 ℚ), groups (Cmd.moveto p :: l.map (fun c => .cubicto (sixthPt c.p1) (sixthPt c.p2) (sixthPt c.p3))) =
      [Cmd.moveto p :: l.map (fun c => .cubicto (sixthPt c.p1) (sixthPt c.p2) (sixthPt c.p3))] := by
    intro l p
    have : l = [] ∨ groups (l.map (fun c => (.cubicto (sixthPt c.p1) (sixthPt c.p2) (sixthPt c.p3) : Cmd ℚ))) =
        [l.map (fun c => .cubicto (sixthPt c.p1) (sixthPt c.p2) (sixthPt c.p3))] := by
      induction l with
      | nil => exact Or.inl rfl
      | cons c l ih =>
        refine Or.inr ?_
        rw [List.map_cons]
        unfold groups
        rcases ih with rfl | ih
        · rfl
        · rw [ih]
          cases l with
          | nil => rfl
          | cons d l => rfl
    unfold groups
    rcases this with rfl | h
    · rfl
    · rw [h]
      cases l with
      | nil => rfl
      | cons d l => rfl
  have hc : (TCmd.m (sixthPt b.p0) :: (b :: bs).map (fun c => (TCmd.c (sixthPt c.p1) (sixthPt c.p2) (sixthPt c.p3) : TCmd ℚ))).filterMap TCmd.toCmd =
      .moveto (sixthPt b.p0) :: (b :: bs).map (fun c => .cubicto (sixthPt c.p1) (sixthPt c.p2) (sixthPt c.p3)) := by
    rw [← hf]; rfl
  rw [hc, if_pos (by rfl), hg]
  rfl

/-- **C89** for circles: the circle of the test program, written with `%f` and read again, is one closed path of four curves through the rounded
control points; every coordinate has moved by at most half a millionth. -/
theorem circle_text (c : Vec2 Dbl) (r : Dbl)
    (h : ∀ b ∈ Cubic.circle c r, FinitePt b.p0 ∧ FinitePt b.p1 ∧ FinitePt b.p2 ∧ FinitePt b.p3) :
    ∃ f : Dbl → ℚ, (∀ s m, 0 ≤ m → |f (.num s m) - Dbl.val s m| ≤ 1 / 2000000) ∧ ∃ (b0 b1 b2 b3 : Cubic Dbl),
      Cubic.circle c r = [b0, b1, b2, b3] ∧ (let pt := fun p : Vec2 Dbl => (⟨f p.x, f p.y⟩ : Vec2 ℚ)
      (curvesText (Cubic.circle c r)).bind (makePath decLex) = some [Path.build [.moveto (pt b0.p0),
        .cubicto (pt b0.p1) (pt b0.p2) (pt b0.p3), .cubicto (pt b1.p1) (pt b1.p2) (pt b1.p3),
        .cubicto (pt b2.p1) (pt b2.p2) (pt b2.p3), .cubicto (pt b3.p1) (pt b3.p2) (pt b3.p3)]] ∧
      pt b0.p3 = pt b1.p0 ∧ pt b1.p3 = pt b2.p0 ∧ pt b2.p3 = pt b3.p0 ∧ pt b3.p3 = pt b0.p0) := by
  refine ⟨sixth, fun s m hm => (sixth_near ⟨s, m, rfl, hm⟩).1 s m rfl, _, _, _, _, rfl, ?_, rfl, rfl, rfl, rfl⟩
  exact curves_read _ _ (h _ (List.mem_cons_self ..)).1 (fun b hb => (h b hb).2)

/-- The circle of the test program (`main.cpp:223`). -/
theorem main_circle : (∀ b ∈ Cubic.circle (⟨FNum.lit (97 / 2), FNum.lit 50⟩ : Vec2 Dbl) (FNum.lit 35), FinitePt b.p0 ∧ FinitePt b.p1 ∧ FinitePt b.p2 ∧ FinitePt b.p3) ∧
    curvesText (Cubic.circle (⟨FNum.lit (97 / 2), FNum.lit 50⟩ : Vec2 Dbl) (FNum.lit 35)) =
      some ("m 83.500000 50.000000 c 83.500000 69.329966 67.829966 85.000000 48.500000 85.000000 " ++
        "c 29.170034 85.000000 13.500000 69.329966 13.500000 50.000000 " ++
        "c 13.500000 30.670034 29.170034 15.000000 48.500000 15.000000 " ++
        "c 67.829966 15.000000 83.500000 30.670034 83.500000 50.000000").toList := by
  have hb : ∀ x : Dbl, (match x with | .num _ m => decide (0 ≤ m) | _ => false) = true → x.Finite := by
    intro x hx
    cases x with
    | num s m => exact ⟨s, m, rfl, of_decide_eq_true hx⟩
    | inf s => cases hx
    | nan => cases hx
  have hl : ∀ b ∈ Cubic.circle (⟨FNum.lit (97 / 2), FNum.lit 50⟩ : Vec2 Dbl) (FNum.lit 35), ∀ x ∈ [b.p0.x, b.p0.y, b.p1.x, b.p1.y, b.p2.x, b.p2.y, b.p3.x, b.p3.y],
      (match x with | .num _ m => decide (0 ≤ m) | _ => false) = true := by decide +kernel
  refine ⟨fun b hb' => ?_, by decide +kernel⟩
  have := fun x hx => hb x (hl b hb' x hx)
  simp only [List.mem_cons, List.not_mem_nil, or_false, forall_eq_or_imp, forall_eq] at this
  obtain ⟨a, b, c, d, e, f, g, h⟩ := this
  exact ⟨⟨a, b⟩, ⟨c, d⟩, ⟨e, f⟩, ⟨g, h⟩⟩

end River
