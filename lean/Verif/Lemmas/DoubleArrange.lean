import Verif.Lemmas.DoubleLine
import Verif.Lemmas.PolygonGeneral

/-! # Contours with corners on the grid: the order of the sides computed with doubles is the exact one -/

namespace River

open Classical in
/-- The abscissas of sides with corners on the grid: at whole and half heights as computed with doubles, elsewhere exact. (At other heights
the code does not look.) -/
noncomputable def gridAbsc : Absc R64 := ⟨fun p s y => if ∃ h : ℤ, R64.q y = h / 2 then s.currX p y else R64.of (atHeight (K := ℚ) p s.target y)⟩

attribute [local instance] gridAbsc

/-- The side is straight, its ends are on the grid, and it is not horizontal. -/
structure GridSide (s : Side ℚ) : Prop where
  straight : s.Straight
  frm : OnGrid s.frm
  target : OnGrid s.seg.target
  steep : ¬ s.Flat

/-- The abscissa with rounding. -/
noncomputable def Side.xR (s : Side ℚ) (y : ℚ) : ℚ := Side.x (K := R64) s y

/-- `linX` at a half height: all is exact but the last two operations. -/
theorem linX_near {fx fy tx ty h : ℤ} (hfx : |fx| ≤ 2 ^ 15) (hfy : |fy| ≤ 2 ^ 15) (htx : |tx| ≤ 2 ^ 15) (hty : |ty| ≤ 2 ^ 15) (hne : ty ≠ fy)
    (hr : |(h : ℚ) / 2 - fy| ≤ |(ty : ℚ) - fy|) :
    |(Seg.linX (K := R64) ⟨R64.of tx, R64.of ty⟩ ⟨R64.of fx, R64.of fy⟩ (R64.of (h / 2))).q -
      (fx + ((h : ℚ) / 2 - fy) * (((tx : ℚ) - fx) / (ty - fy)))| ≤ 1 / 2 ^ 36 := by
  have H : ∀ {a : ℤ}, |a| ≤ 2 ^ 15 → Holds (R64.of a) a (2 ^ 15) := fun h => ⟨rfl, h⟩
  have dx : Holds (R64.of tx -. R64.of fx) (tx - fx) (2 ^ 16) := (H htx).sub (H hfx) (by norm_num)
  have dy : Holds (R64.of ty -. R64.of fy) (ty - fy) (2 ^ 16) := (H hty).sub (H hfy) (by norm_num)
  have hd0 : ((ty : ℚ) - fy) ≠ 0 := sub_ne_zero.2 (by exact_mod_cast hne)
  have dyq : |(ty : ℚ) - fy| ≤ 2 ^ 16 := by exact_mod_cast dy.le
  have dxq : |(tx : ℚ) - fx| ≤ 2 ^ 16 := by exact_mod_cast dx.le
  have hm : |h - 2 * fy| ≤ 2 ^ 17 := by
    have : |((h - 2 * fy : ℤ) : ℚ)| ≤ 2 ^ 17 := by
      push_cast
      rw [show (h : ℚ) - 2 * fy = 2 * (h / 2 - fy) by ring, abs_mul, abs_of_nonneg (by norm_num : (0 : ℚ) ≤ 2)]
      linarith
    exact_mod_cast this
  have e1 : (R64.of ((h : ℚ) / 2) -. R64.of fy) = R64.of (((h - 2 * fy : ℤ) : ℚ) / 2) := by
    rw [R64.sub_eq]
    have := rnd_half (h - 2 * fy) (lt_of_le_of_lt hm (by norm_num))
    refine congrArg R64.of ?_
    rw [← this]
    congr 1
    change (h : ℚ) / 2 - (fy : ℚ) = _
    push_cast; ring
  have e2 : ((R64.of tx -. R64.of fx) *. (R64.of ((h : ℚ) / 2) -. R64.of fy)) = R64.of ((((tx - fx) * (h - 2 * fy) : ℤ) : ℚ) / 2) := by
    rw [R64.mul_eq, e1]
    have hb : |(tx - fx) * (h - 2 * fy)| < 2 ^ 53 := by
      rw [abs_mul]
      calc |tx - fx| * |h - 2 * fy| ≤ 2 ^ 16 * 2 ^ 17 := mul_le_mul dx.le hm (abs_nonneg _) (by norm_num)
        _ < 2 ^ 53 := by norm_num
    have := rnd_half _ hb
    refine congrArg R64.of ?_
    rw [← this]
    congr 1
    rw [dx.q]
    change ((tx - fx : ℤ) : ℚ) * (((h - 2 * fy : ℤ) : ℚ) / 2) = _
    push_cast; ring
  obtain ⟨q, hq⟩ : ∃ q : ℚ, q = ((h : ℚ) / 2 - fy) * (((tx : ℚ) - fx) / (ty - fy)) := ⟨_, rfl⟩
  have e3 : ((R64.of tx -. R64.of fx) *. (R64.of ((h : ℚ) / 2) -. R64.of fy) /. (R64.of ty -. R64.of fy)) = R64.of (rndSigned q) := by
    rw [R64.div_eq, e2, dy.q, hq]
    refine congrArg R64.of (congrArg rndSigned ?_)
    change ((((tx - fx) * (h - 2 * fy) : ℤ) : ℚ) / 2) / ((ty - fy : ℤ) : ℚ) = _
    push_cast
    field_simp
  have hqb : |q| ≤ 2 ^ 16 := by
    rw [hq, abs_mul, abs_div]
    calc |(h : ℚ) / 2 - fy| * (|(tx : ℚ) - fx| / |(ty : ℚ) - fy|) ≤ |(ty : ℚ) - fy| * (|(tx : ℚ) - fx| / |(ty : ℚ) - fy|) := by gcongr
      _ = |(tx : ℚ) - fx| := by rw [mul_div_cancel₀ _ (abs_ne_zero.2 hd0)]
      _ ≤ 2 ^ 16 := dxq
  have r1 : |rndSigned q - q| ≤ 1 / 2 ^ 37 := by
    refine (rnd_err (E := 16) (by norm_num) (lt_of_le_of_lt hqb (by norm_num))).trans (by norm_num)
  have hfq : |(fx : ℚ)| ≤ 2 ^ 15 := by exact_mod_cast hfx
  have hsum : |rndSigned q + fx| < 2 ^ 17 := by
    have := abs_add_le (rndSigned q - q) (q + fx)
    rw [show rndSigned q - q + (q + fx) = rndSigned q + fx by ring] at this
    have h2 := abs_add_le q fx
    have : (1 : ℚ) / 2 ^ 37 < 1 := by norm_num
    norm_num at *
    linarith
  have r2 : |rndSigned (rndSigned q + fx) - (rndSigned q + fx)| ≤ 1 / 2 ^ 37 := by
    refine (rnd_err (E := 16) (by norm_num) (lt_of_lt_of_le hsum (by norm_num))).trans (by norm_num)
  have e4 : (Seg.linX (K := R64) ⟨R64.of tx, R64.of ty⟩ ⟨R64.of fx, R64.of fy⟩ (R64.of (h / 2))).q = rndSigned (rndSigned q + fx) := by
    unfold Seg.linX
    rw [R64.add_eq, e3]
    rfl
  rw [e4, ← hq]
  have := abs_add_le (rndSigned (rndSigned q + fx) - (rndSigned q + fx)) (rndSigned q - q)
  rw [show rndSigned (rndSigned q + fx) - (rndSigned q + fx) + (rndSigned q - q) = rndSigned (rndSigned q + fx) - (fx + q) by ring] at this
  have h37 : (1 : ℚ) / 2 ^ 37 + 1 / 2 ^ 37 = 1 / 2 ^ 36 := by norm_num
  linarith

/-- The abscissa as computed with doubles. -/
def Side.cur (s : Side ℚ) (y : ℚ) : ℚ := Seg.currX (K := R64) s.seg s.frm y

theorem Side.xR_def (s : Side ℚ) (y : ℚ) : s.xR y = if y = s.bot.y then s.bot.x else if y = s.top.y then s.top.x else
    open Classical in if ∃ h : ℤ, y = h / 2 then s.cur y else atHeight s.frm s.seg.target y := rfl

theorem Side.xR_bot (s : Side ℚ) : s.xR s.bot.y = s.bot.x := by rw [Side.xR_def, if_pos rfl]

theorem Side.xR_top {s : Side ℚ} (h : ¬ s.Flat) : s.xR s.top.y = s.top.x := by
  rw [Side.xR_def, if_neg (Side.bot_lt_top h).ne', if_pos rfl]

/-- At heights that are not whole or half the abscissa is exact. -/
theorem GridSide.xR_off {s : Side ℚ} (g : GridSide s) {y : ℚ} (h : ¬ ∃ h : ℤ, y = h / 2) : s.xR y = s.x y := by
  rw [Side.xR_def, if_neg h]
  rw [Side.x_atHeight g.straight g.steep]
  have := Side.x_atHeight g.straight g.steep y
  unfold Side.x at this
  split
  · next e => rw [if_pos e] at this; exact this
  · next e1 =>
    split
    · next e => rw [if_neg e1, if_pos e] at this; exact this
    · rfl

/-- At the others it is off by very little. -/
theorem GridSide.xR_near {s : Side ℚ} (g : GridSide s) {y : ℚ} (h1 : s.bot.y ≤ y) (h2 : y ≤ s.top.y) : |s.xR y - s.x y| ≤ 1 / 2 ^ 36 := by
  by_cases hh : ∃ h : ℤ, y = h / 2
  swap
  · rw [g.xR_off hh, sub_self, abs_zero]; positivity
  rw [Side.xR_def]
  split
  · next e =>
    have : s.x y = s.bot.x := by unfold Side.x; rw [if_pos e]
    rw [this, sub_self, abs_zero]; positivity
  · next e1 =>
    split
    · next e =>
      have : s.x y = s.top.x := by unfold Side.x; rw [if_neg e1, if_pos e]
      rw [this, sub_self, abs_zero]; positivity
    · rw [Side.x_atHeight g.straight g.steep]
      obtain ⟨h, rfl⟩ := hh
      obtain ⟨r, i, frm, seg, pt⟩ := s
      obtain ⟨gs, ⟨fx, fy, hfx, hfy, gf⟩, ⟨tx, ty, htx, hty, gt⟩, gst⟩ := g
      simp only at gf gt
      subst gf
      have hseg : seg = .line ⟨(tx : ℚ), (ty : ℚ)⟩ := by
        have : seg = .line seg.target := gs
        rw [gt] at this; exact this
      subst hseg
      have hne : ty ≠ fy := by
        rintro rfl
        exact gst rfl
      have hr : |(h : ℚ) / 2 - fy| ≤ |(ty : ℚ) - fy| := by
        unfold Side.bot Side.up at h1
        unfold Side.top Side.up at h2
        simp only [Seg.target] at h1 h2
        by_cases hu : (fy : ℚ) < ty
        · simp only [hu, decide_true, if_true] at h1 h2
          rw [abs_of_nonneg (by linarith), abs_of_nonneg (by linarith)]; linarith
        · simp only [hu, decide_false, Bool.false_eq_true, if_false] at h1 h2
          rw [abs_of_nonpos (by linarith), abs_of_nonpos (by linarith)]; linarith
      exact linX_near hfx hfy htx hty hne hr

/-- Fractions with small denominators that differ differ much. -/
theorem frac_gap {N M D E : ℤ} (hD : D ≠ 0) (hE : E ≠ 0) (lD : |D| ≤ 2 ^ 16) (lE : |E| ≤ 2 ^ 16) (h : (N : ℚ) / (2 * D) < M / (2 * E)) :
    1 / 2 ^ 33 ≤ (M : ℚ) / (2 * E) - N / (2 * D) := by
  have hDq : (D : ℚ) ≠ 0 := by exact_mod_cast hD
  have hEq : (E : ℚ) ≠ 0 := by exact_mod_cast hE
  have e : (M : ℚ) / (2 * E) - N / (2 * D) = ((M * D - N * E : ℤ) : ℚ) / (2 * (D * E)) := by
    push_cast; field_simp
  have hpos : 0 < (M : ℚ) / (2 * E) - N / (2 * D) := sub_pos.2 h
  have hk : M * D - N * E ≠ 0 := by
    intro h0
    rw [e, h0] at hpos
    simp at hpos
  have h1 : (1 : ℚ) ≤ |((M * D - N * E : ℤ) : ℚ)| := by exact_mod_cast Int.one_le_abs hk
  rw [← abs_of_pos hpos, e, abs_div]
  have hden : |(2 * ((D : ℚ) * E))| ≤ 2 ^ 33 := by
    rw [abs_mul, abs_mul, abs_of_pos (by norm_num : (0 : ℚ) < 2)]
    have a1 : |(D : ℚ)| ≤ 2 ^ 16 := by exact_mod_cast lD
    have a2 : |(E : ℚ)| ≤ 2 ^ 16 := by exact_mod_cast lE
    calc 2 * (|(D : ℚ)| * |(E : ℚ)|) ≤ 2 * (2 ^ 16 * 2 ^ 16) := by gcongr
      _ = 2 ^ 33 := by norm_num
  have hdpos : 0 < |(2 * ((D : ℚ) * E))| := abs_pos.2 (by positivity)
  calc (1 : ℚ) / 2 ^ 33 ≤ 1 / |(2 * ((D : ℚ) * E))| := one_div_le_one_div_of_le hdpos hden
    _ ≤ |((M * D - N * E : ℤ) : ℚ)| / |(2 * ((D : ℚ) * E))| := by gcongr

/-- At whole and half heights abscissas are such fractions. -/
theorem GridSide.frac {s : Side ℚ} (g : GridSide s) (h : ℤ) : ∃ N D : ℤ, D ≠ 0 ∧ |D| ≤ 2 ^ 16 ∧ s.x ((h : ℚ) / 2) = N / (2 * D) := by
  rw [Side.x_atHeight g.straight g.steep]
  obtain ⟨gs, ⟨fx, fy, hfx, hfy, gf⟩, ⟨tx, ty, htx, hty, gt⟩, gst⟩ := g
  rw [gf, gt]
  have hne : ty - fy ≠ 0 := by
    intro e
    apply gst
    unfold Side.Flat
    rw [gf, gt, sub_eq_zero.1 e]
  refine ⟨2 * fx * (ty - fy) + (h - 2 * fy) * (tx - fx), ty - fy, hne, ?_, ?_⟩
  · exact (abs_sub _ _).trans ((add_le_add hty hfy).trans (by norm_num))
  · have : ((ty : ℚ) - fy) ≠ 0 := by exact_mod_cast hne
    unfold atHeight
    push_cast
    field_simp

/-- Different abscissas are in the same order with rounding. -/
theorem GridSide.xR_lt {s t : Side ℚ} (gs : GridSide s) (gt : GridSide t) {y : ℚ} (s1 : s.bot.y ≤ y) (s2 : y ≤ s.top.y) (t1 : t.bot.y ≤ y) (t2 : y ≤ t.top.y)
    (h : s.x y < t.x y) : s.xR y < t.xR y := by
  by_cases hh : ∃ h : ℤ, y = h / 2
  · have n1 := abs_le.1 (gs.xR_near s1 s2)
    have n2 := abs_le.1 (gt.xR_near t1 t2)
    obtain ⟨k, rfl⟩ := hh
    obtain ⟨N, D, hD, lD, e1⟩ := gs.frac k
    obtain ⟨M, E, hE, lE, e2⟩ := gt.frac k
    rw [e1, e2] at h
    have := frac_gap hD hE lD lE h
    rw [← e1, ← e2] at this
    have c : (1 : ℚ) / 2 ^ 36 + 1 / 2 ^ 36 < 1 / 2 ^ 33 := by norm_num
    linarith [n1.1, n1.2, n2.1, n2.2]
  · rw [gs.xR_off hh, gt.xR_off hh]; exact h

/-- The same for an abscissa and a whole number. -/
theorem GridSide.xR_int {s : Side ℚ} (gs : GridSide s) {k a : ℤ} (s1 : s.bot.y ≤ k) (s2 : (k : ℚ) ≤ s.top.y) :
    ((a : ℚ) ≤ s.xR k → a ≤ s.x k) ∧ (s.xR k ≤ a → s.x k ≤ a) := by
  have n1 := abs_le.1 (gs.xR_near s1 s2)
  obtain ⟨N, D, hD, lD, e1⟩ := gs.frac (2 * k)
  have ek : (((2 * k : ℤ) : ℚ) / 2) = k := by push_cast; ring
  rw [ek] at e1
  have ea : (a : ℚ) = ((2 * a : ℤ) : ℚ) / (2 * ((1 : ℤ) : ℚ)) := by push_cast; ring
  have c : (1 : ℚ) / 2 ^ 36 < 1 / 2 ^ 33 := by norm_num
  constructor
  · intro h
    by_contra hc
    rw [not_le] at hc
    rw [e1, ea] at hc
    have := frac_gap hD one_ne_zero lD (by norm_num) hc
    rw [← e1, ← ea] at this
    linarith [n1.1, n1.2]
  · intro h
    by_contra hc
    rw [not_le] at hc
    rw [e1, ea] at hc
    have := frac_gap one_ne_zero hD (by norm_num) lD hc
    rw [← e1, ← ea] at this
    linarith [n1.1, n1.2]

/-- A side to the left of another one is so with rounding. -/
theorem GridSide.leftOf {s t : Side ℚ} (gs : GridSide s) (gt : GridSide t) (h : LeftOf s t) : LeftOf (K := R64) s t := by
  intro y h1 h2 h3 h4
  change Side.xR s y ≤ Side.xR t y ∧ (Side.xR s y = Side.xR t y → (s.bot = t.bot ∧ y = s.bot.y) ∨ (s.top = t.top ∧ y = s.top.y))
  obtain ⟨k1, k2⟩ := h y h1 h2 h3 h4
  rcases k1.lt_or_eq with hl | he
  · have := gs.xR_lt gt h1 h3 h2 h4 hl
    exact ⟨this.le, fun e => absurd e this.ne⟩
  · have hk := k2 he
    refine ⟨le_of_eq ?_, fun _ => hk⟩
    rcases hk with ⟨e, rfl⟩ | ⟨e, rfl⟩
    · rw [Side.xR_bot, e, Side.xR_bot]
    · rw [Side.xR_top gs.steep, e, Side.xR_top gt.steep]

theorem OnGrid.int {p : Vec2 ℚ} (h : OnGrid p) : ∃ a b : ℤ, |a| ≤ 2 ^ 15 ∧ |b| ≤ 2 ^ 15 ∧ p.x = a ∧ p.y = b := by
  obtain ⟨a, b, ha, hb, rfl⟩ := h
  exact ⟨a, b, ha, hb, rfl, rfl⟩

/-- Two sides one of which is to the left of the other: it is not to the right as well. -/
theorem LeftOf.asymm64 {s t : Side ℚ} (h1 : LeftOf (K := R64) s t) (h2 : LeftOf (K := R64) t s) (o1 : s.bot.y < t.top.y) (o2 : t.bot.y < s.top.y)
    (ls : ¬ s.Flat) (lt : ¬ t.Flat) : False := by
  obtain ⟨y, hy1, hy2⟩ := exists_between (max_lt (lt_min (Side.bot_lt_top ls) o1) (lt_min o2 (Side.bot_lt_top lt)))
  rw [max_lt_iff] at hy1
  rw [lt_min_iff] at hy2
  have k1 := h1 y hy1.1.le hy1.2.le hy2.1.le hy2.2.le
  have k2 := h2 y hy1.2.le hy1.1.le hy2.2.le hy2.1.le
  rcases k1.2 (le_antisymm k1.1 k2.1) with ⟨_, e⟩ | ⟨_, e⟩
  · exact hy1.1.ne' e
  · exact hy2.1.ne e

/-- Contours in general position whose corners are on the grid and whose sides meet only in common ends. -/
structure GridRings (rings : List (Ring ℚ)) : Prop where
  general : General rings
  grid : ∀ s ∈ sides rings, OnGrid s.frm ∧ OnGrid s.seg.target
  ends : ∀ s ∈ sides rings, ∀ t ∈ sides rings, s ≠ t → SideEnds s t

/-- Contours in general position whose corners are on the grid and whose sides meet at most in common ends or, if horizontal, run along each
other. -/
structure GridArranged (rings : List (Ring ℚ)) : Prop where
  general : General rings
  grid : ∀ s ∈ sides rings, OnGrid s.frm ∧ OnGrid s.seg.target
  ends : EndsMeet rings
  noSpan : ∀ {s t : Side ℚ}, s ∈ sides rings → t ∈ sides rings → ¬ s.Flat → ¬ t.Flat → s ≠ t → ¬ SameSpan s t

theorem GridArranged.arrangedQ {rings : List (Ring ℚ)} (h : GridArranged rings) : Arranged rings := h.general.arranged h.ends

/-- No two sides coincide. -/
theorem GridRings.noSpan {rings : List (Ring ℚ)} (h : GridRings rings) {s t : Side ℚ} (hs : s ∈ sides rings) (ht : t ∈ sides rings) (ls : ¬ s.Flat) (lt : ¬ t.Flat)
    (hne : s ≠ t) : ¬ SameSpan s t := by
  rintro ⟨h1, h2, _⟩
  have hst := h.general.straight
  have hb := Side.bot_lt_top ls
  obtain ⟨y, y1, y2⟩ := exists_between hb
  have tw := twin_of_span (hst s hs) (hst t ht) ls lt h1 h2
  have p1 := Side.onSeg_x (hst s hs) ls y1.le y2.le
  have p2 := Side.onSeg_x (hst t ht) lt (y := y) (h1 ▸ y1.le) (h2 ▸ y2.le)
  rw [← tw.2 y y1.le y2.le] at p2
  rcases s.end_cases (h.ends s hs t ht hne _ p1 p2).1 with e | e
  · exact y1.ne' (congrArg Vec2.y e)
  · exact y2.ne (congrArg Vec2.y e)

theorem GridRings.arranged {rings : List (Ring ℚ)} (h : GridRings rings) : GridArranged rings :=
  ⟨h.general, h.grid, fun s hs t ht hne => Or.inr (Or.inr (h.ends s hs t ht hne)), fun hs ht ls lt hne => h.noSpan hs ht ls lt hne⟩

theorem GridArranged.side {rings : List (Ring ℚ)} (h : GridArranged rings) {s : Side ℚ} (hs : s ∈ sides rings) (l : ¬ s.Flat) : GridSide s :=
  ⟨h.general.straight s hs, (h.grid s hs).1, (h.grid s hs).2, l⟩

theorem GridArranged.bot_grid {rings : List (Ring ℚ)} (h : GridArranged rings) {s : Side ℚ} (hs : s ∈ sides rings) : OnGrid s.bot ∧ OnGrid s.top := by
  obtain ⟨h1, h2⟩ := h.grid s hs
  rcases s.ends_eq with ⟨e1, e2⟩ | ⟨e1, e2⟩
  · rw [← e1, ← e2]; exact ⟨h1, h2⟩
  · rw [← e1, ← e2]; exact ⟨h2, h1⟩

/-- The order of two sides is the exact one. -/
theorem GridArranged.leftOf_iff {rings : List (Ring ℚ)} (h : GridArranged rings) {s t : Side ℚ} (hs : s ∈ sides rings) (ht : t ∈ sides rings) (ls : ¬ s.Flat) (lt : ¬ t.Flat)
    (hne : s ≠ t) (o1 : s.bot.y < t.top.y) (o2 : t.bot.y < s.top.y) : LeftOf (K := R64) s t ↔ LeftOf s t := by
  refine ⟨fun h1 => ?_, (h.side hs ls).leftOf (h.side ht lt)⟩
  rcases h.arrangedQ.apart s hs t ht ls lt hne o1 o2 with h2 | h2 | h2
  · exact h2
  · exact absurd ((h.side ht lt).leftOf (h.side hs ls) h2) (fun h2 => h1.asymm64 h2 o1 o2 ls lt)
  · exact absurd h2.1 (h.noSpan hs ht ls lt hne)

theorem GridArranged.noTwin64 {rings : List (Ring ℚ)} (h : GridArranged rings) {s t : Side ℚ} (hs : s ∈ sides rings) (ht : t ∈ sides rings) (ls : ¬ s.Flat) (lt : ¬ t.Flat)
    (hne : s ≠ t) : ¬ Twin (K := R64) s t := fun hT => h.noSpan hs ht ls lt hne hT.1

/-- Averages of whole numbers are exact. -/
theorem half64 {a b : ℚ} (ha : ∃ m : ℤ, |m| ≤ 2 ^ 15 ∧ a = m) (hb : ∃ m : ℤ, |m| ≤ 2 ^ 15 ∧ b = m) :
    ((R64.of a +. R64.of b) /. FNum.lit 2 : R64) = R64.of ((a + b) / 2) ∧ ∃ m : ℤ, (a + b) / 2 = m / 2 := by
  obtain ⟨m, hm, rfl⟩ := ha
  obtain ⟨n, hn, rfl⟩ := hb
  have hmn : |m + n| < 2 ^ 53 := lt_of_le_of_lt ((abs_add_le m n).trans (add_le_add hm hn)) (by norm_num)
  refine ⟨?_, m + n, by push_cast; ring⟩
  have e1 : (R64.of m +. R64.of n : R64) = R64.of ((m + n : ℤ) : ℚ) := by
    rw [R64.add_eq]
    refine congrArg R64.of ?_
    rw [← rnd_int _ hmn]
    congr 1
    change (m : ℚ) + n = _
    push_cast; ring
  rw [e1, R64.div_eq, R64.two]
  refine congrArg R64.of ?_
  have := rnd_half _ hmn
  change rndSigned (((m + n : ℤ) : ℚ) / 2) = _
  rw [this]; push_cast; ring

theorem GridArranged.arranged64 {rings : List (Ring ℚ)} (h : GridArranged rings) : Arranged (K := R64) rings := by
  have A := h.arrangedQ
  have inty : ∀ {s : Side ℚ}, s ∈ sides rings → (∃ m : ℤ, |m| ≤ 2 ^ 15 ∧ s.bot.y = m) ∧ ∃ m : ℤ, |m| ≤ 2 ^ 15 ∧ s.top.y = m := by
    intro s hs
    obtain ⟨h1, h2⟩ := h.bot_grid hs
    obtain ⟨_, b, _, hb, _, e⟩ := h1.int
    obtain ⟨_, d, _, hd, _, e'⟩ := h2.int
    exact ⟨⟨b, hb, e⟩, d, hd, e'⟩
  have fm : ∀ {s t : Side ℚ}, s ∈ sides rings → t ∈ sides rings → fmin (K := R64) s.top.y t.top.y = min s.top.y t.top.y ∧
      (R64.of s.bot.y +. fmin (K := R64) s.top.y t.top.y) /. FNum.lit 2 = R64.of ((s.bot.y + min s.top.y t.top.y) / 2) ∧
      ∃ m : ℤ, (s.bot.y + min s.top.y t.top.y) / 2 = m / 2 := by
    intro s t hs ht
    have e : fmin (K := R64) s.top.y t.top.y = min s.top.y t.top.y := fmin_eq_min (K := R64) _ _
    have hmin : ∃ m : ℤ, |m| ≤ 2 ^ 15 ∧ min s.top.y t.top.y = m := by
      rcases min_choice s.top.y t.top.y with e | e <;> rw [e]
      · exact (inty hs).2
      · exact (inty ht).2
    rw [e]
    exact ⟨rfl, half64 (inty hs).1 hmin⟩
  refine ⟨A.linked, ?_, A.flags, ?_, ?_, ?_, ?_, A.turn, A.wide, ?_, ?_, A.start, ?_, ?_, A.overlap⟩
  · intro (s : Side ℚ) hs
    have := (h.general.range s hs).2
    rw [Exact.neg_eq, Exact.max_eq] at this
    simp only [Rat.cast_eq_id, id_eq] at this
    exact this
  · intro (s : Side ℚ) hs (t : Side ℚ) ht ls lt hne o1 o2
    rcases A.apart s hs t ht ls lt hne o1 o2 with h2 | h2 | h2
    · exact Or.inl ((h.leftOf_iff hs ht ls lt hne o1 o2).2 h2)
    · exact Or.inr (Or.inl ((h.leftOf_iff ht hs lt ls hne.symm o2 o1).2 h2))
    · exact absurd h2.1 (h.noSpan hs ht ls lt hne)
  · intro (s : Side ℚ) hs (t : Side ℚ) ht ls lt hne hb
    obtain ⟨e1, e2, _⟩ := fm hs ht
    have h1 := Side.ht (s := s) ls
    have h2 := Side.ht (s := t) lt
    have h3 : s.bot.y < min s.top.y t.top.y := lt_min h1 (by rw [show (s.bot : Vec2 ℚ) = t.bot from hb]; exact h2)
    have key : s.bot.y < (s.bot.y + min s.top.y t.top.y) / 2 ∧ (s.bot.y + min s.top.y t.top.y) / 2 < min s.top.y t.top.y := by
      constructor <;> linarith
    refine ⟨?_, ?_⟩
    · exact lt_of_lt_of_eq (b := R64.of _) key.1 e2.symm
    · exact lt_of_eq_of_lt (b := R64.of _) e2 (lt_of_lt_of_eq (b := R64.of _) key.2 e1.symm)
  · intro (s : Side ℚ) hs (t : Side ℚ) ht ls lt hne hsp
    exact absurd hsp (h.noSpan hs ht ls lt hne)
  · intro (a : Side ℚ) ha (b : Side ℚ) hb hf hau hbu (u : Side ℚ) hu hua hub hab l1 l2
    obtain ⟨sa, sb, fl, hw⟩ := (follows_iff (K := ℚ) ha hb).1 hf
    have eb : b.bot = b.frm := by rw [Side.bot, show Side.up (K := ℚ) b = true from hbu]; rfl
    have ea : a.bot = a.seg.target := by rw [Side.bot, show Side.up (K := ℚ) a = false from hau]; rfl
    have hy : b.frm.y = a.seg.target.y := (hw.height h.general.linked ha).1
    have hay : a.bot.y = b.bot.y := by rw [ea, eb, hy]
    have hab' : u.bot.y ≤ b.bot.y ∧ b.bot.y < u.top.y := hab
    have su : ¬ u.Flat := by rw [Side.flat_iff]; exact (hab'.1.trans_lt hab'.2).ne
    have tb := Side.ht sb
    have ta := Side.ht sa
    refine A.minima a ha b hb hf hau hbu u hu hua hub hab ((h.leftOf_iff hb hu sb su hub.symm hab'.2 (hab'.1.trans_lt tb)).1 l1) (Or.inl ?_)
    rcases l2 with l2 | l2
    · exact (h.leftOf_iff hu ha su sa hua (hab'.1.trans_lt (hay ▸ ta)) (hay ▸ hab'.2)).1 l2
    · exact absurd l2.1 (h.noSpan hu ha su sa hua)
  · intro (f : Side ℚ) hf hfl (s : Side ℚ) hs hst h1 h2 hc
    obtain ⟨a, k, _, _, e1, e2⟩ := (h.grid f hf).1.int
    obtain ⟨b, _, _, _, e3, _⟩ := (h.grid f hf).2.int
    have hc' : min f.frm.x f.seg.target.x ≤ s.xR f.frm.y ∧ s.xR f.frm.y ≤ max f.frm.x f.seg.target.x := hc
    have i1 : ∃ m : ℤ, min f.frm.x f.seg.target.x = m := by
      rcases min_choice f.frm.x f.seg.target.x with e | e <;> rw [e]
      · exact ⟨a, e1⟩
      · exact ⟨b, e3⟩
    have i2 : ∃ m : ℤ, max f.frm.x f.seg.target.x = m := by
      rcases max_choice f.frm.x f.seg.target.x with e | e <;> rw [e]
      · exact ⟨a, e1⟩
      · exact ⟨b, e3⟩
    obtain ⟨m, hm⟩ := i1
    obtain ⟨n, hn⟩ := i2
    refine A.touch f hf hfl s hs hst h1 h2 ?_
    have h1' : s.bot.y ≤ f.frm.y := h1
    have h2' : f.frm.y ≤ s.top.y := h2
    unfold Side.Covers
    rw [hm, hn, e2] at hc'
    rw [e2] at h1' h2'
    rw [hm, hn, e2]
    exact ⟨((h.side hs hst).xR_int h1' h2').1 hc'.1, ((h.side hs hst).xR_int h1' h2').2 hc'.2⟩
  · intro (f : Side ℚ) hf hfl hth p hp (s : Side ℚ) hs (t : Side ℚ) ht ls lt e1 e2 hne
    exact absurd (A.corner f hf hfl hth p hp s hs t ht ls lt e1 e2 hne).1 (h.noSpan hs ht ls lt hne)
  · intro (s : Side ℚ) hs (t : Side ℚ) ht (y : ℚ) hy h1 h2
    have : ∃ m : ℤ, y = m / 2 := by
      rcases hy with rfl | rfl
      · obtain ⟨m, _, e⟩ := (inty ht).1
        exact ⟨2 * m, e.trans (by push_cast; ring)⟩
      · obtain ⟨m, _, e⟩ := (inty ht).2
        exact ⟨2 * m, e.trans (by push_cast; ring)⟩
    exact if_pos this
  · intro (s : Side ℚ) hs (t : Side ℚ) ht ls lt hne hb
    obtain ⟨_, e2, m, e3⟩ := fm hs ht
    exact if_pos ⟨m, (congrArg R64.q e2).trans e3⟩

/-! ## what follows for the result -/

open Classical in
theorem GridArranged.leftSides64 {rings : List (Ring ℚ)} (h : GridArranged rings) {s : Side ℚ} (hs : s ∈ sides rings) {y : ℚ} (hy : s.Above y) :
    leftSides (K := R64) rings s y = leftSides rings s y := by
  have hy' : s.bot.y ≤ y ∧ y < s.top.y := hy
  have ls : ¬ s.Flat := by rw [Side.flat_iff]; exact (hy'.1.trans_lt hy'.2).ne
  refine List.filter_congr (fun (t : Side ℚ) ht => ?_)
  rw [decide_eq_decide]
  refine ⟨fun ⟨h1, h2, h3⟩ => ⟨h1, h2, ?_⟩, fun ⟨h1, h2, h3⟩ => ⟨h1, h2, ?_⟩⟩
  all_goals
    have h1' : t.bot.y ≤ y ∧ y < t.top.y := h1
    have lt : ¬ t.Flat := by rw [Side.flat_iff]; exact (h1'.1.trans_lt h1'.2).ne
  · exact (h.leftOf_iff ht hs lt ls h2 (h1'.1.trans_lt hy'.2) (hy'.1.trans_lt h1'.2)).1 h3
  · exact (h.leftOf_iff ht hs lt ls h2 (h1'.1.trans_lt hy'.2) (hy'.1.trans_lt h1'.2)).2 h3

theorem SameSpan.flat {s t : Side ℚ} (h : SameSpan s t) (ls : ¬ s.Flat) : ¬ t.Flat := by
  rw [Side.flat_iff] at ls ⊢
  rw [← h.1, ← h.2.1]; exact ls

open Classical in
theorem GridArranged.twins64 {rings : List (Ring ℚ)} (h : GridArranged rings) {s : Side ℚ} (hs : s ∈ sides rings) (ls : ¬ s.Flat) :
    twins (K := R64) rings s = [] ∧ twins rings s = [] := by
  constructor
  · refine List.filter_eq_nil_iff.2 (fun (t : Side ℚ) ht => ?_)
    rw [decide_eq_true_eq]
    rintro ⟨h1, h2⟩
    have hsp : SameSpan t s := h2.1
    have lt : ¬ t.Flat := by
      rw [Side.flat_iff] at ls ⊢
      rw [hsp.1, hsp.2.1]; exact ls
    exact h.noSpan ht hs lt ls h1 hsp
  · refine List.filter_eq_nil_iff.2 (fun (t : Side ℚ) ht => ?_)
    rw [decide_eq_true_eq]
    rintro ⟨h1, h2⟩
    have hsp : SameSpan t s := h2.1
    have lt : ¬ t.Flat := by
      rw [Side.flat_iff] at ls ⊢
      rw [hsp.1, hsp.2.1]; exact ls
    exact h.noSpan ht hs lt ls h1 hsp

theorem GridArranged.directed64 {rings : List (Ring ℚ)} (h : GridArranged rings) {ct : ClipType} {fr : FillRule} {σ : Int} (D : Directed rings ct fr σ) :
    Directed (K := R64) rings ct fr σ := by
  intro (s : Side ℚ) hs (y : ℚ) hy (C : List (Side ℚ)) (E : List (Side ℚ)) hp
  have hy' : s.bot.y ≤ y ∧ y < s.top.y := hy
  have ls : ¬ s.Flat := by rw [Side.flat_iff]; exact (hy'.1.trans_lt hy'.2).ne
  have hp' : (C ++ E).Perm (twins rings s) := by
    rw [(h.twins64 hs ls).2]
    have := (h.twins64 hs ls).1
    exact this ▸ hp
  have hd := D s hs y hy C E hp'
  rw [← h.leftSides64 hs hy] at hd
  exact hd

theorem GridArranged.outline {rings : List (Ring ℚ)} (h : GridArranged rings) {ct : ClipType} {fr : FillRule} {σ : Int} {B : List (Side ℚ)}
    (O : Outline (K := R64) rings ct fr σ B) : Outline rings ct fr σ B := by
  have above : ∀ s : Side ℚ, ¬ s.Flat → s.Above s.bot.y := fun s ls => ⟨le_refl _, Side.ht ls⟩
  have bd : ∀ s ∈ sides rings, ¬ s.Flat → (Boundary (K := R64) rings ct fr s s.bot.y ↔ Boundary rings ct fr s s.bot.y) := by
    intro s hs ls
    have e1 := h.leftSides64 hs (above s ls)
    have e2 := (h.twins64 hs ls).1.trans (h.twins64 hs ls).2.symm
    unfold Boundary
    rw [← e1, ← e2]
    exact Iff.rfl
  refine ⟨fun s hs => ?_, O.once.imp_of_mem (fun {s t} hs ht hst => ⟨hst.1, fun hT => ?_⟩), fun s hs ls hb => ?_, fun s hs => ?_⟩
  · obtain ⟨h1, h2, h3⟩ := O.mem s hs
    exact ⟨h1, h2, (bd s h1 h2).1 h3⟩
  · obtain ⟨h1, h2, _⟩ := O.mem s hs
    obtain ⟨h3, h4, _⟩ := O.mem t ht
    exact h.noSpan h1 h3 h2 h4 hst.1 hT.1
  · rcases O.all s hs ls ((bd s hs ls).2 hb) with h1 | ⟨t, h1, h2⟩
    · exact Or.inl h1
    · obtain ⟨h3, h4, _⟩ := O.mem t h1
      by_cases e : t = s
      · exact Or.inl (e ▸ h1)
      · exact absurd h2.1 (h.noSpan h3 hs h4 ls e)
  · obtain ⟨h1, h2, h3⟩ := O.mem s hs
    have := O.dir s hs
    rw [← h.leftSides64 h1 (above s h2)]
    exact this

/-! ## the sides are not broken -/

section
variable {K : Type} [FTrans K] [LinearOrder K] [LawfulOrd K]
attribute [local instance 10000] FTrans.toFNum

/-- No breaks are collected if no two different sides have any. -/
theorem collectBreaks_none {N : List (Vtx K)} (env : Env K) (hok : env.Ok)
    (h : ∀ (i j : Nat) (v w : Vtx K), i ≠ j → N[i]? = some v → N[j]? = some w → intersectVtx env.csort i j v w = some []) :
    collectBreaks env N = some [] := by
  obtain ⟨s1, s2, s3⟩ := scanProcess_spec env.segAddr hok.segAddr (N.map (fun v => v.seg.boundary v.pt))
    ⟨⟨FNum.lit 0, FNum.lit 0⟩, ⟨FNum.lit 0, FNum.lit 0⟩⟩
  unfold collectBreaks
  obtain ⟨calls, hcalls⟩ : ∃ calls, calls = scanProcess env.segAddr (N.map (fun v => v.seg.boundary v.pt))
    ⟨⟨FNum.lit 0, FNum.lit 0⟩, ⟨FNum.lit 0, FNum.lit 0⟩⟩ := ⟨_, rfl⟩
  rw [← hcalls] at s1 s2 s3 ⊢
  have hc : ∀ c ∈ calls, ∃ v w, N[c.1]? = some v ∧ N[c.2]? = some w ∧ intersectVtx env.csort c.1 c.2 v w = some [] := by
    intro c hc
    obtain ⟨h1, h2, h3, _⟩ := s2 c.1 c.2 hc
    rw [List.length_map] at h1 h2
    have hv := List.getElem?_eq_getElem h1
    have hw := List.getElem?_eq_getElem h2
    exact ⟨_, _, hv, hw, h _ _ _ _ h3 hv hw⟩
  clear s1 s2 s3 hcalls
  have : ∀ (l : List (Nat × Nat)), (∀ c ∈ l, c ∈ calls) → l.foldlM (fun acc c =>
      match N[c.1]?, N[c.2]? with
      | some vl, some vr => (intersectVtx env.csort c.1 c.2 vl vr).map (acc ++ ·)
      | _, _ => some acc) [] = some ([] : List (Brk K)) := by
    intro l
    induction l with
    | nil => intro _; rfl
    | cons c l ih =>
      intro hl
      obtain ⟨v, w, e1, e2, e3⟩ := hc c (hl c (by simp))
      rw [List.foldlM_cons]
      simp only [e1, e2, e3, Option.map_some, List.append_nil]
      exact ih (fun c hc => hl c (by simp [hc]))
  exact this calls (fun c hc => hc)

end

theorem collectBreaks64 {rings : List (Ring ℚ)} (h : GridRings rings) (env : Env R64) (hok : env.Ok) : collectBreaks (K := R64) env (allNodes rings) = some [] := by
  refine collectBreaks_none (K := R64) env hok ?_
  intro i j v w hij hv hw
  obtain ⟨s, hs, e1, e2⟩ := vtx_side (K := ℚ) (rings := rings) hv
  obtain ⟨t, ht, f1, f2⟩ := vtx_side (K := ℚ) (rings := rings) hw
  have ms := List.mem_of_getElem? hs
  have mt := List.mem_of_getElem? ht
  have hne : s ≠ t := by
    intro e
    refine hij ?_
    have hnd := sides_nodup (K := ℚ) rings
    exact (List.getElem?_inj (List.getElem?_eq_some_iff.1 hs).1 hnd).1 (by rw [hs, ht, e])
  have hS := h.general.straight s ms
  have hT := h.general.straight t mt
  obtain ⟨l, hl, hq⟩ := lineIntersect_grid (h.grid s ms).1 (h.grid s ms).2 (h.grid t mt).1 (h.grid t mt).2 (h.general.proper s ms) (h.general.proper t mt)
    (h.ends s ms t mt hne)
  have k1 : v.seg = .line s.seg.target := e2.symm.trans hS
  have k2 : w.seg = .line t.seg.target := f2.symm.trans hT
  have k3 : v.pt = s.frm := e1.symm
  have k4 : w.pt = t.frm := f1.symm
  unfold intersectVtx
  rw [k1, k2, k3, k4]
  change (lineIntersect (K := R64) s.frm s.seg.target t.frm t.seg.target).map _ = _
  rw [hl, Option.map_some, pushBreaks_nil _ _ l hq]

theorem processIntersect64 {rings : List (Ring ℚ)} (h : GridRings rings) (env : Env R64) (hok : env.Ok) : processIntersect (K := R64) env rings = some rings := by
  have key : ∀ R : List (Ring R64), collectBreaks (K := R64) env (allNodes R) = some [] → processIntersect env R = some R := by
    intro R e
    unfold processIntersect
    rw [e, Option.map_some, breakRings_none env hok]
  exact key rings (collectBreaks64 h env hok)

end River
