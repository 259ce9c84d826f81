import Verif.Lemmas.DoubleArrange
import Verif.Lemmas.BrokenArranged

/-! # Segments on the grid that cross where doubles can tell -/

namespace River

/-- The direction of a segment. -/
def segDir (s : Vec2 ℚ × Vec2 ℚ) : Vec2 ℚ := ⟨s.2.x - s.1.x, s.2.y - s.1.y⟩

/-- The area of the parallelogram of two vectors, with its sign. -/
def crossProd (u v : Vec2 ℚ) : ℚ := u.x * v.y - u.y * v.x

/-- The position on `s` (0 at its beginning, 1 at its end) of the point where the line through `s` meets the line through `t`, as numerator
and denominator. -/
def meetNum (s t : Vec2 ℚ × Vec2 ℚ) : ℚ := crossProd (segDir t) ⟨s.1.x - t.1.x, s.1.y - t.1.y⟩

/-- The quotient `n / d` as the code computes it with doubles: the product with the reciprocal, both rounded (`rmath.cpp:155-159`). -/
def quot64 (n d : ℚ) : ℚ := rndSigned (n * rndSigned (1 / d))

/-- The segments are not parallel, doubles can hold the positions where their lines meet, which the code computes without an error, and the
segments have no points in common other than points of the grid. -/
structure ExactMeet (s t : Vec2 ℚ × Vec2 ℚ) : Prop where
  steep : crossProd (segDir s) (segDir t) ≠ 0
  left : quot64 (meetNum s t) (crossProd (segDir s) (segDir t)) = meetNum s t / crossProd (segDir s) (segDir t)
  right : quot64 (meetNum t s) (crossProd (segDir t) (segDir s)) = meetNum t s / crossProd (segDir t) (segDir s)
  grid : ∀ p, OnSeg p s.1 s.2 → OnSeg p t.1 t.2 → OnGrid p

theorem crossProd_swap (u v : Vec2 ℚ) : crossProd u v = -crossProd v u := by unfold crossProd; ring

theorem ExactMeet.symm {s t : Vec2 ℚ × Vec2 ℚ} (h : ExactMeet s t) : ExactMeet t s :=
  ⟨by rw [crossProd_swap]; exact neg_ne_zero.2 h.steep, h.right, h.left, fun p h1 h2 => h.grid p h2 h1⟩

theorem quot64_neg (n d : ℚ) : quot64 (-n) (-d) = quot64 n d := by
  unfold quot64
  rw [show (1 : ℚ) / -d = -(1 / d) by rw [div_neg], rndSigned_neg, neg_mul_neg]

/-- If the area of the parallelogram is a power of two the positions are computed without an error. -/
theorem quot64_dyadic {n : ℤ} {d : ℚ} {k : ℕ} (hn : |n| < 2 ^ 53) (hk : k ≤ 1000) (hd : |d| = 2 ^ k) : quot64 n d = n / d := by
  have key : ∀ m : ℤ, |m| < 2 ^ 53 → quot64 m (2 ^ k) = m / 2 ^ k := by
    intro m hm
    unfold quot64
    have e : (1 : ℚ) / 2 ^ k = ((1 : ℤ) : ℚ) * 2 ^ (-(k : ℤ)) := by rw [zpow_neg, zpow_natCast]; push_cast; ring
    rw [e, rnd_scaled 1 _ (by norm_num) (by omega)]
    have e2 : (m : ℚ) * (((1 : ℤ) : ℚ) * 2 ^ (-(k : ℤ))) = m * 2 ^ (-(k : ℤ)) := by push_cast; ring
    rw [e2, rnd_scaled m _ hm (by omega), zpow_neg, zpow_natCast, div_eq_mul_inv]
  rcases abs_eq (by positivity : (0 : ℚ) ≤ 2 ^ k) |>.1 hd with e | e
  · rw [e]; exact key n hn
  · rw [e, ← neg_neg (n : ℚ), quot64_neg, neg_div_neg_eq]
    have := key (-n) (by rwa [abs_neg])
    push_cast at this
    exact this

theorem inUnit_near : |rndSigned (rndSigned 0 + rndSigned (1 / 1000000)) - 1 / 1000000| ≤ 1 / 2 ^ 54 ∧
    |rndSigned (rndSigned 1 - rndSigned (1 / 1000000)) - (1 - 1 / 1000000)| ≤ 1 / 2 ^ 54 := by decide +kernel

/-- Clear positions are recognised as ends or inner points as in exact arithmetic. -/
theorem inUnit_clear {n d : ℤ} (hd : d ≠ 0) (hb : |d| ≤ 2 ^ 33) (hc : ClearPos ((n : ℚ) / d)) :
    inUnit (K := R64) (R64.of ((n : ℚ) / d)) = inUnit (K := ℚ) ((n : ℚ) / d) := by
  obtain ⟨b1, b2⟩ := inUnit_near
  obtain ⟨c0, hc0⟩ : ∃ c, c = rndSigned (rndSigned 0 + rndSigned (1 / 1000000)) := ⟨_, rfl⟩
  obtain ⟨c1, hc1⟩ : ∃ c, c = rndSigned (rndSigned 1 - rndSigned (1 / 1000000)) := ⟨_, rfl⟩
  rw [← hc0] at b1
  rw [← hc1] at b2
  have key : inUnit (K := R64) (R64.of ((n : ℚ) / d)) = true ↔ c0 < (n : ℚ) / d ∧ (n : ℚ) / d < c1 := by
    unfold inUnit
    rw [Bool.and_eq_true, R64.lt_iff, R64.lt_iff, hc0, hc1]
    exact Iff.rfl
  have b1 := abs_le.1 b1
  have b2 := abs_le.1 b2
  have g : ((1 : ℚ) / 2 ^ 54) < 1 / (1000000 * 2 ^ 33) := by norm_num
  have hdq : (d : ℚ) ≠ 0 := by exact_mod_cast hd
  have hdb : |(d : ℚ)| ≤ 2 ^ 33 := by exact_mod_cast hb
  -- a number that is not a millionth keeps a distance
  have gap : ∀ m : ℤ, ∀ x : ℚ, x = (m : ℚ) / (1000000 * d) → 0 < x → 1 / (1000000 * 2 ^ 33) ≤ x := by
    intro m x hx h0
    have hm : m ≠ 0 := by rintro rfl; rw [hx] at h0; simp at h0
    have h1 : (1 : ℚ) ≤ |(m : ℚ)| := by exact_mod_cast Int.one_le_abs hm
    rw [← abs_of_pos h0, hx, abs_div, abs_mul, abs_of_pos (by norm_num : (0 : ℚ) < 1000000)]
    have : 0 < |(d : ℚ)| := abs_pos.2 hdq
    gcongr
  rw [Bool.eq_iff_iff, key, inUnit_iff]
  rcases hc with h | h | ⟨h1, h2⟩
  · rw [h]
    constructor
    · rintro ⟨k, _⟩; exfalso; norm_num at b1; linarith [b1.1]
    · rintro ⟨k, _⟩; norm_num at k
  · rw [h]
    constructor
    · rintro ⟨_, k⟩; exfalso; norm_num at b2; linarith [b2.2]
    · rintro ⟨_, k⟩; norm_num at k
  · refine ⟨fun _ => ⟨h1, h2⟩, fun _ => ?_⟩
    have g1 := gap (1000000 * n - d) ((n : ℚ) / d - 1 / 1000000) (by push_cast; field_simp) (by linarith)
    have g2 := gap (1000000 * d - d - 1000000 * n) (1 - 1 / 1000000 - (n : ℚ) / d) (by push_cast; field_simp) (by linarith)
    constructor
    · linarith [b1.2]
    · linarith [b2.1]

/-- Segments between grid points whose crossing doubles can hold: the intersection found is the exact one. -/
theorem lineIntersect_cross {p0 p1 p2 p3 : Vec2 ℚ} (g0 : OnGrid p0) (g1 : OnGrid p1) (g2 : OnGrid p2) (g3 : OnGrid p3)
    (h : ExactMeet (p0, p1) (p2, p3)) (hm : MeetOk p0 p1 p2 p3) :
    ∃ l : List (Info ℚ), lineIntersect (K := ℚ) p0 p1 p2 p3 = some l ∧ lineIntersect (K := R64) p0 p1 p2 p3 = some l ∧
      ∀ d ∈ l, inUnit (K := R64) d.t0 = inUnit (K := ℚ) d.t0 ∧ inUnit (K := R64) d.t1 = inUnit (K := ℚ) d.t1 := by
  obtain ⟨hD, hL, hR, hG⟩ := h
  have hnp : ¬ Parallel p0 p1 p2 p3 := by
    intro hp
    apply hD
    unfold Parallel at hp
    unfold crossProd segDir
    simp only
    linear_combination hp
  obtain ⟨x0, y0, hx0, hy0, rfl⟩ := g0
  obtain ⟨x1, y1, hx1, hy1, rfl⟩ := g1
  obtain ⟨x2, y2, hx2, hy2, rfl⟩ := g2
  obtain ⟨x3, y3, hx3, hy3, rfl⟩ := g3
  have H : ∀ {a : ℤ}, |a| ≤ 2 ^ 15 → Holds (R64.of a) a (2 ^ 15) := fun h => ⟨rfl, h⟩
  obtain ⟨d, hd⟩ : ∃ d, d = (y1 - y0) * (x2 - x3) - (x1 - x0) * (y2 - y3) := ⟨_, rfl⟩
  obtain ⟨na, hnae⟩ : ∃ n, n = (y2 - y3) * (x0 - x2) - (x2 - x3) * (y0 - y2) := ⟨_, rfl⟩
  obtain ⟨nb, hnbe⟩ : ∃ n, n = (x1 - x0) * (y0 - y2) - (y1 - y0) * (x0 - x2) := ⟨_, rfl⟩
  have eD : crossProd (segDir ((⟨(x0 : ℚ), (y0 : ℚ)⟩ : Vec2 ℚ), (⟨(x1 : ℚ), (y1 : ℚ)⟩ : Vec2 ℚ))) (segDir ((⟨(x2 : ℚ), (y2 : ℚ)⟩ : Vec2 ℚ), (⟨(x3 : ℚ), (y3 : ℚ)⟩ : Vec2 ℚ))) = d := by
    rw [hd]; unfold crossProd segDir; push_cast; ring
  have eA : meetNum ((⟨(x0 : ℚ), (y0 : ℚ)⟩ : Vec2 ℚ), (⟨(x1 : ℚ), (y1 : ℚ)⟩ : Vec2 ℚ)) ((⟨(x2 : ℚ), (y2 : ℚ)⟩ : Vec2 ℚ), (⟨(x3 : ℚ), (y3 : ℚ)⟩ : Vec2 ℚ)) = na := by
    rw [hnae]; unfold meetNum crossProd segDir; push_cast; ring
  have eB : meetNum ((⟨(x2 : ℚ), (y2 : ℚ)⟩ : Vec2 ℚ), (⟨(x3 : ℚ), (y3 : ℚ)⟩ : Vec2 ℚ)) ((⟨(x0 : ℚ), (y0 : ℚ)⟩ : Vec2 ℚ), (⟨(x1 : ℚ), (y1 : ℚ)⟩ : Vec2 ℚ)) = -nb := by
    rw [hnbe]; unfold meetNum crossProd segDir; push_cast; ring
  rw [crossProd_swap, eD, eB, quot64_neg, neg_div_neg_eq] at hR
  rw [eD, eA] at hL
  rw [eD] at hD
  have h0 : d ≠ 0 := by exact_mod_cast hD
  have hdb : |d| ≤ 2 ^ 33 := by
    have b1 : |y1 - y0| ≤ 2 ^ 16 := (abs_sub _ _).trans ((add_le_add hy1 hy0).trans (by norm_num))
    have b2 : |x1 - x0| ≤ 2 ^ 16 := (abs_sub _ _).trans ((add_le_add hx1 hx0).trans (by norm_num))
    have b3 : |y2 - y3| ≤ 2 ^ 16 := (abs_sub _ _).trans ((add_le_add hy2 hy3).trans (by norm_num))
    have b4 : |x2 - x3| ≤ 2 ^ 16 := (abs_sub _ _).trans ((add_le_add hx2 hx3).trans (by norm_num))
    rw [hd]
    refine (abs_sub _ _).trans ?_
    rw [abs_mul, abs_mul]
    calc |y1 - y0| * |x2 - x3| + |x1 - x0| * |y2 - y3| ≤ 2 ^ 16 * 2 ^ 16 + 2 ^ 16 * 2 ^ 16 := by gcongr
      _ = 2 ^ 33 := by norm_num
  have meet : lerp (⟨(x0 : ℚ), (y0 : ℚ)⟩ : Vec2 ℚ) ⟨(x1 : ℚ), (y1 : ℚ)⟩ ((na : ℚ) / d) = lerp ⟨(x2 : ℚ), (y2 : ℚ)⟩ ⟨(x3 : ℚ), (y3 : ℚ)⟩ ((nb : ℚ) / d) := by
    refine Vec2.ext ?_ ?_
    · simp only [lerp]
      field_simp
      rw [hd, hnae, hnbe]; push_cast; ring
    · simp only [lerp]
      field_simp
      rw [hd, hnae, hnbe]; push_cast; ring
  -- in exact arithmetic
  have eQ : lineIntersect (K := ℚ) (⟨(x0 : ℚ), (y0 : ℚ)⟩ : Vec2 ℚ) ⟨(x1 : ℚ), (y1 : ℚ)⟩ ⟨(x2 : ℚ), (y2 : ℚ)⟩ ⟨(x3 : ℚ), (y3 : ℚ)⟩ =
      if (0 ≤ (na : ℚ) / d ∧ (na : ℚ) / d ≤ 1) ∧ 0 ≤ (nb : ℚ) / d ∧ (nb : ℚ) / d ≤ 1 then
        some [⟨lerp (⟨(x0 : ℚ), (y0 : ℚ)⟩ : Vec2 ℚ) ⟨(x1 : ℚ), (y1 : ℚ)⟩ ((na : ℚ) / d), (na : ℚ) / d, (nb : ℚ) / d⟩] else some [] := by
    have hD' : ((y1 : ℚ) - y0) * (x2 - x3) - (x1 - x0) * (y2 - y3) = d := by rw [hd]; push_cast; ring
    have hA' : ((y2 : ℚ) - y3) * (x0 - x2) - (x2 - x3) * (y0 - y2) = na := by rw [hnae]; push_cast; ring
    have hB' : ((x1 : ℚ) - x0) * (y0 - y2) - (y1 - y0) * (x0 - x2) = nb := by rw [hnbe]; push_cast; ring
    unfold lineIntersect
    simp only [Vec2.sub, Vec2.add, Vec2.smul, Exact.add_eq, Exact.sub_eq, Exact.mul_eq, Exact.div_eq, exact_one, exact_zero, Exact.fin_eq,
      le_eq_decide, eq_eq_decide, hD', hA', hB']
    rw [if_neg (by simp [h0])]
    simp only [Bool.and_eq_true, decide_eq_true_eq, mul_one_div]
    congr 1
    unfold lerp
    simp only [mul_comm]
  obtain ⟨M, hM⟩ : ∃ M : Info ℚ, M = ⟨lerp (⟨(x0 : ℚ), (y0 : ℚ)⟩ : Vec2 ℚ) ⟨(x1 : ℚ), (y1 : ℚ)⟩ ((na : ℚ) / d), (na : ℚ) / d, (nb : ℚ) / d⟩ := ⟨_, rfl⟩
  rw [← hM] at eQ
  have eR : ∀ P0 P1 P2 P3 : Vec2 R64, P0 = ⟨R64.of x0, R64.of y0⟩ → P1 = ⟨R64.of x1, R64.of y1⟩ → P2 = ⟨R64.of x2, R64.of y2⟩ →
      P3 = ⟨R64.of x3, R64.of y3⟩ → lineIntersect P0 P1 P2 P3 =
      if (0 ≤ (na : ℚ) / d ∧ (na : ℚ) / d ≤ 1) ∧ 0 ≤ (nb : ℚ) / d ∧ (nb : ℚ) / d ≤ 1 then some ([M] : List (Info ℚ)) else some [] := by
    intro P0 P1 P2 P3 h0' h1' h2' h3'
    have ax : Holds (P1.sub P0).x (x1 - x0) (2 ^ 16) := by rw [h0', h1']; exact (H hx1).sub (H hx0) (by norm_num)
    have ay : Holds (P1.sub P0).y (y1 - y0) (2 ^ 16) := by rw [h0', h1']; exact (H hy1).sub (H hy0) (by norm_num)
    have bx : Holds (P2.sub P3).x (x2 - x3) (2 ^ 16) := by rw [h2', h3']; exact (H hx2).sub (H hx3) (by norm_num)
    have by' : Holds (P2.sub P3).y (y2 - y3) (2 ^ 16) := by rw [h2', h3']; exact (H hy2).sub (H hy3) (by norm_num)
    have cx : Holds (P0.sub P2).x (x0 - x2) (2 ^ 16) := by rw [h0', h2']; exact (H hx0).sub (H hx2) (by norm_num)
    have cy : Holds (P0.sub P2).y (y0 - y2) (2 ^ 16) := by rw [h0', h2']; exact (H hy0).sub (H hy2) (by norm_num)
    have hden : Holds _ _ (2 ^ 33) := (ay.mul bx (by norm_num)).sub (ax.mul by' (by norm_num)) (by norm_num)
    have hna : Holds _ _ (2 ^ 33) := (by'.mul cx (by norm_num)).sub (bx.mul cy (by norm_num)) (by norm_num)
    have hnb : Holds _ _ (2 ^ 33) := (ax.mul cy (by norm_num)).sub (ay.mul cx (by norm_num)) (by norm_num)
    rw [← hd] at hden
    rw [← hnae] at hna
    rw [← hnbe] at hnb
    unfold lineIntersect
    dsimp only
    have hz : (((P1.sub P0).y *. (P2.sub P3).x -.
        (P1.sub P0).x *. (P2.sub P3).y ==. FNum.lit 0) : Bool) = false := by
      rw [Bool.eq_false_iff, Ne, R64.eq_iff, R64.zero]
      intro h
      apply h0
      have := hden.q.symm.trans h
      exact_mod_cast this
    rw [hz, Bool.false_or, if_neg (by intro h; exact Bool.false_ne_true h)]
    have ea : (((P2.sub P3).y *. (P0.sub P2).x -.
        (P2.sub P3).x *. (P0.sub P2).y) *.
        (FNum.lit 1 /. ((P1.sub P0).y *. (P2.sub P3).x -.
      (P1.sub P0).x *. (P2.sub P3).y)) : R64) = R64.of ((na : ℚ) / d) := by
      rw [R64.mul_eq, R64.div_eq, R64.one, ← hL]
      refine congrArg R64.of (congrArg rndSigned (congrArg₂ (· * ·) hna.q (congrArg rndSigned (congrArg (1 / ·) hden.q))))
    have eb : (((P1.sub P0).x *. (P0.sub P2).y -.
        (P1.sub P0).y *. (P0.sub P2).x) *.
        (FNum.lit 1 /. ((P1.sub P0).y *. (P2.sub P3).x -.
      (P1.sub P0).x *. (P2.sub P3).y)) : R64) = R64.of ((nb : ℚ) / d) := by
      rw [R64.mul_eq, R64.div_eq, R64.one, ← hR]
      refine congrArg R64.of (congrArg rndSigned (congrArg₂ (· * ·) hnb.q (congrArg rndSigned (congrArg (1 / ·) hden.q))))
    rw [ea, eb]
    simp only [Bool.and_eq_true, R64.le_iff, R64.zero, R64.one]
    have dec : ∀ q : ℚ, (R64.of q).q = q := fun _ => rfl
    simp only [dec]
    split
    · next hin =>
      obtain ⟨⟨a0, a1⟩, b0, b1⟩ := hin
      obtain ⟨px, py, hpx, hpy, hp⟩ := hG _ ⟨_, a0, a1, rfl⟩ ⟨_, b0, b1, meet⟩
      have ex : (x0 : ℚ) + (na : ℚ) / d * (x1 - x0) = px := congrArg Vec2.x hp
      have ey : (y0 : ℚ) + (na : ℚ) / d * (y1 - y0) = py := congrArg Vec2.y hp
      have coord : ∀ {u : R64} {w v0 r : ℤ}, Holds u w (2 ^ 16) → |v0| ≤ 2 ^ 15 → |r| ≤ 2 ^ 15 → (v0 : ℚ) + (na : ℚ) / d * w = r →
          R64.of v0 +. u *. R64.of ((na : ℚ) / d) = R64.of r := by
        intro u w v0 r hu hv hr he
        have hb : |r - v0| < 2 ^ 53 := ((abs_sub _ _).trans (add_le_add hr hv)).trans_lt (by norm_num)
        have e1 : u *. R64.of ((na : ℚ) / d) = R64.of ((r - v0 : ℤ) : ℚ) := by
          rw [R64.mul_eq, hu.q, ← rnd_int _ hb]
          refine congrArg R64.of (congrArg rndSigned ?_)
          change (w : ℚ) * ((na : ℚ) / d) = _
          push_cast; linarith
        rw [e1, R64.add_eq, ← rnd_int r (hr.trans_lt (by norm_num))]
        refine congrArg R64.of (congrArg rndSigned ?_)
        change (v0 : ℚ) + ((r - v0 : ℤ) : ℚ) = _
        push_cast; ring
      have cx' := coord ax hx0 hpx (by push_cast; exact ex)
      have cy' := coord ay hy0 hpy (by push_cast; exact ey)
      have hpt : P0.add ((P1.sub P0).smul (R64.of ((na : ℚ) / d))) = (⟨R64.of px, R64.of py⟩ : Vec2 R64) := by
        unfold Vec2.add Vec2.smul
        rw [cx'.symm, cy'.symm, h0']
      rw [hpt]
      have : M = ⟨⟨(px : ℚ), (py : ℚ)⟩, (na : ℚ) / d, (nb : ℚ) / d⟩ := by rw [hM, hp]
      rw [this]
      rfl
    · rfl
  have eR := eR _ _ _ _ rfl rfl rfl rfl
  by_cases hin : (0 ≤ (na : ℚ) / d ∧ (na : ℚ) / d ≤ 1) ∧ 0 ≤ (nb : ℚ) / d ∧ (nb : ℚ) / d ≤ 1
  · rw [if_pos hin] at eQ eR
    refine ⟨_, eQ, eR, fun x hx => ?_⟩
    rw [List.mem_singleton] at hx
    subst hx
    obtain ⟨c1, c2⟩ := hm hnp _ _ hin.1.1 hin.1.2 hin.2.1 hin.2.2 meet
    rw [hM]
    exact ⟨inUnit_clear h0 hdb c1, inUnit_clear h0 hdb c2⟩
  · rw [if_neg hin] at eQ eR
    exact ⟨[], eQ, eR, fun x hx => absurd hx (by simp)⟩

/-! ## the breaks of contours -/

section
variable {K : Type} [FTrans K] [LinearOrder K] [LawfulOrd K]
attribute [local instance 10000] FTrans.toFNum

/-- The breaks collected are those of single pairs of segments; every pair with boxes that meet is looked at, in one order or the other. -/
theorem collectBreaks_mem {N : List (Vtx K)} (env : Env K) (hok : env.Ok)
    (h : ∀ (i j : Nat) (v w : Vtx K), i ≠ j → N[i]? = some v → N[j]? = some w → ∃ bs, intersectVtx env.csort i j v w = some bs) :
    ∃ brks, collectBreaks env N = some brks ∧
      (∀ b ∈ brks, ∃ i j v w bs, i ≠ j ∧ N[i]? = some v ∧ N[j]? = some w ∧ intersectVtx env.csort i j v w = some bs ∧ b ∈ bs) ∧
      ∀ (i j : Nat) (v w : Vtx K), i ≠ j → N[i]? = some v → N[j]? = some w → (v.seg.boundary v.pt).intersect (w.seg.boundary w.pt) = true →
        (∃ bs, intersectVtx env.csort i j v w = some bs ∧ ∀ b ∈ bs, b ∈ brks) ∨ ∃ bs, intersectVtx env.csort j i w v = some bs ∧ ∀ b ∈ bs, b ∈ brks := by
  obtain ⟨s1, s2, s3⟩ := scanProcess_spec env.segAddr hok.segAddr (N.map (fun v => v.seg.boundary v.pt))
    ⟨⟨FNum.lit 0, FNum.lit 0⟩, ⟨FNum.lit 0, FNum.lit 0⟩⟩
  unfold collectBreaks
  obtain ⟨calls, hcalls⟩ : ∃ calls, calls = scanProcess env.segAddr (N.map (fun v => v.seg.boundary v.pt))
    ⟨⟨FNum.lit 0, FNum.lit 0⟩, ⟨FNum.lit 0, FNum.lit 0⟩⟩ := ⟨_, rfl⟩
  rw [← hcalls] at s1 s2 s3 ⊢
  have hc : ∀ c ∈ calls, c.1 ≠ c.2 ∧ ∃ v w, N[c.1]? = some v ∧ N[c.2]? = some w := by
    intro c hc
    obtain ⟨h1, h2, h3, _⟩ := s2 c.1 c.2 hc
    rw [List.length_map] at h1 h2
    exact ⟨h3, _, _, List.getElem?_eq_getElem h1, List.getElem?_eq_getElem h2⟩
  obtain ⟨f, hf⟩ : ∃ f : Nat × Nat → Option (List (Brk K)), ∀ c v w, N[c.1]? = some v → N[c.2]? = some w →
      f c = intersectVtx env.csort c.1 c.2 v w := by
    refine ⟨fun c => match N[c.1]?, N[c.2]? with
      | some v, some w => intersectVtx env.csort c.1 c.2 v w
      | _, _ => none, ?_⟩
    intro c v w h1 h2
    simp only [h1, h2]
  obtain ⟨r, r1, r2⟩ := foldlM_collect f (fun acc c =>
      match N[c.1]?, N[c.2]? with
      | some vl, some vr => (intersectVtx env.csort c.1 c.2 vl vr).map (acc ++ ·)
      | _, _ => some acc) calls [] (by
      intro c hcc acc
      obtain ⟨_, v, w, h1, h2⟩ := hc c hcc
      rw [hf c v w h1 h2]
      simp only [h1, h2]) (by
      intro c hcc
      obtain ⟨h0, v, w, h1, h2⟩ := hc c hcc
      obtain ⟨bs, hbs⟩ := h c.1 c.2 v w h0 h1 h2
      exact ⟨bs, by rw [hf c v w h1 h2, hbs]⟩)
  refine ⟨r, r1, ?_, ?_⟩
  · intro b hb
    rcases (r2 b).1 hb with h' | ⟨c, hcc, bs, hbs, hbm⟩
    · simp at h'
    · obtain ⟨h0, v, w, h1, h2⟩ := hc c hcc
      rw [hf c v w h1 h2] at hbs
      exact ⟨c.1, c.2, v, w, bs, h0, h1, h2, hbs, hbm⟩
  · intro i j v w hij hv hw hbox
    have hi := (List.getElem?_eq_some_iff.1 hv).1
    have hj := (List.getElem?_eq_some_iff.1 hw).1
    have hcall := (s3 i j (by simpa using hi) (by simpa using hj) hij).2 (by
      rw [List.getElem_map, List.getElem_map, (List.getElem?_eq_some_iff.1 hv).2, (List.getElem?_eq_some_iff.1 hw).2]; exact hbox)
    rcases hcall with hm | hm
    · obtain ⟨bs, hbs⟩ := h i j v w hij hv hw
      exact Or.inl ⟨bs, hbs, fun b hb => (r2 b).2 (Or.inr ⟨(i, j), hm, bs, by rw [hf (i, j) v w hv hw]; exact hbs, hb⟩)⟩
    · obtain ⟨bs, hbs⟩ := h j i w v hij.symm hw hv
      exact Or.inr ⟨bs, hbs, fun b hb => (r2 b).2 (Or.inr ⟨(j, i), hm, bs, by rw [hf (j, i) w v hw hv]; exact hbs, hb⟩)⟩

end

/-- Contours in general position with corners on the grid, any two sides of which meet at most in common ends or cross where doubles can
tell. -/
structure CrossRings (rings : List (Ring ℚ)) : Prop where
  general : General rings
  grid : ∀ s ∈ sides rings, OnGrid s.frm ∧ OnGrid s.seg.target
  meets : ∀ s ∈ sides rings, ∀ t ∈ sides rings, s ≠ t → SideEnds s t ∨ ExactMeet (s.frm, s.seg.target) (t.frm, t.seg.target)

/-- The vertices, each with the side that begins there. -/
theorem CrossRings.pair {rings : List (Ring ℚ)} {i j : Nat} {v w : Vtx ℚ} (hij : i ≠ j) (hv : (allNodes rings)[i]? = some v)
    (hw : (allNodes rings)[j]? = some w) :
    ∃ s ∈ sides rings, ∃ t ∈ sides rings, s ≠ t ∧ s.frm = v.pt ∧ s.seg = v.seg ∧ t.frm = w.pt ∧ t.seg = w.seg := by
  obtain ⟨s, hs, e1, e2⟩ := vtx_side (K := ℚ) (rings := rings) hv
  obtain ⟨t, ht, f1, f2⟩ := vtx_side (K := ℚ) (rings := rings) hw
  refine ⟨s, List.mem_of_getElem? hs, t, List.mem_of_getElem? ht, ?_, e1, e2, f1, f2⟩
  intro e
  refine hij ?_
  have hnd := sides_nodup (K := ℚ) rings
  exact (List.getElem?_inj (List.getElem?_eq_some_iff.1 hs).1 hnd).1 (by rw [hs, ht, e])

theorem inUnit_inner {t : ℚ} (ht : inUnit (K := ℚ) t = true) : t ≠ 0 ∧ t ≠ 1 := by
  rw [inUnit_iff] at ht
  constructor <;> rintro rfl <;> norm_num at ht

theorem lerp_end {a b : Vec2 ℚ} {t : ℚ} (hne : a ≠ b) (h : lerp a b t = a ∨ lerp a b t = b) : t = 0 ∨ t = 1 := by
  have hx : ∀ {u v : ℚ}, u ≠ v → (u + t * (v - u) = u ∨ u + t * (v - u) = v) → t = 0 ∨ t = 1 := by
    intro u v huv h
    have : v - u ≠ 0 := sub_ne_zero.2 huv.symm
    rcases h with h | h
    · left; exact (mul_eq_zero.1 (by linarith : t * (v - u) = 0)).resolve_right this
    · right
      have : (t - 1) * (v - u) = 0 := by linear_combination h
      exact sub_eq_zero.1 ((mul_eq_zero.1 this).resolve_right (by assumption))
  by_cases ex : a.x = b.x
  · refine hx (u := a.y) (v := b.y) (fun e => hne (Vec2.ext ex e)) ?_
    exact h.imp (fun h => congrArg Vec2.y h) (fun h => congrArg Vec2.y h)
  · exact hx ex (h.imp (fun h => congrArg Vec2.x h) (fun h => congrArg Vec2.x h))

/-- `pushBreaks` with any test of positions. -/
def pushWith {K : Type} (u : K → Bool) (a b : Nat) (l : List (Info K)) : List (Brk K) :=
  l.flatMap (fun d => (if u d.t0 then [⟨a, d.p, d.t0⟩] else []) ++ (if u d.t1 then [⟨b, d.p, d.t1⟩] else []))

theorem pushBreaks_with {K : Type} [FNum K] (a b : Nat) (l : List (Info K)) : pushBreaks a b l = pushWith inUnit a b l := rfl

theorem pushWith_congr {K : Type} {u u' : K → Bool} {a b : Nat} {l : List (Info K)} (h : ∀ d ∈ l, u d.t0 = u' d.t0 ∧ u d.t1 = u' d.t1) :
    pushWith u a b l = pushWith u' a b l := by
  unfold pushWith
  induction l with
  | nil => rfl
  | cons d l ih =>
    rw [List.flatMap_cons, List.flatMap_cons, ih (fun x hx => h x (by simp [hx])), (h d (by simp)).1, (h d (by simp)).2]

/-- The breaks of two segments found with doubles are those found in exact arithmetic. -/
theorem intersectVtx64 {rings : List (Ring ℚ)} (h : CrossRings rings) (csort : List (Cell R64 × Cell R64) → List (Cell R64 × Cell R64)) {i j : Nat}
    {v w : Vtx ℚ} (hij : i ≠ j) (hv : (allNodes rings)[i]? = some v) (hw : (allNodes rings)[j]? = some w) :
    ∃ bs : List (Brk ℚ), intersectVtx (K := ℚ) id i j v w = some bs ∧ intersectVtx (K := R64) csort i j v w = some bs := by
  obtain ⟨s, ms, t, mt, hne, e1, e2, f1, f2⟩ := CrossRings.pair hij hv hw
  have hS := h.general.straight s ms
  have hT := h.general.straight t mt
  have k1 : v.seg = .line s.seg.target := e2.symm.trans hS
  have k2 : w.seg = .line t.seg.target := f2.symm.trans hT
  have k3 : v.pt = s.frm := e1.symm
  have k4 : w.pt = t.frm := f1.symm
  have c1 : intersectVtx (K := ℚ) id i j v w = (lineIntersect (K := ℚ) s.frm s.seg.target t.frm t.seg.target).map (pushBreaks i j) := by
    unfold intersectVtx
    rw [k1, k2, k3, k4]
  have c2 : intersectVtx (K := R64) csort i j v w = (lineIntersect (K := R64) s.frm s.seg.target t.frm t.seg.target).map (pushBreaks (K := R64) i j) := by
    unfold intersectVtx
    rw [k1, k2, k3, k4]
  rcases h.meets s ms t mt hne with he | he
  · obtain ⟨l, hl, hq⟩ := lineIntersect_grid (h.grid s ms).1 (h.grid s ms).2 (h.grid t mt).1 (h.grid t mt).2 (h.general.proper s ms) (h.general.proper t mt) he
    obtain ⟨bs, hbs, q1, _⟩ := intersectVtx_exact h.general.nodesOk id i j v w hij hv hw
    have e : bs = [] := by
      rw [List.eq_nil_iff_forall_not_mem]
      intro b hb
      obtain ⟨hu, hc⟩ := q1 b hb
      obtain ⟨n0, n1⟩ := inUnit_inner hu
      have hb' := (inUnit_iff b.t).1 hu
      have b0 : 0 ≤ b.t := le_trans (by norm_num) hb'.1.le
      have b1 : b.t ≤ 1 := hb'.2.le.trans (by norm_num)
      rcases hc with ⟨_, hp, hs⟩ | ⟨_, hp, hs⟩
      · have := (he b.pt (by rw [e1, e2]; exact ⟨_, b0, b1, hp⟩) (by rw [f1, f2]; exact hs.1)).1
        rw [e1, e2, hp] at this
        rcases lerp_end (by rw [← e1, ← e2]; exact h.general.proper s ms) this with e | e
        · exact n0 e
        · exact n1 e
      · have := (he b.pt (by rw [e1, e2]; exact hs.1) (by rw [f1, f2]; exact ⟨_, b0, b1, hp⟩)).2
        rw [f1, f2, hp] at this
        rcases lerp_end (by rw [← f1, ← f2]; exact h.general.proper t mt) this with e | e
        · exact n0 e
        · exact n1 e
    have c3 : intersectVtx (K := R64) csort i j v w = some [] := by rw [c2, hl, Option.map_some, pushBreaks_nil _ _ l hq]
    exact ⟨[], by rw [hbs, e], c3⟩
  · obtain ⟨l, l1, l2, l3⟩ := lineIntersect_cross (h.grid s ms).1 (h.grid s ms).2 (h.grid t mt).1 (h.grid t mt).2 he (h.general.meet s ms t mt hne)
    refine ⟨pushBreaks (K := ℚ) i j l, by rw [c1, l1]; rfl, ?_⟩
    refine (c2.trans (congrArg (Option.map (pushBreaks (K := R64) i j)) l2)).trans (congrArg some ?_)
    exact pushWith_congr (K := ℚ) (u := inUnit (K := R64)) (u' := inUnit (K := ℚ)) (fun d hd => l3 d hd)

theorem inDoubles64 {p : Vec2 ℚ} (h : InDoubles p) : InDoubles (K := R64) p := by
  unfold InDoubles at h ⊢
  rw [Exact.neg_eq, Exact.max_eq] at h
  simp only [Rat.cast_eq_id, id_eq] at h
  exact h

theorem boundary_mem64 {N : List (Vtx ℚ)} (hN : NodesOk N) {v : Vtx ℚ} (hv : v ∈ N) :
    (Seg.boundary (K := R64) v.seg v.pt).Valid ∧ ∀ (a : ℚ) (p : Vec2 ℚ), 0 ≤ a → a ≤ 1 → p = lerp v.pt v.seg.target a →
      (Seg.boundary (K := R64) v.seg v.pt).Mem p := by
  let i1 : Field R64 := inferInstanceAs (Field ℚ)
  have i2 : IsStrictOrderedRing R64 := inferInstanceAs (IsStrictOrderedRing ℚ)
  obtain ⟨h1, h2⟩ := boundary_mem (K := R64) (v := v) (hN.line v hv) (inDoubles64 (hN.range v hv).1) (inDoubles64 (hN.range v hv).2)
  refine ⟨h1, fun a p a0 a1 hp => ?_⟩
  rw [hp]
  exact h2 a a0 a1

/-- The breaks found with doubles are the exact ones. -/
theorem collectBreaks_cross {rings : List (Ring ℚ)} (h : CrossRings rings) (env : Env R64) (hok : env.Ok) :
    ∃ brks : List (Brk ℚ), collectBreaks (K := R64) env (allNodes rings) = some brks ∧ ExactBreaks (allNodes rings) brks := by
  have hN := h.general.nodesOk
  obtain ⟨brks, h1, h2, h3⟩ := collectBreaks_mem (K := R64) (N := allNodes rings) env hok (by
    intro i j v w hij hv hw
    obtain ⟨bs, _, hbs⟩ := intersectVtx64 h env.csort hij hv hw
    exact ⟨bs, hbs⟩)
  refine ⟨brks, h1, ?_, ?_⟩
  · intro b hb
    obtain ⟨i, j, v, w, bs, hij, hv, hw, hbs, hm⟩ := h2 b hb
    obtain ⟨bs', g1, g2⟩ := intersectVtx64 h env.csort hij hv hw
    have e : bs = bs' := Option.some.inj (hbs.symm.trans g2)
    obtain ⟨bs'', g3, q1, _⟩ := intersectVtx_exact hN id i j v w hij hv hw
    have e' : bs' = bs'' := Option.some.inj (g1.symm.trans g3)
    have hm' : b ∈ bs'' := by rw [← e', ← e]; exact hm
    obtain ⟨hu, ⟨hv', hp, hs⟩ | ⟨hv', hp, hs⟩⟩ := q1 b hm'
    · exact ⟨v, by rw [hv']; exact hv, hu, hp, w, List.mem_of_getElem? hw, hs⟩
    · exact ⟨w, by rw [hv']; exact hw, hu, hp, v, List.mem_of_getElem? hv, hs⟩
  · intro i j v w hij hv hw hn a b a0 a1 b0 b1 hab hu
    have mv := List.mem_of_getElem? hv
    have mw := List.mem_of_getElem? hw
    obtain ⟨vv, vm⟩ := boundary_mem64 hN mv
    obtain ⟨wv, wm⟩ := boundary_mem64 hN mw
    have hbox : (Seg.boundary (K := R64) v.seg v.pt).intersect (Seg.boundary (K := R64) w.seg w.pt) = true :=
      (Rect.intersect_iff (K := R64) _ _ vv wv).2 ⟨_, vm a _ a0 a1 rfl, wm b _ b0 b1 hab⟩
    rcases h3 i j v w hij hv hw hbox with ⟨bs, g1, g2⟩ | ⟨bs, g1, g2⟩
    · obtain ⟨bs', k1, k2⟩ := intersectVtx64 h env.csort hij hv hw
      have e : bs = bs' := Option.some.inj (g1.symm.trans k2)
      obtain ⟨bs'', k3, _, q2⟩ := intersectVtx_exact hN id i j v w hij hv hw
      have e' : bs' = bs'' := Option.some.inj (k1.symm.trans k3)
      have hm := (q2 hn a b a0 a1 b0 b1 hab).1 hu
      rw [← e'] at hm
      exact g2 (⟨i, lerp v.pt v.seg.target a, a⟩ : Brk ℚ) (by rw [e]; exact hm)
    · obtain ⟨bs', k1, k2⟩ := intersectVtx64 h env.csort hij.symm hw hv
      have e : bs = bs' := Option.some.inj (g1.symm.trans k2)
      obtain ⟨bs'', k3, _, q2⟩ := intersectVtx_exact hN id j i w v hij.symm hw hv
      have e' : bs' = bs'' := Option.some.inj (k1.symm.trans k3)
      have hn' : ¬ Parallel w.pt w.seg.target v.pt v.seg.target := by
        intro hp
        apply hn
        unfold Parallel at hp ⊢
        linear_combination -hp
      have hm := (q2 hn' b a b0 b1 a0 a1 hab.symm).2 hu
      rw [← e'] at hm
      exact g2 (⟨i, lerp v.pt v.seg.target a, a⟩ : Brk ℚ) (by rw [e]; exact hm)

theorem linked_of {K : Type} {R R' : List (Ring K)} {P Q : Ring K → Ring K → Prop} {S : Ring K → Ring K → Prop}
    (h : List.Forall₂ (fun r r' => P r r' ∧ Q r r' ∧ Linked r'.nodes ∧ S r r') R R') : ∀ r ∈ R', Linked r.nodes := by
  induction h with
  | nil => intro r hr; exact absurd hr (by simp)
  | cons h1 _ ih =>
    intro r hr
    rcases List.mem_cons.1 hr with rfl | hr
    · exact h1.2.2.1
    · exact ih r hr

/-- Segments that have more than one point in common are parallel, and have inner points in common. -/
theorem overlap_parallel {a b c d : Vec2 ℚ} (h : Overlap a b c d) : Parallel a b c d := by
  obtain ⟨p, q, hne, ⟨t, _, _, p1⟩, ⟨u, _, _, q1⟩, ⟨v, _, _, p2⟩, ⟨w, _, _, q2⟩⟩ := h
  have px := p1.symm.trans p2
  have qx := q1.symm.trans q2
  have px1 : a.x + t * (b.x - a.x) = c.x + v * (d.x - c.x) := congrArg Vec2.x px
  have px2 : a.y + t * (b.y - a.y) = c.y + v * (d.y - c.y) := congrArg Vec2.y px
  have qx1 : a.x + u * (b.x - a.x) = c.x + w * (d.x - c.x) := congrArg Vec2.x qx
  have qx2 : a.y + u * (b.y - a.y) = c.y + w * (d.y - c.y) := congrArg Vec2.y qx
  have htu : t - u ≠ 0 := by
    intro e
    apply hne
    rw [p1, q1, sub_eq_zero.1 e]
  unfold Parallel
  apply mul_left_cancel₀ htu
  have k1 : (t - u) * (b.x - a.x) = (v - w) * (d.x - c.x) := by linear_combination px1 - qx1
  have k2 : (t - u) * (b.y - a.y) = (v - w) * (d.y - c.y) := by linear_combination px2 - qx2
  linear_combination (d.y - c.y) * k1 - (d.x - c.x) * k2

theorem overlap_inner {a b c d : Vec2 ℚ} (h : Overlap a b c d) :
    ¬ ∀ p, OnSeg p a b → OnSeg p c d → (p = a ∨ p = b) ∧ (p = c ∨ p = d) := by
  obtain ⟨p, q, hne, hp1, hq1, hp2, hq2⟩ := h
  intro hE
  have mid : ∀ {a b : Vec2 ℚ}, OnSeg p a b → OnSeg q a b → OnSeg (lerp p q (1 / 2)) a b := by
    rintro a b ⟨t, t0, t1, e1⟩ ⟨u, u0, u1, e2⟩
    refine ⟨(t + u) / 2, by linarith, by linarith, ?_⟩
    rw [e1, e2]
    unfold lerp
    ext <;> simp only <;> ring
  have hm := (hE _ (mid hp1 hq1) (mid hp2 hq2)).1
  have h1 := (hE _ hp1 hp2).1
  have h2 := (hE _ hq1 hq2).1
  have key : lerp p q (1 / 2) = p ∨ lerp p q (1 / 2) = q := by
    rcases h1 with h1 | h1 <;> rcases h2 with h2 | h2
    · exact absurd (h1.trans h2.symm) hne
    · rw [← h1, ← h2] at hm; exact hm
    · rw [← h1, ← h2] at hm; exact hm.symm
    · exact absurd (h1.trans h2.symm) hne
  rcases lerp_end hne key with e | e <;> norm_num at e

theorem CrossRings.apart {rings : List (Ring ℚ)} (h : CrossRings rings) : Apart rings := by
  intro s hs t ht _ hne ho
  rcases h.meets s hs t ht hne with he | he
  · exact overlap_inner ho he
  · apply he.steep
    have := overlap_parallel ho
    unfold Parallel at this
    unfold crossProd segDir
    simp only
    linear_combination this

/-- The ends of the pieces are on the grid. -/
theorem CrossRings.knot {rings : List (Ring ℚ)} (h : CrossRings rings) {v : Vtx ℚ} (hv : v ∈ allNodes rings) {a : ℚ} (a0 : 0 ≤ a) (a1 : a ≤ 1)
    (ha : BreakAt (allNodes rings) v a) : OnGrid (lerp v.pt v.seg.target a) := by
  obtain ⟨i, hi⟩ := List.getElem?_of_mem hv
  obtain ⟨s, hs, e1, e2⟩ := vtx_side (K := ℚ) (rings := rings) hi
  have hg := h.grid s (List.mem_of_getElem? hs)
  rw [e1, e2] at hg
  rcases ha with rfl | rfl | ⟨u, hu, hS, hpar⟩
  · rw [lerp_zero]; exact hg.1
  · rw [lerp_one]; exact hg.2
  · by_cases huv : u = v
    · rw [huv] at hpar
      rcases hpar (mul_comm _ _) with e | e <;> rw [e]
      · exact hg.1
      · exact hg.2
    · obtain ⟨j, hj⟩ := List.getElem?_of_mem hu
      have hij : i ≠ j := by
        rintro rfl
        rw [hi] at hj
        exact huv (Option.some.inj hj).symm
      obtain ⟨s, ms, t, mt, hne, e1, e2, f1, f2⟩ := CrossRings.pair hij hi hj
      have p1 : OnSeg (lerp v.pt v.seg.target a) s.frm s.seg.target := by rw [e1, e2]; exact ⟨a, a0, a1, rfl⟩
      have p2 : OnSeg (lerp v.pt v.seg.target a) t.frm t.seg.target := by rw [f1, f2]; exact hS
      rcases h.meets s ms t mt hne with he | he
      · rcases (he _ p1 p2).1 with e | e <;> rw [e]
        · exact (h.grid s ms).1
        · exact (h.grid s ms).2
      · exact he.grid _ p1 p2

/-- Contours whose sides cross where doubles can tell are broken exactly where they meet. -/
theorem processIntersect_cross {rings : List (Ring ℚ)} (h : CrossRings rings) (env : Env R64) (hok : env.Ok) :
    ∃ rings' : List (Ring ℚ), processIntersect (K := R64) env rings = some rings' ∧ GridArranged rings' ∧ BrokenInto rings rings' := by
  obtain ⟨brks, hb, hX⟩ := collectBreaks_cross h env hok
  obtain ⟨rings', hr'⟩ : ∃ rings' : List (Ring ℚ), rings' = breakRings (K := R64) env.tsort (breakGroups (K := R64) env brks) 0 rings := ⟨_, rfl⟩
  have hp : processIntersect (K := R64) env rings = some rings' := by
    have key : ∀ (R : List (Ring R64)) (b : List (Brk R64)), collectBreaks (K := R64) env (allNodes R) = some b →
        processIntersect env R = some (breakRings env.tsort (breakGroups env b) 0 R) := by
      intro R b e
      unfold processIntersect
      rw [e]; rfl
    rw [hr']
    exact key rings brks hb
  have hrr := breakRings_rings (K := R64) env hok brks rings h.general.linked []
  obtain ⟨brks', chunks, hb', a1, a2, a3, a4⟩ := processIntersect_spec (K := R64) env hok rings rings' h.general.linked hp
  have eb : brks' = brks := Option.some.inj (hb'.symm.trans hb)
  subst eb
  have link' : ∀ r ∈ rings', Linked r.nodes := linked_of (K := R64) a4
  obtain ⟨A, B⟩ := broken_of h.general (rings' := rings') hX (by rw [hr']; exact hrr) a1 a2 a3 link'
  refine ⟨rings', hp, ⟨B.general, ?_, B.ends, ?_⟩, B⟩
  · intro s hs
    have hm : (s.frm, s.seg) ∈ (allNodes rings').map (fun v => (v.pt, v.seg)) := by
      rw [← sides_geo]; exact List.mem_map.2 ⟨s, hs, rfl⟩
    obtain ⟨w, hw, e⟩ := List.mem_map.1 hm
    have e1 : w.pt = s.frm := congrArg Prod.fst e
    have e2 : w.seg = s.seg := congrArg Prod.snd e
    obtain ⟨v, hv, a, b, hsp, ha, hb⟩ := B.knots w hw
    have hl := hsp.low
    have hh := hsp.high
    have hab := hsp.lt
    rw [← e1, ← e2, hsp.pt, hsp.seg]
    exact ⟨h.knot hv hl (hab.le.trans hh) ha, h.knot hv (hl.trans hab.le) hh hb⟩
  · intro s t hs ht ls lt hne hsp
    exact B.noTwin h.apart s hs t ht ls lt hne (twin_of_span (B.straight s hs) (B.straight t ht) ls lt hsp.1 hsp.2.1)

end River
