import Verif.Props.DcelAgainExact

/-! # Lines that cross can be processed once only (C96) -/

namespace River
variable {K : Type}

attribute [local instance 10000] FTrans.toFNum

section near
variable [Field K] [LinearOrder K] [IsStrictOrderedRing K]

/-- Of the points next to `X` towards `P`, a segment contains none, unless it leads to `X` along the line. -/
theorem near_seg {X P a b : Vec2 K} (hXP : X ≠ P) : ∃ ε, 0 < ε ∧ ∀ t, 0 < t → t < ε → OnSeg (lerp X P t) a b →
    OnSeg X a b ∧ a ≠ b ∧ Parallel a b X P := by
  by_cases hex : ∃ t1, 0 < t1 ∧ OnSeg (lerp X P t1) a b
  swap
  · exact ⟨1, one_pos, fun t t0 _ h => absurd ⟨t, t0, h⟩ hex⟩
  obtain ⟨t1, t1p, s1, s10, s11, h1⟩ := hex
  unfold lerp at h1
  simp only [Vec2.mk.injEq] at h1
  obtain ⟨h1x, h1y⟩ := h1
  by_cases hpar : Parallel a b X P
  swap
  · refine ⟨t1, t1p, ?_⟩
    rintro t t0 tl ⟨s, s0, sl, h⟩
    exfalso
    unfold lerp at h
    simp only [Vec2.mk.injEq] at h
    obtain ⟨hx, hy⟩ := h
    have hz : (t1 - t) * ((b.x - a.x) * (P.y - X.y) - (b.y - a.y) * (P.x - X.x)) = 0 := by
      linear_combination (b.x - a.x) * (h1y - hy) - (b.y - a.y) * (h1x - hx)
    rcases mul_eq_zero.1 hz with h | h
    · linarith
    · exact hpar (by unfold Parallel; linear_combination h)
  by_cases hab : a = b
  · subst hab
    refine ⟨t1, t1p, ?_⟩
    rintro t t0 tl ⟨s, s0, sl, h⟩
    exfalso
    unfold lerp at h
    simp only [Vec2.mk.injEq] at h
    obtain ⟨hx, hy⟩ := h
    have zx : (t1 - t) * (P.x - X.x) = 0 := by linear_combination h1x - hx
    have zy : (t1 - t) * (P.y - X.y) = 0 := by linear_combination h1y - hy
    have hne : t1 - t ≠ 0 := by intro h; linarith
    apply hXP
    ext
    · have := (mul_eq_zero.1 zx).resolve_left hne; linarith
    · have := (mul_eq_zero.1 zy).resolve_left hne; linarith
  by_cases hX : OnSeg X a b
  · exact ⟨1, one_pos, fun _ _ _ _ => ⟨hX, hab, hpar⟩⟩
  obtain ⟨k, kx, ky⟩ : ∃ k, b.x - a.x = k * (P.x - X.x) ∧ b.y - a.y = k * (P.y - X.y) := by
    unfold Parallel at hpar
    by_cases hv : P.x - X.x = 0
    · have hw : P.y - X.y ≠ 0 := by
        intro hw
        apply hXP
        ext <;> linarith
      refine ⟨(b.y - a.y) / (P.y - X.y), ?_, ?_⟩
      · rw [hv, mul_zero] at hpar ⊢
        exact (mul_eq_zero.1 hpar).resolve_right hw
      · field_simp
    · refine ⟨(b.x - a.x) / (P.x - X.x), ?_, ?_⟩
      · field_simp
      · field_simp
        linear_combination -hpar
  have hk : k ≠ 0 := by
    rintro rfl
    apply hab
    ext <;> linarith
  obtain ⟨α, hα⟩ : ∃ α, α = t1 - s1 * k := ⟨_, rfl⟩
  obtain ⟨β, hβ⟩ : ∃ β, β = t1 + (1 - s1) * k := ⟨_, rfl⟩
  have hkab : k = β - α := by rw [hα, hβ]; ring
  have ax : a.x = X.x + α * (P.x - X.x) := by rw [hα]; linear_combination -h1x - s1 * kx
  have ay : a.y = X.y + α * (P.y - X.y) := by rw [hα]; linear_combination -h1y - s1 * ky
  have ht1 : t1 = (1 - s1) * α + s1 * β := by rw [hα, hβ]; ring
  have hat : ∀ s, 0 ≤ s → s ≤ 1 → α + s * k = 0 → False := by
    intro s s0 sl hs
    refine hX ⟨s, s0, sl, ?_⟩
    unfold lerp
    rw [kx, ky, ax, ay]
    ext
    · dsimp only; linear_combination -(P.x - X.x) * hs
    · dsimp only; linear_combination -(P.y - X.y) * hs
  have hpos : 0 < α ∧ 0 < β := by
    by_contra hneg
    rw [not_and_or, not_lt, not_lt] at hneg
    rcases lt_trichotomy α 0 with ha | ha | ha
    · rcases le_or_gt 0 β with hb | hb
      · have kp : 0 < k := by rw [hkab]; linarith
        refine hat (-α / k) (div_nonneg (by linarith) kp.le) ?_ (by field_simp; ring)
        rw [div_le_one kp, hkab]; linarith
      · have h1 : (1 - s1) * α ≤ 0 := mul_nonpos_of_nonneg_of_nonpos (by linarith) ha.le
        have h2 : s1 * β ≤ 0 := mul_nonpos_of_nonneg_of_nonpos s10 hb.le
        linarith
    · exact hat 0 le_rfl zero_le_one (by rw [ha]; ring)
    · rcases hneg with h | hb
      · linarith
      · have kp : 0 < -k := by rw [hkab]; linarith
        refine hat (α / -k) (div_nonneg ha.le kp.le) ?_ (by field_simp; ring)
        rw [div_le_one kp, hkab]; linarith
  refine ⟨min α β, lt_min hpos.1 hpos.2, ?_⟩
  rintro t t0 tl ⟨s, s0, sl, h⟩
  exfalso
  unfold lerp at h
  simp only [Vec2.mk.injEq] at h
  obtain ⟨hx, hy⟩ := h
  have hts : t = α + s * k := by
    have zx : (t - (α + s * k)) * (P.x - X.x) = 0 := by linear_combination hx + ax + s * kx
    have zy : (t - (α + s * k)) * (P.y - X.y) = 0 := by linear_combination hy + ay + s * ky
    by_contra hne
    have hne' : t - (α + s * k) ≠ 0 := fun h => hne (by linarith)
    apply hXP
    ext
    · have := (mul_eq_zero.1 zx).resolve_left hne'; linarith
    · have := (mul_eq_zero.1 zy).resolve_left hne'; linarith
  have la := lt_of_lt_of_le tl (min_le_left α β)
  have lb := lt_of_lt_of_le tl (min_le_right α β)
  have e : t = (1 - s) * α + s * β := by rw [hts, hkab]; ring
  have m1 : (1 - s) * t ≤ (1 - s) * α := mul_le_mul_of_nonneg_left la.le (by linarith)
  have m2 : s * t ≤ s * β := mul_le_mul_of_nonneg_left lb.le s0
  rcases eq_or_lt_of_le s0 with h0 | h0
  · rw [← h0] at e; linarith
  · have m3 : s * t < s * β := mul_lt_mul_of_pos_left lb h0
    linarith

theorem near_all {Q : Nat → K → Prop} (n : Nat) (h : ∀ i < n, ∃ ε, 0 < ε ∧ ∀ t, 0 < t → t < ε → Q i t) :
    ∃ ε, 0 < ε ∧ ∀ i < n, ∀ t, 0 < t → t < ε → Q i t := by
  induction n with
  | zero => exact ⟨1, one_pos, fun i hi => absurd hi (by omega)⟩
  | succ n ih =>
    obtain ⟨ε1, p1, h1⟩ := ih (fun i hi => h i (by omega))
    obtain ⟨ε2, p2, h2⟩ := h n (by omega)
    refine ⟨min ε1 ε2, lt_min p1 p2, ?_⟩
    intro i hi t t0 tl
    rcases Nat.lt_succ_iff_lt_or_eq.1 hi with hi | rfl
    · exact h1 i hi t t0 (lt_of_lt_of_le tl (min_le_left _ _))
    · exact h2 t t0 (lt_of_lt_of_le tl (min_le_right _ _))

end near

variable [Field K] [LinearOrder K] [IsStrictOrderedRing K] [FTrans K] [LawfulOrd K] [Exact K]

omit [FTrans K] [LawfulOrd K] [Exact K] in
/-- Where the half edges cover a line, every point of it lies on a half edge along the line. -/
theorem along {d : Dcel K} {p q X : Vec2 K} (hc : ∀ Y, OnSeg Y p q → ∃ i a b, d.Leads i a b ∧ OnSeg Y a b) (hpq : p ≠ q) (hX : OnSeg X p q) :
    ∃ i a b, d.Leads i a b ∧ OnSeg X a b ∧ a ≠ b ∧ Parallel a b p q := by
  obtain ⟨s, s0, sl, hs⟩ := hX
  obtain ⟨P, hP, hsub, hpar⟩ : ∃ P, X ≠ P ∧ (∀ t, 0 < t → t < 1 → OnSeg (lerp X P t) p q) ∧ ∀ a b, Parallel a b X P → Parallel a b p q := by
    by_cases hXp : X = p
    · subst hXp
      exact ⟨q, hpq, fun t t0 tl => ⟨t, t0.le, tl.le, rfl⟩, fun a b h => h⟩
    · have sp : 0 < s := by
        rcases eq_or_lt_of_le s0 with h | h
        · exfalso; apply hXp; rw [hs, ← h]; unfold lerp; ext <;> simp
        · exact h
      refine ⟨p, hXp, ?_, ?_⟩
      · intro t t0 tl
        refine ⟨s * (1 - t), mul_nonneg s0 (by linarith), ?_, ?_⟩
        · exact mul_le_one₀ sl (by linarith) (by linarith)
        · rw [hs]; unfold lerp; ext <;> dsimp only <;> ring
      · intro a b h
        unfold Parallel at h ⊢
        rw [hs] at h
        unfold lerp at h
        dsimp only at h
        have : s * ((b.x - a.x) * (q.y - p.y) - (b.y - a.y) * (q.x - p.x)) = 0 := by linear_combination -h
        linear_combination (mul_eq_zero.1 this).resolve_left sp.ne'
  obtain ⟨ε, ep, hε⟩ := near_all (K := K) (Q := fun i t => ∀ a b, d.Leads i a b → OnSeg (lerp X P t) a b →
      OnSeg X a b ∧ a ≠ b ∧ Parallel a b X P) d.edges.length (by
    intro i _
    by_cases hl : ∃ a b, d.Leads i a b
    · obtain ⟨a, b, hl⟩ := hl
      obtain ⟨ε, ep, h⟩ := near_seg (a := a) (b := b) hP
      refine ⟨ε, ep, ?_⟩
      intro t t0 tl a' b' hl' hon
      rw [leads_iff] at hl hl'
      rw [hl] at hl'
      simp only [Option.some.injEq, Prod.mk.injEq] at hl'
      obtain ⟨rfl, rfl⟩ := hl'
      exact h t t0 tl hon
    · exact ⟨1, one_pos, fun t _ _ a b h => absurd ⟨a, b, h⟩ hl⟩)
  have hm : 0 < min ε 1 := lt_min ep one_pos
  have tp : 0 < min ε 1 / 2 := half_pos hm
  have tl : min ε 1 / 2 < min ε 1 := half_lt_self hm
  obtain ⟨i, a, b, hl, hon⟩ := hc _ (hsub (min ε 1 / 2) tp (lt_of_lt_of_le tl (min_le_right _ _)))
  have hi : i < d.edges.length := by
    obtain ⟨x, hx, _⟩ := (ends_iff _ _ _ _).1 ((leads_iff _ _ _ _).1 hl)
    exact (List.getElem?_eq_some_iff.1 hx).1
  obtain ⟨k1, k2, k3⟩ := hε i hi _ tp (lt_of_lt_of_le tl (min_le_left _ _)) a b hl hon
  exact ⟨i, a, b, hl, k1, k2, hpar a b k3⟩

omit [IsStrictOrderedRing K] [FTrans K] [LawfulOrd K] [Exact K] [LinearOrder K] in
theorem parallel_trans {a b c e p q : Vec2 K} (hab : a ≠ b) (h1 : Parallel a b c e) (h2 : Parallel a b p q) : Parallel c e p q := by
  unfold Parallel at *
  by_cases hx : b.x - a.x = 0
  · have hy : b.y - a.y ≠ 0 := by
      intro hy
      apply hab
      ext
      · exact (sub_eq_zero.1 hx).symm
      · exact (sub_eq_zero.1 hy).symm
    have : (b.y - a.y) * ((e.x - c.x) * (q.y - p.y) - (e.y - c.y) * (q.x - p.x)) = 0 := by
      linear_combination -(q.y - p.y) * h1 + (e.y - c.y) * h2
    linear_combination (mul_eq_zero.1 this).resolve_left hy
  · have : (b.x - a.x) * ((e.x - c.x) * (q.y - p.y) - (e.y - c.y) * (q.x - p.x)) = 0 := by
      linear_combination -(q.x - p.x) * h1 + (e.x - c.x) * h2
    linear_combination (mul_eq_zero.1 this).resolve_left hx

omit [Field K] [LinearOrder K] [IsStrictOrderedRing K] [LawfulOrd K] [Exact K] in
theorem findOrAdd_prefix (d : Dcel K) (q : Vec2 K) : d.edges = (d.findOrAdd q).1.edges ∧ d.points.map (·.p) <+: (d.findOrAdd q).1.points.map (·.p) := by
  unfold Dcel.findOrAdd
  split
  · exact ⟨rfl, List.prefix_rfl⟩
  · refine ⟨rfl, ?_⟩
    rw [List.map_append]
    exact List.prefix_append _ _

omit [Field K] [LinearOrder K] [IsStrictOrderedRing K] [LawfulOrd K] [Exact K] in
theorem run_points (d : Dcel K) (c : DCall K) : d.points.map (·.p) <+: (DCall.run d c).points.map (·.p) := by
  cases c with
  | type t => exact List.prefix_rfl
  | line x1 y1 x2 y2 =>
    show _ <+: (d.addLine x1 y1 x2 y2).points.map (·.p)
    unfold Dcel.addLine
    split
    · exact List.prefix_rfl
    · dsimp only
      rw [newLine_points]
      exact (findOrAdd_prefix d _).2.trans (findOrAdd_prefix _ _).2

omit [Field K] [LinearOrder K] [IsStrictOrderedRing K] [LawfulOrd K] [Exact K] in
/-- Adding lines does not move a half edge. -/
theorem ends_calls (calls : List (DCall K)) : ∀ (d : Dcel K) {i : Nat} {a b : Vec2 K}, d.ends i = some (a, b) →
    (calls.foldl DCall.run d).ends i = some (a, b) := by
  induction calls with
  | nil => intro d i a b h; exact h
  | cons c calls ih =>
    intro d i a b h
    refine ih _ ?_
    rw [ends_iff] at h ⊢
    obtain ⟨e, h1, h2, h3⟩ := h
    have pe : ∀ {α : Type} {l l' : List α} {n : Nat} {x : α}, l <+: l' → l[n]? = some x → l'[n]? = some x := by
      rintro α l l' n x ⟨t, rfl⟩ hx
      rw [List.getElem?_append_left (List.getElem?_eq_some_iff.1 hx).1, hx]
    exact ⟨e, pe (run_prefix d c) h1, pe (run_points d c) h2, pe (run_points d c) h3⟩

/-- **C96**: once two lines that are not parallel have a point in common — they cross, touch or share an end —, `process` can be called
only once: after it, whatever lines are added, another call is undefined behaviour. -/
theorem dcel_crossing_once {o : DOrder K} (ho : o.Ok) (hso : o.Sorts) (calls : List (DCall K)) (hs : Spread (linesOf calls))
    {l m : Vec2 K × Vec2 K} (hl : l ∈ linesOf calls) (hm : m ∈ linesOf calls) (hp : ¬ Parallel l.1 l.2 m.1 m.2) {X : Vec2 K}
    (hX : OnSeg X l.1 l.2) (hX' : OnSeg X m.1 m.2) (more : List (DCall K)) :
    (Dcel.history o (calls.map .call ++ [.process])).isSome ∧
      Dcel.history o (calls.map .call ++ [.process] ++ more.map .call ++ [.process]) = none := by
  obtain ⟨d, s, cs, hpr, hF, hD⟩ := process_divides ho hso calls hs
  have h : Dcel.history o (calls.map .call ++ [.process]) = some (d, s) := by rw [history_first ho calls, hpr]
  refine ⟨by rw [h]; rfl, ?_⟩
  obtain ⟨i, a, b, li, xi, nab, pab⟩ := along (d := d) (fun Y hY => (hD.covers Y).2 ⟨l, hl, hY⟩) (linesOf_proper hl) hX
  obtain ⟨j, c, e, lj, xj, nce, pce⟩ := along (d := d) (fun Y hY => (hD.covers Y).2 ⟨m, hm, hY⟩) (linesOf_proper hm) hX'
  have hpar : ¬ Parallel a b c e := by
    intro hq
    have h1 := parallel_trans nab hq pab
    have h2 := parallel_trans nce h1 pce
    exact hp h2
  have hij : i ≠ j := by
    rintro rfl
    rw [leads_iff] at li lj
    rw [li] at lj
    simp only [Option.some.injEq, Prod.mk.injEq] at lj
    obtain ⟨rfl, rfl⟩ := lj
    exact hpar (by unfold Parallel; ring)
  refine dcel_again_undefined ho (calls.map .call) d s h more ?_ hij ((leads_iff _ _ _ _).2 (ends_calls more d ((leads_iff _ _ _ _).1 li)))
    ((leads_iff _ _ _ _).2 (ends_calls more d ((leads_iff _ _ _ _).1 lj))) hpar xi xj
  obtain ⟨x, hx, _⟩ := (ends_iff _ _ _ _).1 ((leads_iff _ _ _ _).1 li)
  exact (mem_live _ _).2 ⟨x, hx⟩

/-- A case: the lines of `crossTouch` cross in (2, 2). -/
theorem crossTouch_once (more : List (DCall ℚ)) : (Dcel.history plainOrder (crossTouch.map .call ++ [.process])).isSome ∧
    Dcel.history plainOrder (crossTouch.map .call ++ [.process] ++ more.map .call ++ [.process]) = none := by
  have hl : linesOf crossTouch = [(⟨0, 0⟩, ⟨4, 4⟩), (⟨0, 4⟩, ⟨4, 0⟩), (⟨1, 1⟩, ⟨3, 1⟩)] := by decide +kernel
  refine dcel_crossing_once plainOrder_ok plainOrder_sorts crossTouch crossTouch_spread (l := (⟨0, 0⟩, ⟨4, 4⟩)) (m := (⟨0, 4⟩, ⟨4, 0⟩))
    (by rw [hl]; simp) (by rw [hl]; simp) (by unfold Parallel; norm_num) (X := ⟨2, 2⟩) ?_ ?_ more
  · exact ⟨1 / 2, by norm_num, by norm_num, by unfold lerp; norm_num⟩
  · exact ⟨1 / 2, by norm_num, by norm_num, by unfold lerp; norm_num⟩

end River
