import Verif.Props.Polygons
import Verif.Props.Witness

/-! # A case that meets the hypotheses of C59 -/

namespace River

theorem minsort_ok : MinSort minsort := by
  intro l
  refine insSort_spec _ ?_ ?_ l <;>
  · intros
    simp only [LocMin.less, field_lt, field_eq, decide_eq_true_eq] at *
    grind

/-- Twice the signed area of a triangle. -/
def cross3 (a b c : Vec2 ℚ) : ℚ := (b.x - a.x) * (c.y - a.y) - (b.y - a.y) * (c.x - a.x)

def clearB (a : ℚ) : Bool := decide (a = 0) || decide (a = 1) || (decide (1 / 1000000 < a) && decide (a < 1 - 1 / 1000000))

/-- A finite check for `MeetOk`. -/
def meetB (p0 p1 p2 p3 : Vec2 ℚ) : Bool :=
  let d := (p1.x - p0.x) * (p3.y - p2.y) - (p1.y - p0.y) * (p3.x - p2.x)
  let a := ((p2.x - p0.x) * (p3.y - p2.y) - (p2.y - p0.y) * (p3.x - p2.x)) / d
  let b := ((p2.x - p0.x) * (p1.y - p0.y) - (p2.y - p0.y) * (p1.x - p0.x)) / d
  if d = 0 then true
  else (decide (a < 0) || decide (1 < a) || decide (b < 0) || decide (1 < b)) || (clearB a && clearB b)

theorem clearB_sound {a : ℚ} (h : clearB a = true) : ClearPos a := by
  simpa [clearB, ClearPos, or_assoc] using h

theorem onSeg_range {p a b : Vec2 ℚ} (h : OnSeg p a b) : (min a.y b.y ≤ p.y ∧ p.y ≤ max a.y b.y) ∧ (min a.x b.x ≤ p.x ∧ p.x ≤ max a.x b.x) := by
  obtain ⟨t, t0, t1, e⟩ := h
  have ex : p.x = a.x + t * (b.x - a.x) := congrArg Vec2.x e
  have ey : p.y = a.y + t * (b.y - a.y) := congrArg Vec2.y e
  rw [ex, ey]
  refine ⟨⟨?_, ?_⟩, ?_, ?_⟩
  · rcases le_total a.y b.y with h | h
    · rw [min_eq_left h]; nlinarith [mul_nonneg t0 (sub_nonneg.2 h)]
    · rw [min_eq_right h]; nlinarith [mul_nonneg (sub_nonneg.2 t1) (sub_nonneg.2 h)]
  · rcases le_total a.y b.y with h | h
    · rw [max_eq_right h]; nlinarith [mul_nonneg (sub_nonneg.2 t1) (sub_nonneg.2 h)]
    · rw [max_eq_left h]; nlinarith [mul_nonneg t0 (sub_nonneg.2 h)]
  · rcases le_total a.x b.x with h | h
    · rw [min_eq_left h]; nlinarith [mul_nonneg t0 (sub_nonneg.2 h)]
    · rw [min_eq_right h]; nlinarith [mul_nonneg (sub_nonneg.2 t1) (sub_nonneg.2 h)]
  · rcases le_total a.x b.x with h | h
    · rw [max_eq_right h]; nlinarith [mul_nonneg (sub_nonneg.2 t1) (sub_nonneg.2 h)]
    · rw [max_eq_left h]; nlinarith [mul_nonneg t0 (sub_nonneg.2 h)]

theorem meetB_sound {p0 p1 p2 p3 : Vec2 ℚ} (h : meetB p0 p1 p2 p3 = true) : MeetOk p0 p1 p2 p3 := by
  intro hn a b a0 a1 b0 b1 e
  have ex : p0.x + a * (p1.x - p0.x) = p2.x + b * (p3.x - p2.x) := congrArg Vec2.x e
  have ey : p0.y + a * (p1.y - p0.y) = p2.y + b * (p3.y - p2.y) := congrArg Vec2.y e
  unfold meetB at h
  dsimp only at h
  split at h
  · next hd =>
    refine absurd ?_ hn
    unfold Parallel
    linear_combination hd
  · next hd =>
    have ha : a = ((p2.x - p0.x) * (p3.y - p2.y) - (p2.y - p0.y) * (p3.x - p2.x)) / ((p1.x - p0.x) * (p3.y - p2.y) - (p1.y - p0.y) * (p3.x - p2.x)) := by
      rw [eq_div_iff hd]
      linear_combination (p3.y - p2.y) * ex - (p3.x - p2.x) * ey
    have hb : b = ((p2.x - p0.x) * (p1.y - p0.y) - (p2.y - p0.y) * (p1.x - p0.x)) / ((p1.x - p0.x) * (p3.y - p2.y) - (p1.y - p0.y) * (p3.x - p2.x)) := by
      rw [eq_div_iff hd]
      linear_combination (p1.y - p0.y) * ex - (p1.x - p0.x) * ey
    rw [← ha, ← hb] at h
    simp only [Bool.or_eq_true, Bool.and_eq_true, decide_eq_true_eq] at h
    rcases h with (((h | h) | h) | h) | h
    · exact absurd a0 (not_le.2 h)
    · exact absurd a1 (not_le.2 h)
    · exact absurd b0 (not_le.2 h)
    · exact absurd b1 (not_le.2 h)
    · exact ⟨clearB_sound h.1, clearB_sound h.2⟩

/-- Cross product of the directions of two sides. -/
def dirs (s t : Vec2 ℚ × Vec2 ℚ) : ℚ := (s.2.x - s.1.x) * (t.2.y - t.1.y) - (s.2.y - s.1.y) * (t.2.x - t.1.x)

theorem parallel_iff {s t : Vec2 ℚ × Vec2 ℚ} : Parallel s.1 s.2 t.1 t.2 ↔ dirs s t = 0 := by
  unfold Parallel dirs
  exact ⟨fun h => by linear_combination h, fun h => by linear_combination h⟩

/-- A sufficient check for a point on a side. -/
def onB (p : Vec2 ℚ) (u : Vec2 ℚ × Vec2 ℚ) : Bool :=
  let τ := if u.1.x ≠ u.2.x then (p.x - u.1.x) / (u.2.x - u.1.x) else (p.y - u.1.y) / (u.2.y - u.1.y)
  decide (0 ≤ τ) && decide (τ ≤ 1) && decide (p.x = u.1.x + τ * (u.2.x - u.1.x)) && decide (p.y = u.1.y + τ * (u.2.y - u.1.y))

theorem onB_sound {p : Vec2 ℚ} {u : Vec2 ℚ × Vec2 ℚ} (h : onB p u = true) : OnSeg p u.1 u.2 := by
  unfold onB at h
  dsimp only at h
  generalize (if u.1.x ≠ u.2.x then (p.x - u.1.x) / (u.2.x - u.1.x) else (p.y - u.1.y) / (u.2.y - u.1.y)) = τ at h
  simp only [Bool.and_eq_true, decide_eq_true_eq] at h
  obtain ⟨⟨⟨h1, h2⟩, h3⟩, h4⟩ := h
  exact ⟨τ, h1, h2, Vec2.ext h3 h4⟩

/-- A finite check for the ends of sides inside parallel sides. -/
def alongB (S : List (Vec2 ℚ × Vec2 ℚ)) : Bool :=
  S.all (fun s => S.all (fun t => decide (t.1.y = t.2.y) || decide (dirs s t ≠ 0) || [s.1, s.2].all (fun p =>
    !onB p t || decide (p = t.1) || decide (p = t.2) || S.any (fun u => decide (dirs u t ≠ 0) && onB p u))))

theorem onB_of {p : Vec2 ℚ} {u : Vec2 ℚ × Vec2 ℚ} (h : OnSeg p u.1 u.2) (hne : u.1.y ≠ u.2.y) : onB p u = true := by
  obtain ⟨t, h1, h2, rfl⟩ := h
  have hy : u.2.y - u.1.y ≠ 0 := sub_ne_zero.2 hne.symm
  unfold onB
  by_cases hx : u.1.x = u.2.x
  · simp [lerp, hx, h1, h2, hy]
  · have hx' : u.2.x - u.1.x ≠ 0 := sub_ne_zero.2 (fun e => hx e.symm)
    simp [lerp, hx, h1, h2, hx']

theorem alongB_sound {S : List (Vec2 ℚ × Vec2 ℚ)} (h : alongB S = true) : ∀ s ∈ S, ∀ t ∈ S, t.1.y ≠ t.2.y → Parallel s.1 s.2 t.1 t.2 →
    ∀ p, p = s.1 ∨ p = s.2 → InsideSeg p t.1 t.2 → ∃ u ∈ S, ¬ Parallel u.1 u.2 t.1 t.2 ∧ OnSeg p u.1 u.2 := by
  intro s hs t ht hne hp p hpe hin
  simp only [alongB, List.all_eq_true, Bool.or_eq_true, decide_eq_true_eq, List.any_eq_true, Bool.and_eq_true, Bool.not_eq_true'] at h
  rcases h s hs t ht with (h | h) | h
  · exact absurd h hne
  · exact absurd (parallel_iff.1 hp) h
  · obtain ⟨hon, n1, n2⟩ := hin
    rcases h p (by rcases hpe with rfl | rfl <;> simp) with ((h | h) | h) | h
    · rw [onB_of hon hne] at h; cases h
    · exact absurd h n1
    · exact absurd h n2
    · obtain ⟨u, hu, u1, u2⟩ := h
      exact ⟨u, hu, fun hp => u1 (parallel_iff.1 hp), onB_sound u2⟩

/-- The side reaches height `y` and goes on above it. -/
def upB (s : Vec2 ℚ × Vec2 ℚ) (y : ℚ) : Bool := decide (min s.1.y s.2.y ≤ y) && decide (y < max s.1.y s.2.y)

theorem onSeg_atHeight {p a b : Vec2 ℚ} (h : OnSeg p a b) (hs : a.y ≠ b.y) : p.x = atHeight a b p.y := by
  obtain ⟨t, t0, t1, e⟩ := h
  have ex : p.x = a.x + t * (b.x - a.x) := congrArg Vec2.x e
  have ey : p.y = a.y + t * (b.y - a.y) := congrArg Vec2.y e
  have hne : b.y - a.y ≠ 0 := sub_ne_zero.2 hs.symm
  unfold atHeight
  rw [ex, ey]
  field_simp
  ring

theorem upB_of {p : Vec2 ℚ} {s : Vec2 ℚ × Vec2 ℚ} (h : OnSeg p s.1 s.2) (hu : GoesUp p s.1 s.2) :
    upB s p.y = true ∧ p.x = atHeight s.1 s.2 p.y := by
  have hr := (onSeg_range h).1
  have hlt : p.y < max s.1.y s.2.y := lt_max_iff.2 hu
  refine ⟨by simp only [upB, Bool.and_eq_true, decide_eq_true_eq]; exact ⟨hr.1, hlt⟩, onSeg_atHeight h (fun e => ?_)⟩
  rw [e, max_self] at hlt
  rw [e, min_self] at hr
  exact absurd hlt (not_lt.2 hr.1)

/-- A finite check for the condition on the corners at a horizontal side `f`. -/
def cornerB (f s t : Vec2 ℚ × Vec2 ℚ) : Bool :=
  let y := f.1.y
  decide (dirs s t = 0) || decide (atHeight s.1 s.2 y ≠ atHeight t.1 t.2 y) || decide (atHeight s.1 s.2 y < min f.1.x f.2.x) ||
    decide (max f.1.x f.2.x < atHeight s.1 s.2 y) || !(upB s y && upB t y)

theorem cornerB_sound {f s t : Vec2 ℚ × Vec2 ℚ} (h : cornerB f s t = true) (hf : f.1.y = f.2.y) {p : Vec2 ℚ} (pf : OnSeg p f.1 f.2)
    (ps : OnSeg p s.1 s.2) (pt : OnSeg p t.1 t.2) (us : GoesUp p s.1 s.2) (ut : GoesUp p t.1 t.2) : Parallel s.1 s.2 t.1 t.2 := by
  have hr := onSeg_range pf
  have hy : p.y = f.1.y := by
    have := hr.1
    rw [← hf, min_self, max_self] at this
    exact le_antisymm this.2 this.1
  simp only [cornerB, Bool.or_eq_true, decide_eq_true_eq, Bool.not_eq_true', Bool.and_eq_false_iff, ← hy] at h
  obtain ⟨u1, u2⟩ := upB_of ps us
  obtain ⟨v1, v2⟩ := upB_of pt ut
  rw [← u2, ← v2, u1, v1] at h
  rcases h with (((h | h) | h) | h) | h
  · exact parallel_iff.2 h
  · exact absurd rfl h
  · exact absurd hr.2.1 (not_le.2 h)
  · exact absurd hr.2.2 (not_le.2 h)
  · simp at h

/-- A finite check for ledges. -/
def ledgeB (P : List (Vec2 ℚ)) (i n : Nat) : Bool :=
  let y := (cornerAt P i).y
  let a := (cornerAt P (i + (P.length - 1))).y
  let b := (cornerAt P (i + n + 1)).y
  decide (0 < n) && (List.range (n + 1)).all (fun j => decide ((cornerAt P (i + j)).y = y)) &&
    ((decide (a < y) && decide (y < b)) || (decide (b < y) && decide (y < a)))

theorem ledgeB_iff {P : List (Vec2 ℚ)} {i n : Nat} : ledgeB P i n = true ↔ Ledge P i n := by
  simp only [ledgeB, Bool.and_eq_true, Bool.or_eq_true, decide_eq_true_eq, List.all_eq_true, List.mem_range]
  constructor
  · rintro ⟨⟨h1, h2⟩, h3⟩
    exact ⟨h1, fun j hj => h2 j (by omega), h3⟩
  · rintro ⟨h1, h2, h3⟩
    exact ⟨⟨h1, fun j hj => h2 j (by omega)⟩, h3⟩

theorem cornerAt_mod (P : List (Vec2 ℚ)) (i j : Nat) : cornerAt P (i % P.length + j) = cornerAt P (i + j) := by
  unfold cornerAt
  rw [Nat.mod_add_mod]

/-- All ledges of a polygon. -/
def ledges (P : List (Vec2 ℚ)) : List (Nat × Nat) :=
  (List.range P.length).flatMap (fun i => ((List.range P.length).filter (fun n => ledgeB P i n)).map (fun n => (i, n)))

theorem mem_ledges {P : List (Vec2 ℚ)} {i n : Nat} (h : Ledge P i n) : (i % P.length, n) ∈ ledges P ∧ Ledge P (i % P.length) n ∧
    ledgeStart P (i % P.length) n = ledgeStart P i n := by
  have e := cornerAt_mod P i
  have e0 : cornerAt P (i % P.length) = cornerAt P i := e 0
  have hlen : 0 < P.length := by
    rcases Nat.eq_zero_or_pos P.length with h0 | h0
    · have : P = [] := List.eq_nil_of_length_eq_zero h0
      subst this
      have hg := h.goes
      simp [cornerAt] at hg
    · exact h0
  have hn : n < P.length := by
    by_contra hc
    have h1 := h.flat (P.length - 1) (by omega)
    rcases h.goes with ⟨h2, _⟩ | ⟨_, h2⟩
    · exact h2.ne h1
    · exact h2.ne' h1
  have hL : Ledge P (i % P.length) n := by
    refine ⟨h.pos, fun j hj => ?_, ?_⟩
    · rw [e, e0]; exact h.flat j hj
    · rw [e, e0, Nat.add_assoc, e, ← Nat.add_assoc]; exact h.goes
  refine ⟨?_, hL, ?_⟩
  · unfold ledges
    rw [List.mem_flatMap]
    refine ⟨i % P.length, List.mem_range.2 (Nat.mod_lt _ hlen), List.mem_map.2 ⟨n, List.mem_filter.2 ⟨List.mem_range.2 hn, ledgeB_iff.2 hL⟩, rfl⟩⟩
  · unfold ledgeStart
    rw [e, e0, e]

/-- All ledges of all polygons, with the numbers of the polygons. -/
def allLedges (Ps : List (List (Vec2 ℚ))) : List ((Nat × List (Vec2 ℚ)) × Nat × Nat) :=
  Ps.zipIdx.flatMap (fun p => (ledges p.1).map (fun l => ((p.2, p.1), l)))

theorem mem_allLedges {Ps : List (List (Vec2 ℚ))} {k : Nat} {P : List (Vec2 ℚ)} (hP : Ps[k]? = some P) {i n : Nat} (h : Ledge P i n) :
    ((k, P), (i % P.length, n)) ∈ allLedges Ps := by
  unfold allLedges
  rw [List.mem_flatMap]
  exact ⟨(P, k), List.mk_mem_zipIdx_iff_getElem?.2 hP, List.mem_map.2 ⟨_, (mem_ledges h).1, rfl⟩⟩

/-- A finite check for the conditions on ledges. -/
def ledgesB (Ps : List (List (Vec2 ℚ))) : Bool :=
  let S := Ps.flatMap polySides
  let L := allLedges Ps
  L.all (fun a => (List.range a.2.2).all (fun j =>
    decide (S.Pairwise (fun s t => cornerB (cornerAt a.1.2 (a.2.1 + j), cornerAt a.1.2 (a.2.1 + j + 1)) s t = true)))) &&
  L.all (fun a => L.all (fun b => (decide (a.1.1 = b.1.1) && decide (a.2.1 = b.2.1)) || decide (ledgeStart a.1.2 a.2.1 a.2.2 ≠ ledgeStart b.1.2 b.2.1 b.2.2))) &&
  L.all (fun a => L.all (fun b => (List.range a.2.2).all (fun j => (List.range b.2.2).all (fun j' =>
    let p := cornerAt a.1.2 (a.2.1 + j)
    let p' := cornerAt a.1.2 (a.2.1 + j + 1)
    let q := cornerAt b.1.2 (b.2.1 + j')
    let q' := cornerAt b.1.2 (b.2.1 + j' + 1)
    (decide (a.1.1 = b.1.1) && decide ((a.2.1 + j) % a.1.2.length = (b.2.1 + j') % a.1.2.length)) ||
      decide ((cornerAt a.1.2 a.2.1).y ≠ (cornerAt b.1.2 b.2.1).y) || decide (max p.x p'.x ≤ min q.x q'.x) || decide (max q.x q'.x ≤ min p.x p'.x)))))

/-- The slope of a side, seen from the side. -/
def slope (s : Vec2 ℚ × Vec2 ℚ) : ℚ := (s.2.x - s.1.x) / (s.2.y - s.1.y)

theorem atHeight_slope (s : Vec2 ℚ × Vec2 ℚ) (y y' : ℚ) : atHeight s.1 s.2 y' = atHeight s.1 s.2 y + (y' - y) * slope s := by
  unfold atHeight slope
  ring

/-- A finite check for `RunsBetween`. -/
def runsB (y : ℚ) (b a u : Vec2 ℚ × Vec2 ℚ) : Bool :=
  let xb := atHeight b.1 b.2 y
  let xa := atHeight a.1 a.2 y
  let xu := atHeight u.1 u.2 y
  upB u y && (decide (xb < xu) || (decide (xb = xu) && decide (slope b < slope u))) && (decide (xu < xa) || (decide (xu = xa) && decide (slope u ≤ slope a)))

theorem first_order {c m z : ℚ} (hz : 0 < z) (h : ∀ t, 0 < t → t < z → 0 ≤ c + t * m) : 0 < c ∨ (c = 0 ∧ 0 ≤ m) := by
  rcases lt_trichotomy c 0 with hc | hc | hc
  · exfalso
    rcases le_or_gt m 0 with hm | hm
    · have := h (z / 2) (by linarith) (by linarith)
      nlinarith
    · have hq : 0 < -c / m := div_pos (by linarith) hm
      have h1 : 0 < min (z / 2) (-c / m / 2) := lt_min (by linarith) (by linarith)
      have := h _ h1 ((min_le_left _ _).trans_lt (by linarith))
      have h2 : min (z / 2) (-c / m / 2) * m ≤ (-c / m / 2) * m := mul_le_mul_of_nonneg_right (min_le_right _ _) hm.le
      have h3 : -c / m / 2 * m = -c / 2 := by field_simp
      linarith
  · right
    refine ⟨hc, ?_⟩
    have := h (z / 2) (by linarith) (by linarith)
    rw [hc, zero_add] at this
    by_contra hm
    nlinarith
  · exact Or.inl hc

theorem runsB_of {y : ℚ} {b a u : Vec2 ℚ × Vec2 ℚ} (h : RunsBetween y b a u) : runsB y b a u = true := by
  obtain ⟨h1, h2, z, hz, h3⟩ := h
  simp only [runsB, upB, Bool.and_eq_true, Bool.or_eq_true, decide_eq_true_eq]
  have lin : ∀ t, 0 < t → t < z - y → 0 < (atHeight u.1 u.2 y - atHeight b.1 b.2 y) + t * (slope u - slope b) ∧
      0 ≤ (atHeight a.1 a.2 y - atHeight u.1 u.2 y) + t * (slope a - slope u) := by
    intro t t0 t1
    obtain ⟨g1, g2⟩ := h3 (y + t) (by linarith) (by linarith)
    rw [atHeight_slope b y, atHeight_slope u y] at g1
    rw [atHeight_slope a y, atHeight_slope u y] at g2
    constructor <;> linarith
  refine ⟨⟨⟨h1, h2⟩, ?_⟩, ?_⟩
  · rcases first_order (sub_pos.2 hz) (fun t t0 t1 => (lin t t0 t1).1.le) with h | ⟨h, h'⟩
    · exact Or.inl (by linarith)
    · right
      refine ⟨by linarith, lt_of_le_of_ne (by linarith) (fun e => ?_)⟩
      have := (lin ((z - y) / 2) (by linarith) (by linarith)).1
      rw [h, e, sub_self, mul_zero, add_zero] at this
      exact lt_irrefl _ this
  · rcases first_order (sub_pos.2 hz) (fun t t0 t1 => (lin t t0 t1).2) with h | ⟨h, h'⟩
    · exact Or.inl (by linarith)
    · exact Or.inr ⟨by linarith, by linarith⟩

/-- A finite check for the condition on the minimum `l` between the corners `a` and `b`. -/
def bottomB (S : List (Vec2 ℚ × Vec2 ℚ)) (a b : Vec2 ℚ) (l : List (Vec2 ℚ)) : Bool :=
  match l with
  | [] => true
  | h :: l' =>
    let e := (h :: l').getLast (List.cons_ne_nil h l')
    !((h :: l').all (fun q => decide (q.y = h.y))) || !decide (h.y < a.y) || !decide (h.y < b.y) ||
      decide ((S.filter (fun s => runsB h.y (e, b) (a, h) s)).length ≤ 1)

theorem bottomB_sound {S : List (Vec2 ℚ × Vec2 ℚ)} {a b : Vec2 ℚ} {l : List (Vec2 ℚ)} (hl : l ≠ []) (h : bottomB S a b l = true) {y : ℚ}
    (hy : ∀ q ∈ l, q.y = y) (ha : y < a.y) (hb : y < b.y) :
    S.Pairwise (fun u v => ¬ (RunsBetween y (l.getLast hl, b) (a, l.head hl) u ∧ RunsBetween y (l.getLast hl, b) (a, l.head hl) v)) := by
  cases l with
  | nil => exact absurd rfl hl
  | cons q l' =>
    have hq := hy q (by simp)
    rw [List.head_cons]
    simp only [bottomB, Bool.or_eq_true, Bool.not_eq_true', decide_eq_true_eq, decide_eq_false_iff_not] at h
    rcases h with ((h | h) | h) | h
    · rw [List.all_eq_false] at h
      obtain ⟨c, hc, hc'⟩ := h
      exact absurd (by rw [hy c hc, hq]; simp) hc'
    · exact absurd (hq ▸ ha) h
    · exact absurd (hq ▸ hb) h
    · rw [hq] at h
      have key : ∀ (S : List (Vec2 ℚ × Vec2 ℚ)) (p : Vec2 ℚ × Vec2 ℚ → Bool), (S.filter p).length ≤ 1 → S.Pairwise (fun u v => ¬ (p u = true ∧ p v = true)) := by
        intro S p
        induction S with
        | nil => intro _; exact .nil
        | cons u S ih =>
          intro h
          rw [List.filter_cons] at h
          refine .cons ?_ (ih ?_)
          · rintro v hv ⟨h1, h2⟩
            rw [if_pos h1, List.length_cons] at h
            have : 0 < (S.filter p).length := List.length_pos_of_mem (List.mem_filter.2 ⟨hv, h2⟩)
            omega
          · split at h
            · rw [List.length_cons] at h; omega
            · exact h
      exact (key S _ h).imp (fun h q => h ⟨runsB_of q.1, runsB_of q.2⟩)

/-- The check for all minima of a polygon. -/
def minimaB (S : List (Vec2 ℚ × Vec2 ℚ)) (P : List (Vec2 ℚ)) : Bool :=
  (List.range P.length).all (fun n => (List.range (2 * P.length + 1)).all (fun m =>
    match (P.rotate n ++ P.rotate n).take m with
    | [] => true
    | a :: T => match T.getLast? with
      | none => true
      | some b => bottomB S a b T.dropLast))

theorem minimaB_sound {S : List (Vec2 ℚ × Vec2 ℚ)} {P : List (Vec2 ℚ)} (h : minimaB S P = true) {a b : Vec2 ℚ} {l : List (Vec2 ℚ)}
    (hs : Successive P (a :: l ++ [b])) : bottomB S a b l = true := by
  obtain ⟨n, hn⟩ := hs
  have hlen := hn.length_le
  rw [List.length_append (as := P.rotate n), List.length_rotate] at hlen
  have hpos : 0 < P.length := by
    have : 0 < (a :: l ++ [b]).length := by simp
    omega
  rw [← List.rotate_mod P n] at hn
  simp only [minimaB, List.all_eq_true, List.mem_range] at h
  have := h (n % P.length) (Nat.mod_lt _ hpos) (a :: l ++ [b]).length (by omega)
  rw [← List.prefix_iff_eq_take.1 hn, List.cons_append] at this
  simpa using this

/-- A finite check for `GeneralPolygons`. -/
def generalB (Ps : List (List (Vec2 ℚ))) : Bool :=
  let S := Ps.flatMap polySides
  S.all (fun s => decide (s.1 ≠ s.2)) &&
  Ps.all (fun P => P.any (fun p => P.any (fun q => decide (p.y ≠ q.y)))) &&
  Ps.all (fun P => P.all (fun p => decide (-dblMax ≤ p.x ∧ p.x ≤ dblMax ∧ -dblMax < p.y ∧ p.y ≤ dblMax))) &&
  decide (S.Pairwise (fun s t => meetB s.1 s.2 t.1 t.2 = true)) &&
  alongB S && ledgesB Ps && Ps.all (minimaB S)

theorem generalB_sound {Ps : List (List (Vec2 ℚ))} (h : generalB Ps = true) : GeneralPolygons Ps := by
  simp only [generalB, Bool.and_eq_true, List.all_eq_true, List.any_eq_true, decide_eq_true_eq] at h
  obtain ⟨⟨⟨⟨⟨⟨h1, h2⟩, h3⟩, h4⟩, h5⟩, h6⟩, h7⟩ := h
  simp only [ledgesB, Bool.and_eq_true, Bool.or_eq_true, List.all_eq_true, decide_eq_true_eq, List.mem_range] at h6
  obtain ⟨⟨l1, l2⟩, l3⟩ := h6
  refine ⟨h1, h2, ?_, h4.imp (fun h => meetB_sound h), alongB_sound h5, ?_, ?_, ?_, ?_⟩
  · intro P hP p hp
    simpa using h3 P hP p hp
  · intro P hP i n hL j hj p hp
    obtain ⟨k, hk⟩ := List.getElem?_of_mem hP
    have := l1 _ (mem_allLedges hk hL) j hj
    dsimp only at this
    rw [Nat.add_assoc, cornerAt_mod, cornerAt_mod, ← Nat.add_assoc] at this
    refine this.imp (fun h ps pt us ut => cornerB_sound h ?_ hp ps pt us ut)
    show (cornerAt P (i + j)).y = (cornerAt P (i + j + 1)).y
    rw [hL.flat j hj.le, Nat.add_assoc, hL.flat (j + 1) hj]
  · intro k k' P P' hP hP' i i' n n' hL hL' hne
    rcases l2 _ (mem_allLedges hP hL) _ (mem_allLedges hP' hL') with h | h
    · refine absurd ⟨h.1, ?_⟩ hne
      have e : P = P' := Option.some.inj (by rw [← hP, ← hP', show k = k' from h.1])
      subst e
      exact h.2
    · dsimp only at h
      rw [(mem_ledges hL).2.2, (mem_ledges hL').2.2] at h
      exact h
  · intro k k' P P' hP hP' i i' n n' hL hL' j j' hj hj' hne hy
    have := l3 _ (mem_allLedges hP hL) _ (mem_allLedges hP' hL') j hj j' hj'
    dsimp only at this
    have e0 : cornerAt P (i % P.length) = cornerAt P i := cornerAt_mod P i 0
    have e0' : cornerAt P' (i' % P'.length) = cornerAt P' i' := cornerAt_mod P' i' 0
    rw [Nat.add_assoc (i % P.length), cornerAt_mod, cornerAt_mod, ← Nat.add_assoc, Nat.add_assoc (i' % P'.length), cornerAt_mod, cornerAt_mod, ← Nat.add_assoc,
      e0, e0'] at this
    rcases this with ((h | h) | h) | h
    · refine absurd ⟨h.1, ?_⟩ hne
      have e : P = P' := Option.some.inj (by rw [← hP, ← hP', show k = k' from h.1])
      subst e
      have := h.2
      rwa [Nat.mod_add_mod, Nat.mod_add_mod] at this
    · exact absurd hy h
    · exact Or.inl h
    · exact Or.inr h
  · intro P hP a b l hl hsucc y hy ha hb
    exact bottomB_sound hl (minimaB_sound (h7 P hP) hsucc) hy ha hb

/-- A finite check for `SidesApart`. -/
def noOverlapB (Ps : List (List (Vec2 ℚ))) : Bool :=
  decide ((Ps.flatMap polySides).Pairwise (fun s t => s.1.y = s.2.y ∨ dirs s t ≠ 0 ∨ cross3 s.1 s.2 t.1 ≠ 0 ∨
    max s.1.y s.2.y ≤ min t.1.y t.2.y ∨ max t.1.y t.2.y ≤ min s.1.y s.2.y))

theorem noOverlapB_sound {Ps : List (List (Vec2 ℚ))} (h : noOverlapB Ps = true) : SidesApart Ps := by
  unfold noOverlapB at h
  refine (of_decide_eq_true h).imp ?_
  rintro s t h hy ⟨p, q, hpq, p1, q1, p2, q2⟩
  have rp1 := (onSeg_range p1).1
  have rp2 := (onSeg_range p2).1
  have rq1 := (onSeg_range q1).1
  have rq2 := (onSeg_range q2).1
  obtain ⟨a, _, _, ea⟩ := p1
  obtain ⟨b, _, _, eb⟩ := q1
  obtain ⟨c, _, _, ec⟩ := p2
  obtain ⟨d, _, _, ed⟩ := q2
  have hyd : s.2.y - s.1.y ≠ 0 := sub_ne_zero.2 (fun e => hy e.symm)
  have hab : a - b ≠ 0 := fun h => hpq (by rw [ea, eb, sub_eq_zero.1 h])
  have ax : p.x = s.1.x + a * (s.2.x - s.1.x) := congrArg Vec2.x ea
  have ay : p.y = s.1.y + a * (s.2.y - s.1.y) := congrArg Vec2.y ea
  have bx : q.x = s.1.x + b * (s.2.x - s.1.x) := congrArg Vec2.x eb
  have bY : q.y = s.1.y + b * (s.2.y - s.1.y) := congrArg Vec2.y eb
  have cx : p.x = t.1.x + c * (t.2.x - t.1.x) := congrArg Vec2.x ec
  have cy : p.y = t.1.y + c * (t.2.y - t.1.y) := congrArg Vec2.y ec
  have dx : q.x = t.1.x + d * (t.2.x - t.1.x) := congrArg Vec2.x ed
  have dy : q.y = t.1.y + d * (t.2.y - t.1.y) := congrArg Vec2.y ed
  have hyne : p.y ≠ q.y := by
    intro e
    have : (a - b) * (s.2.y - s.1.y) = 0 := by linear_combination e - ay + bY
    rcases mul_eq_zero.1 this with h | h
    · exact hab h
    · exact hyd h
  have hpar : dirs s t = 0 := by
    have : (a - b) * dirs s t = 0 := by
      unfold dirs
      linear_combination (t.2.y - t.1.y) * (cx - dx - ax + bx) - (t.2.x - t.1.x) * (cy - dy - ay + bY)
    exact (mul_eq_zero.1 this).resolve_left hab
  rcases h with h | h | h | h | h
  · exact hy h
  · exact h hpar
  · apply h
    unfold cross3
    unfold dirs at hpar
    linear_combination (s.2.x - s.1.x) * (ay - cy) - (s.2.y - s.1.y) * (ax - cx) - c * hpar
  · exact hyne (le_antisymm (rp1.2.trans (h.trans rq2.1)) (rq1.2.trans (h.trans rp2.1)))
  · exact hyne (le_antisymm (rp2.2.trans (h.trans rq1.1)) (rq2.2.trans (h.trans rp1.1)))

/-- A self-crossing pentagram. -/
def pentagram : List (Vec2 ℚ) := [⟨0, 10⟩, ⟨-6, -9⟩, ⟨10, 4⟩, ⟨-10, 3⟩, ⟨6, -8⟩]

/-- A quadrilateral across it. -/
def quad : List (Vec2 ℚ) := [⟨1, -6⟩, ⟨9, 2⟩, ⟨2, 7⟩, ⟨-7, 1⟩]

theorem demo_general : GeneralPolygons ([pentagram] ++ [quad]) := generalB_sound (by decide +kernel)

/-- The pentagram crosses itself five times: its middle has winding number 2, its tips 1. -/
theorem demo_points : polyWinding [pentagram] 0 0 = 2 ∧ polyWinding [pentagram] 0 8 = 1 ∧ polyWinding [pentagram] 20 0 = 0 ∧
    polyWinding [quad] 0 0 = 1 ∧ polyWinding [quad] 0 8 = 0 := by decide +kernel

/-- **C59** applied: their union, by the positive rule. -/
theorem demo_union : ∃ c1 c2 : Clipper ℚ, (Clipper.new (K := ℚ)).addPath ([pentagram].map (fun P => Path.build (polyCmds P))) .subject = some c1 ∧
    c1.addPath ([quad].map (fun P => Path.build (polyCmds P))) .clip = some c2 ∧
    ∃ n, ∀ fuel, n ≤ fuel → ∃ (c' : Clipper ℚ) (out : List (List (Vec2 ℚ))),
      c2.process demoEnv minsort fuel .union .positive Path.recorder [] = some (some (c', out.flatMap (fun Q => eventsFrom zeroPt (closedCmds Q)))) ∧
      ∀ X y, polyWinding out X y = if 0 < polyWinding [pentagram] X y ∨ 0 < polyWinding [quad] X y then 1 else 0 := by
  obtain ⟨c1, c2, h1, h2, n, hn⟩ := process_polygons demoEnv demoEnv_ok minsort minsort_ok [pentagram] [quad] demo_general .union .positive 1
    (Or.inl rfl) (consistent_positive _ _ _ (Or.inl rfl))
  refine ⟨c1, c2, h1, h2, n, fun fuel hf => ?_⟩
  obtain ⟨c', out, h3, h4⟩ := hn fuel hf
  refine ⟨c', out, h3, fun X y => ?_⟩
  rw [h4]
  by_cases h : InResult [pentagram] [quad] .union .positive X y
  · rw [if_pos h]; exact (if_pos (show 0 < polyWinding [pentagram] X y ∨ 0 < polyWinding [quad] X y from h)).symm
  · rw [if_neg h]; exact (if_neg (show ¬ (0 < polyWinding [pentagram] X y ∨ 0 < polyWinding [quad] X y) from h)).symm

/-- A rectangle, and another across its corner. -/
def rectA : List (Vec2 ℚ) := [⟨0, 0⟩, ⟨4, 0⟩, ⟨4, 3⟩, ⟨0, 3⟩]

def rectB : List (Vec2 ℚ) := [⟨2, 1⟩, ⟨6, 1⟩, ⟨6, 5⟩, ⟨2, 5⟩]

/-- The hypotheses allow horizontal sides: overlapping rectangles meet them. -/
theorem rects_general : GeneralPolygons ([rectA] ++ [rectB]) := generalB_sound (by decide +kernel)

/-- **C59** applied to rectangles. -/
theorem rects_intersection : ∃ c1 c2 : Clipper ℚ, (Clipper.new (K := ℚ)).addPath ([rectA].map (fun P => Path.build (polyCmds P))) .subject = some c1 ∧
    c1.addPath ([rectB].map (fun P => Path.build (polyCmds P))) .clip = some c2 ∧
    ∃ n, ∀ fuel, n ≤ fuel → ∃ (c' : Clipper ℚ) (out : List (List (Vec2 ℚ))),
      c2.process demoEnv minsort fuel .intersection .positive Path.recorder [] = some (some (c', out.flatMap (fun Q => eventsFrom zeroPt (closedCmds Q)))) ∧
      ∀ X y, polyWinding out X y = if 0 < polyWinding [rectA] X y ∧ 0 < polyWinding [rectB] X y then 1 else 0 := by
  obtain ⟨c1, c2, h1, h2, n, hn⟩ := process_polygons demoEnv demoEnv_ok minsort minsort_ok [rectA] [rectB] rects_general .intersection .positive 1
    (Or.inl rfl) (consistent_positive _ _ _ (Or.inr rfl))
  refine ⟨c1, c2, h1, h2, n, fun fuel hf => ?_⟩
  obtain ⟨c', out, h3, h4⟩ := hn fuel hf
  refine ⟨c', out, h3, fun X y => ?_⟩
  rw [h4]
  by_cases h : InResult [rectA] [rectB] .intersection .positive X y
  · rw [if_pos h]; exact (if_pos (show 0 < polyWinding [rectA] X y ∧ 0 < polyWinding [rectB] X y from h)).symm
  · rw [if_neg h]; exact (if_neg (show ¬ (0 < polyWinding [rectA] X y ∧ 0 < polyWinding [rectB] X y) from h)).symm

/-- Three rectangles side by side: the second shares a part of a side with the first, the third a whole side with the second; a
fourth one lies across them. -/
def tiles : List (List (Vec2 ℚ)) :=
  [[⟨0, 0⟩, ⟨4, 0⟩, ⟨4, 3⟩, ⟨0, 3⟩], [⟨4, 1⟩, ⟨6, 1⟩, ⟨6, 5⟩, ⟨4, 5⟩], [⟨6, 1⟩, ⟨9, 1⟩, ⟨9, 5⟩, ⟨6, 5⟩]]

/-- The fourth one; part of its right side lies on the side between the second and the third. -/
def bar : List (Vec2 ℚ) := [⟨2, 2⟩, ⟨6, 2⟩, ⟨6, 4⟩, ⟨2, 4⟩]

/-- Rectangles that share sides meet the hypotheses, too. -/
theorem tiles_general : GeneralPolygons (tiles ++ [bar]) := generalB_sound (by decide +kernel)

/-- Their sides overlap. -/
theorem tiles_overlap : ¬ SidesApart (tiles ++ [bar]) := by
  intro h
  have h0 : SidesApart (tiles ++ [bar]) := h
  unfold SidesApart at h
  have := (List.pairwise_iff_getElem.1 h) 1 7 (by decide +kernel) (by decide +kernel) (by norm_num)
  revert this
  have e1 : ((tiles ++ [bar]).flatMap polySides)[1]'(by decide +kernel) = (⟨4, 0⟩, ⟨4, 3⟩) := by decide +kernel
  have e2 : ((tiles ++ [bar]).flatMap polySides)[7]'(by decide +kernel) = (⟨4, 5⟩, ⟨4, 1⟩) := by decide +kernel
  rw [e1, e2]
  intro h
  refine h (by norm_num) ⟨⟨4, 1⟩, ⟨4, 3⟩, by simp, onB_sound (u := (_, _)) (by decide +kernel), onB_sound (u := (_, _)) (by decide +kernel),
    onB_sound (u := (_, _)) (by decide +kernel), onB_sound (u := (_, _)) (by decide +kernel)⟩

/-- None of them has negative winding numbers. -/
theorem tiles_signed : ∀ P ∈ tiles ++ [bar], Signed 1 P := by
  have key : ∀ a b c d : ℚ, a < c → b < d → ∀ X y, 0 ≤ (1 : Int) * polyWinding [[⟨a, b⟩, ⟨c, b⟩, ⟨c, d⟩, ⟨a, d⟩]] X y := by
    intro a b c d h1 h2 X y
    have e : (d - b) ≠ 0 := sub_ne_zero.2 h2.ne'
    have hf : ∀ z : ℚ, ¬ (z ≤ y ∧ y < z) := fun z h => absurd (h.1.trans_lt h.2) (lt_irrefl z)
    have hbd : ¬ (d ≤ y ∧ y < b) := fun h => absurd (h.1.trans_lt h.2) (not_lt.2 h2.le)
    have ex : ∀ z : ℚ, atHeight ⟨z, b⟩ ⟨z, d⟩ y = z ∧ atHeight ⟨z, d⟩ ⟨z, b⟩ y = z := fun z => by simp [atHeight]
    simp only [polyWinding, polySides, List.rotate_cons_succ, List.rotate_zero, List.flatMap_cons, List.flatMap_nil, List.cons_append,
      List.nil_append, List.zip_cons_cons, List.zip_nil_left, List.append_nil, List.map_cons, List.map_nil, List.sum_cons, List.sum_nil,
      sideWinding, (ex _).1, (ex _).2, hf, hbd, if_false, ite_self, one_mul]
    by_cases hc : c < X
    · rw [if_pos hc, if_pos (h1.trans hc)]
      by_cases hy : b ≤ y ∧ y < d <;> simp [hy]
    · rw [if_neg hc]
      by_cases ha : a < X
      · rw [if_pos ha]
        by_cases hy : b ≤ y ∧ y < d <;> simp [hy]
      · rw [if_neg ha]; simp
  intro P hP
  simp only [tiles, bar, List.cons_append, List.nil_append, List.mem_cons, List.not_mem_nil, or_false] at hP
  rcases hP with rfl | rfl | rfl | rfl
  all_goals exact Or.inr ⟨noOverlapB_sound (by decide +kernel), key _ _ _ _ (by norm_num) (by norm_num)⟩

/-- **C59** applied to rectangles that share sides, with the nonzero rule. -/
theorem tiles_union : ∃ c1 c2 : Clipper ℚ, (Clipper.new (K := ℚ)).addPath (tiles.map (fun P => Path.build (polyCmds P))) .subject = some c1 ∧
    c1.addPath ([bar].map (fun P => Path.build (polyCmds P))) .clip = some c2 ∧
    ∃ n, ∀ fuel, n ≤ fuel → ∃ (c' : Clipper ℚ) (out : List (List (Vec2 ℚ))),
      c2.process demoEnv minsort fuel .union .nonZero Path.recorder [] = some (some (c', out.flatMap (fun Q => eventsFrom zeroPt (closedCmds Q)))) ∧
      ∀ X y, polyWinding out X y = if polyWinding tiles X y ≠ 0 ∨ polyWinding [bar] X y ≠ 0 then 1 else 0 := by
  obtain ⟨c1, c2, h1, h2, n, hn⟩ := process_polygons demoEnv demoEnv_ok minsort minsort_ok tiles [bar] tiles_general .union .nonZero 1
    (Or.inl rfl) (consistent_nonzero _ _ _ (Or.inl rfl) tiles_signed)
  refine ⟨c1, c2, h1, h2, n, fun fuel hf => ?_⟩
  obtain ⟨c', out, h3, h4⟩ := hn fuel hf
  refine ⟨c', out, h3, fun X y => ?_⟩
  rw [h4]
  by_cases h : InResult tiles [bar] .union .nonZero X y
  · rw [if_pos h]; exact (if_pos (show polyWinding tiles X y ≠ 0 ∨ polyWinding [bar] X y ≠ 0 from h)).symm
  · rw [if_neg h]; exact (if_neg (show ¬ (polyWinding tiles X y ≠ 0 ∨ polyWinding [bar] X y ≠ 0) from h)).symm

end River
