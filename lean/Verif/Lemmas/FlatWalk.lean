import Verif.Lemmas.EdgeSide

/-! # Walking along a contour over horizontal sides -/

namespace River
variable {K : Type}

/-- Where a side is left when the contour is walked in direction `fwd`. -/
def Side.out (fwd : Bool) (s : Side K) : Vec2 K := if fwd then s.seg.target else s.frm
/-- Where it is entered. -/
def Side.inn (fwd : Bool) (s : Side K) : Vec2 K := if fwd then s.frm else s.seg.target

/-- `t` is the next side after `s` in direction `fwd`. -/
def Adj (rings : List (Ring K)) (fwd : Bool) (s t : Side K) : Prop :=
  t ∈ sides rings ∧ t.ring = s.ring ∧
    t.idx = if fwd then nextIdx (ringSize rings s.ring) s.idx else prevIdx (ringSize rings s.ring) s.idx

/-- From `s` over the horizontal sides `fl` to `t`. -/
inductive FWalk (rings : List (Ring K)) (fwd : Bool) : Side K → List (Side K) → Side K → Prop
  | nil {s t : Side K} : Adj rings fwd s t → FWalk rings fwd s [] t
  | cons {s f t : Side K} {fl : List (Side K)} : Adj rings fwd s f → f.Flat → FWalk rings fwd f fl t → FWalk rings fwd s (f :: fl) t

section
variable {rings : List (Ring K)}

theorem Adj.unique {fwd : Bool} {s t t' : Side K} (h : Adj rings fwd s t) (h' : Adj rings fwd s t') : t = t' :=
  side_ext rings t t' h.1 h'.1 (h.2.1.trans h'.2.1.symm) (h.2.2.trans h'.2.2.symm)

theorem side_idx_lt' {s : Side K} (hs : s ∈ sides rings) : s.idx < ringSize rings s.ring := by
  obtain ⟨x, v, _, h, _⟩ := side_node hs
  exact nodeAt_lt h

theorem Adj.rev {fwd : Bool} {s t : Side K} (hs : s ∈ sides rings) (h : Adj rings fwd s t) : Adj rings (!fwd) t s := by
  have hlt := side_idx_lt' hs
  refine ⟨hs, h.2.1.symm, ?_⟩
  rw [h.2.1, h.2.2]
  cases fwd
  · simp [next_prev hlt]
  · simp [prev_next hlt]

theorem Adj.exists (fwd : Bool) {s : Side K} (hs : s ∈ sides rings) : ∃ t, Adj rings fwd s t := by
  obtain ⟨x, v, hx, hv, _⟩ := side_node hs
  have hlt := nodeAt_lt hv
  obtain ⟨w, hw⟩ := nodeAt_of_lt hv (j := if fwd then nextIdx (ringSize rings s.ring) s.idx else prevIdx (ringSize rings s.ring) s.idx)
    (by cases fwd
        · exact prevIdx_lt hlt
        · exact nextIdx_lt hlt)
  exact ⟨_, side_at hw hx, rfl, rfl⟩

theorem Adj.point (hl : ∀ r ∈ rings, Linked r.nodes) {fwd : Bool} {s t : Side K} (hs : s ∈ sides rings) (h : Adj rings fwd s t) :
    s.out fwd = t.inn fwd := by
  have hlt := side_idx_lt' hs
  obtain ⟨x, v, hx, hv, h1, h2, _⟩ := side_node hs
  obtain ⟨x', w, hx', hw, h1', h2', _⟩ := side_node h.1
  rw [h.2.1, h.2.2] at hw
  cases fwd with
  | true =>
    simp only [Side.out, Side.inn, if_true]
    rw [h2, h1']
    exact node_target hl hv hw
  | false =>
    simp only [Side.out, Side.inn, Bool.false_eq_true, if_false] at hw ⊢
    rw [h1, h2']
    exact (node_target hl hw (by rw [next_prev hlt]; exact hv)).symm

theorem Side.out_not (fwd : Bool) (s : Side K) : s.out (!fwd) = s.inn fwd := by cases fwd <;> rfl
theorem Side.inn_not (fwd : Bool) (s : Side K) : s.inn (!fwd) = s.out fwd := by cases fwd <;> rfl

theorem FWalk.mem {fwd : Bool} {s t : Side K} {fl : List (Side K)} (h : FWalk rings fwd s fl t) :
    t ∈ sides rings ∧ t.ring = s.ring ∧ ∀ f ∈ fl, f ∈ sides rings ∧ f.ring = s.ring ∧ f.Flat := by
  induction h with
  | nil h => exact ⟨h.1, h.2.1, by simp⟩
  | cons h1 h2 _ ih =>
    refine ⟨ih.1, ih.2.1.trans h1.2.1, ?_⟩
    intro f hf
    rcases List.mem_cons.1 hf with rfl | hf
    · exact ⟨h1.1, h1.2.1, h2⟩
    · exact ⟨(ih.2.2 f hf).1, (ih.2.2 f hf).2.1.trans h1.2.1, (ih.2.2 f hf).2.2⟩

theorem FWalk.unique {fwd : Bool} {s t t' : Side K} {fl fl' : List (Side K)} (h : FWalk rings fwd s fl t) (h' : FWalk rings fwd s fl' t')
    (ht : ¬ t.Flat) (ht' : ¬ t'.Flat) : fl = fl' ∧ t = t' := by
  induction h generalizing fl' with
  | nil h =>
    cases h' with
    | nil h2 => exact ⟨rfl, h.unique h2⟩
    | cons h2 h3 _ => rw [h.unique h2] at ht; exact (ht h3).elim
  | cons h h1 _ ih =>
    cases h' with
    | nil h2 => rw [h2.unique h] at ht'; exact (ht' h1).elim
    | cons h2 h3 h4 =>
      have e := h.unique h2
      subst e
      obtain ⟨e1, e2⟩ := ih h4 ht
      exact ⟨by rw [e1], e2⟩

theorem FWalk.snoc {fwd : Bool} {s f t : Side K} {fl : List (Side K)} (h : FWalk rings fwd s fl f) (hf : f.Flat) (h1 : Adj rings fwd f t) :
    FWalk rings fwd s (fl ++ [f]) t := by
  induction h with
  | nil h => exact .cons h hf (.nil h1)
  | cons h h2 _ ih => exact .cons h h2 (ih hf h1)

theorem FWalk.rev {fwd : Bool} {s t : Side K} {fl : List (Side K)} (hs : s ∈ sides rings) (h : FWalk rings fwd s fl t) :
    FWalk rings (!fwd) t fl.reverse s := by
  induction h with
  | nil h => exact .nil (h.rev hs)
  | cons h h2 _ ih =>
    rw [List.reverse_cons]
    exact (ih h.1).snoc h2 (h.rev hs)

/-- Walking `k` steps. -/
def walkIdx (n : Nat) (fwd : Bool) : Nat → Nat → Nat
  | 0, i => i
  | k + 1, i => walkIdx n fwd k (if fwd then nextIdx n i else prevIdx n i)

theorem walkIdx_eq (n : Nat) (fwd : Bool) (k i : Nat) (hi : i < n) : walkIdx n fwd k i = (i + k * (if fwd then 1 else n - 1)) % n := by
  induction k generalizing i with
  | zero => simp [walkIdx, Nat.mod_eq_of_lt hi]
  | succ k ih =>
    have hn : 0 < n := by omega
    rw [walkIdx, ih _ (by cases fwd <;> exact Nat.mod_lt _ hn)]
    cases fwd
    · simp only [Bool.false_eq_true, if_false, prevIdx]
      rw [Nat.mod_add_mod]; congr 1; ring
    · simp only [if_true, nextIdx]
      rw [Nat.mod_add_mod]; congr 1; ring

theorem walkIdx_full (n : Nat) (fwd : Bool) (i : Nat) (hi : i < n) : walkIdx n fwd n i = i := by
  rw [walkIdx_eq _ _ _ _ hi, Nat.add_mul_mod_self_left, Nat.mod_eq_of_lt hi]

/-- From every side one gets to one that is not horizontal, if the contour has one; the number of sides passed is limited. -/
theorem FWalk.exists_aux (fwd : Bool) (n : Nat) (r : Nat) (hn : ringSize rings r = n) (k : Nat) (s : Side K) (hs : s ∈ sides rings) (hr : s.ring = r)
    (z : Side K) (hz : z ∈ sides rings) (hzr : z.ring = r) (hzs : ¬ z.Flat) (hk : walkIdx n fwd (k + 1) s.idx = z.idx) :
    ∃ fl t, FWalk rings fwd s fl t ∧ ¬ t.Flat ∧ fl.length ≤ k := by
  induction k generalizing s with
  | zero =>
    obtain ⟨t, ht⟩ := Adj.exists fwd hs
    have : t = z := side_ext rings t z ht.1 hz (ht.2.1.trans (hr.trans hzr.symm)) (by rw [ht.2.2, hr, hn]; exact hk)
    exact ⟨[], t, .nil ht, this ▸ hzs, le_refl _⟩
  | succ k ih =>
    obtain ⟨t, ht⟩ := Adj.exists fwd hs
    by_cases hf : t.Flat
    · obtain ⟨fl, u, h1, h2, h3⟩ := ih t ht.1 (ht.2.1.trans hr) (by rw [ht.2.2, hr, hn]; exact hk)
      exact ⟨t :: fl, u, .cons ht hf h1, h2, by simpa using h3⟩
    · exact ⟨[], t, .nil ht, hf, Nat.zero_le _⟩

theorem walkIdx_reach (n : Nat) (fwd : Bool) (i j : Nat) (hi : i < n) (hj : j < n) : ∃ k, k < n ∧ walkIdx n fwd (k + 1) i = j := by
  cases fwd with
  | true =>
    refine ⟨(j + n - i + (n - 1)) % n, Nat.mod_lt _ (by omega), ?_⟩
    rw [walkIdx_eq _ _ _ _ hi]
    simp only [if_true, mul_one]
    rw [← Nat.add_assoc, Nat.add_right_comm, Nat.add_mod_mod, show i + 1 + (j + n - i + (n - 1)) = j + n * 2 by omega, Nat.add_mul_mod_self_left,
      Nat.mod_eq_of_lt hj]
  | false =>
    refine ⟨(i + n - j + (n - 1)) % n, Nat.mod_lt _ (by omega), ?_⟩
    rw [walkIdx_eq _ _ _ _ hi]
    simp only [Bool.false_eq_true, if_false]
    obtain ⟨m, hm⟩ : ∃ m, (i + n - j + (n - 1)) % n + 1 + n * m = i + n - j + n := by
      refine ⟨(i + n - j + (n - 1)) / n, ?_⟩
      have := Nat.mod_add_div (i + n - j + (n - 1)) n
      omega
    generalize (i + n - j + (n - 1)) % n = q at hm
    obtain ⟨p, rfl⟩ : ∃ p, n = p + 1 := ⟨n - 1, by omega⟩
    simp only [Nat.add_sub_cancel]
    have h2 : i + (q + 1) * p + (i + (p + 1) - j + (p + 1)) = i + (q + 1) * (p + 1) + (p + 1) * m := by
      rw [← hm]; ring
    have h3 : (i + (q + 1) * p + (i + (p + 1) - j + (p + 1)) + j) % (p + 1) = (i + j) % (p + 1) := by
      rw [h2, show i + (q + 1) * (p + 1) + (p + 1) * m + j = i + j + (p + 1) * ((q + 1) + m) by ring, Nat.add_mul_mod_self_left]
    rw [show i + (q + 1) * p + (i + (p + 1) - j + (p + 1)) + j = (i + (q + 1) * p) + i + (p + 1) * 2 by omega, Nat.add_mul_mod_self_left] at h3
    have h4 : (i + (q + 1) * p) ≡ j [MOD (p + 1)] := by
      refine Nat.ModEq.add_right_cancel' i ?_
      rw [Nat.ModEq, h3, add_comm]
    rw [h4.symm.symm]
    exact Nat.mod_eq_of_lt hj

theorem FWalk.exists (fwd : Bool) {s z : Side K} (hs : s ∈ sides rings) (hz : z ∈ sides rings) (hr : z.ring = s.ring) (hzs : ¬ z.Flat) :
    ∃ fl t, FWalk rings fwd s fl t ∧ ¬ t.Flat ∧ fl.length < ringSize rings s.ring := by
  obtain ⟨k, hk, h⟩ := walkIdx_reach (ringSize rings s.ring) fwd s.idx z.idx (side_idx_lt' hs) (hr ▸ side_idx_lt' hz)
  obtain ⟨fl, t, h1, h2, h3⟩ := FWalk.exists_aux fwd _ s.ring rfl k s hs rfl z hz hr hzs h
  exact ⟨fl, t, h1, h2, by omega⟩

/-! ## connection with the specification -/

theorem flatRun_chain {r i j : Nat} (h : FlatRun rings r i j) (s t : Side K) (hs : s ∈ sides rings) (hr : s.ring = r)
    (hi : nextIdx (ringSize rings r) s.idx = i) (ht : t ∈ sides rings) (htr : t.ring = r) (hj : t.idx = j) :
    ∃ fl, FWalk rings true s fl t := by
  induction h generalizing t with
  | nil => exact ⟨[], .nil ⟨ht, htr.trans hr.symm, by rw [hj, hr, ← hi]; rfl⟩⟩
  | snoc f hf hfr hfl _ ih =>
    obtain ⟨fl, h⟩ := ih f hf hfr rfl
    exact ⟨_, h.snoc hfl ⟨ht, htr.trans hfr.symm, by rw [hj, hfr]; rfl⟩⟩

theorem flatRun_cons {r : Nat} {f : Side K} (hf : f ∈ sides rings) (hr : f.ring = r) (hfl : f.Flat) {j : Nat}
    (h : FlatRun rings r (nextIdx (ringSize rings r) f.idx) j) : FlatRun rings r f.idx j := by
  induction h with
  | nil => exact .snoc _ f hf hr hfl (.nil _)
  | snoc g hg hgr hgl _ ih => exact .snoc _ g hg hgr hgl ih

theorem chain_flatRun {s t : Side K} {fl : List (Side K)} (h : FWalk rings true s fl t) :
    FlatRun rings s.ring (nextIdx (ringSize rings s.ring) s.idx) t.idx := by
  induction h with
  | nil h => rw [h.2.2]; exact .nil _
  | @cons s f t fl h h2 _ ih =>
    have e : f.idx = nextIdx (ringSize rings s.ring) s.idx := h.2.2
    rw [← e]
    rw [h.2.1] at ih
    exact flatRun_cons h.1 h.2.1 h2 ih

theorem follows_iff {s t : Side K} (hs : s ∈ sides rings) (ht : t ∈ sides rings) :
    Follows rings s t ↔ ¬ s.Flat ∧ ¬ t.Flat ∧ ∃ fl, FWalk rings true s fl t := by
  constructor
  · rintro ⟨h1, h2, h3, h4⟩
    exact ⟨h1, h2, flatRun_chain h4 s t hs rfl rfl ht h3.symm rfl⟩
  · rintro ⟨h1, h2, fl, h⟩
    exact ⟨h1, h2, h.mem.2.1.symm, chain_flatRun h⟩

theorem Follows.unique {s s' t : Side K} (hs : s ∈ sides rings) (hs' : s' ∈ sides rings) (ht : t ∈ sides rings)
    (h : Follows rings s t) (h' : Follows rings s' t) : s = s' := by
  obtain ⟨h1, _, fl, h2⟩ := (follows_iff hs ht).1 h
  obtain ⟨h1', _, fl', h2'⟩ := (follows_iff hs' ht).1 h'
  exact ((h2.rev hs).unique (h2'.rev hs') h1 h1').2

end

/-! ## geometry -/

section
variable {rings : List (Ring K)}

theorem Side.Flat.ends {f : Side K} (h : f.Flat) (fwd : Bool) : (f.inn fwd).y = (f.out fwd).y := by
  cases fwd
  · exact (h : f.frm.y = f.seg.target.y).symm
  · exact h

theorem Side.flat_y {f : Side K} (h : f.Flat) (fwd : Bool) : (f.inn fwd).y = f.frm.y := by
  cases fwd
  · exact (h : f.frm.y = f.seg.target.y).symm
  · rfl

theorem Side.ends_cases (f : Side K) (fwd : Bool) {p : Vec2 K} (h : p = f.frm ∨ p = f.seg.target) : p = f.inn fwd ∨ p = f.out fwd := by
  cases fwd
  · exact h.symm
  · exact h

theorem Side.ends_of (f : Side K) (fwd : Bool) : (f.inn fwd = f.frm ∨ f.inn fwd = f.seg.target) ∧ (f.out fwd = f.frm ∨ f.out fwd = f.seg.target) := by
  cases fwd
  · exact ⟨Or.inr rfl, Or.inl rfl⟩
  · exact ⟨Or.inl rfl, Or.inr rfl⟩

theorem FWalk.height (hl : ∀ r ∈ rings, Linked r.nodes) {fwd : Bool} {s t : Side K} {fl : List (Side K)} (hs : s ∈ sides rings)
    (h : FWalk rings fwd s fl t) : (t.inn fwd).y = (s.out fwd).y ∧ ∀ f ∈ fl, f.frm.y = (s.out fwd).y := by
  induction h with
  | nil h => exact ⟨by rw [h.point hl hs], by simp⟩
  | @cons s f t fl h h2 _ ih =>
    obtain ⟨i1, i2⟩ := ih h.1
    have e : (f.out fwd).y = (s.out fwd).y := by rw [h.point hl hs]; exact (h2.ends fwd).symm
    refine ⟨i1.trans e, ?_⟩
    intro g hg
    rcases List.mem_cons.1 hg with rfl | hg
    · rw [h.point hl hs]; exact (Side.flat_y h2 fwd).symm
    · exact (i2 g hg).trans e

/-- Every vertex of the run is its first one or the end of one of its sides; the last one too. -/
theorem FWalk.near (hl : ∀ r ∈ rings, Linked r.nodes) {fwd : Bool} {s t : Side K} {fl : List (Side K)} (hs : s ∈ sides rings)
    (h : FWalk rings fwd s fl t) : (∀ f ∈ fl, f.inn fwd = s.out fwd ∨ f.inn fwd ∈ fl.map (Side.out fwd)) ∧
      ((fl = [] ∧ t.inn fwd = s.out fwd) ∨ t.inn fwd ∈ fl.map (Side.out fwd)) := by
  induction h with
  | nil h => exact ⟨by simp, Or.inl ⟨rfl, (h.point hl hs).symm⟩⟩
  | @cons s f t fl h h2 _ ih =>
    obtain ⟨i1, i2⟩ := ih h.1
    refine ⟨?_, ?_⟩
    · intro g hg
      rcases List.mem_cons.1 hg with rfl | hg
      · exact Or.inl (h.point hl hs).symm
      · rcases i1 g hg with e | e
        · right; rw [e]; simp
        · right; exact List.mem_cons_of_mem _ e
    · right
      rcases i2 with ⟨_, e⟩ | e
      · rw [e]; simp
      · exact List.mem_cons_of_mem _ e

variable [LinearOrder K]

theorem Side.covers_ends (f : Side K) (fwd : Bool) (X : K) :
    f.Covers X ↔ min (f.inn fwd).x (f.out fwd).x ≤ X ∧ X ≤ max (f.inn fwd).x (f.out fwd).x := by
  cases fwd
  · simp only [Side.Covers, Side.inn, Side.out, Bool.false_eq_true, if_false]
    rw [min_comm, max_comm]
  · rfl

/-- What lies between the two ends of a run lies on one of its sides. -/
theorem FWalk.cover (hl : ∀ r ∈ rings, Linked r.nodes) {fwd : Bool} {s t : Side K} {fl : List (Side K)} (hs : s ∈ sides rings)
    (h : FWalk rings fwd s fl t) (X : K) (h1 : min (s.out fwd).x (t.inn fwd).x ≤ X) (h2 : X ≤ max (s.out fwd).x (t.inn fwd).x)
    (hne : (s.out fwd).x ≠ (t.inn fwd).x) : ∃ f ∈ fl, f.Covers X := by
  induction h with
  | nil h => exact (hne (by rw [h.point hl hs])).elim
  | @cons s f t fl h hf _ ih =>
    rw [h.point hl hs] at h1 h2
    by_cases hc : f.Covers X
    · exact ⟨f, List.mem_cons_self, hc⟩
    · rw [f.covers_ends fwd, not_and_or, not_le, not_le] at hc
      have : ∃ g ∈ fl, g.Covers X := by
        apply ih h.1
        · rcases hc with hc | hc
          · rcases le_total (f.inn fwd).x (t.inn fwd).x with q | q
            · rw [min_eq_left q] at h1
              exact absurd (lt_of_lt_of_le hc (min_le_left _ _)) (not_lt.2 h1)
            · rw [min_eq_right q] at h1
              exact (min_le_right _ _).trans h1
          · exact (min_le_left _ _).trans (le_trans (le_max_right _ _) hc.le)
        · rcases hc with hc | hc
          · exact le_trans (hc.le.trans (min_le_right _ _)) (le_max_left _ _)
          · rcases le_total (f.inn fwd).x (t.inn fwd).x with q | q
            · rw [max_eq_right q] at h2
              exact h2.trans (le_max_right _ _)
            · rw [max_eq_left q] at h2
              exact absurd (lt_of_le_of_lt (le_max_left _ _) hc) (not_lt.2 h2)
        · intro e
          rw [e] at hc
          rcases hc with hc | hc
          · rcases le_total (f.inn fwd).x (t.inn fwd).x with q | q
            · rw [min_eq_left q] at h1 hc; exact not_lt.2 h1 hc
            · rw [min_eq_right q] at h1 hc; exact not_lt.2 h1 hc
          · rcases le_total (f.inn fwd).x (t.inn fwd).x with q | q
            · rw [max_eq_right q] at h2 hc; exact not_lt.2 h2 hc
            · rw [max_eq_left q] at h2 hc; exact not_lt.2 h2 hc
      obtain ⟨g, hg, hc⟩ := this
      exact ⟨g, List.mem_cons_of_mem _ hg, hc⟩

/-- The same with room to the right. -/
theorem FWalk.cover_lt (hl : ∀ r ∈ rings, Linked r.nodes) {fwd : Bool} {s t : Side K} {fl : List (Side K)} (hs : s ∈ sides rings)
    (h : FWalk rings fwd s fl t) (X : K) (h1 : min (s.out fwd).x (t.inn fwd).x ≤ X) (h2 : X < max (s.out fwd).x (t.inn fwd).x) :
    ∃ f ∈ fl, min f.frm.x f.seg.target.x ≤ X ∧ X < max f.frm.x f.seg.target.x := by
  have conv : ∀ f : Side K, (min f.frm.x f.seg.target.x ≤ X ∧ X < max f.frm.x f.seg.target.x) ↔
      (min (f.inn fwd).x (f.out fwd).x ≤ X ∧ X < max (f.inn fwd).x (f.out fwd).x) := by
    intro f
    cases fwd
    · simp only [Side.inn, Side.out, Bool.false_eq_true, if_false]; rw [min_comm, max_comm]
    · rfl
  simp only [conv]
  induction h with
  | nil h => rw [h.point hl hs, min_self] at h1; rw [h.point hl hs, max_self] at h2; exact (not_lt.2 h1 h2).elim
  | @cons s f t fl h hf _ ih =>
    rw [h.point hl hs] at h1 h2
    by_cases hc : min (f.inn fwd).x (f.out fwd).x ≤ X ∧ X < max (f.inn fwd).x (f.out fwd).x
    · exact ⟨f, List.mem_cons_self, hc⟩
    · have : ∃ g ∈ fl, min (g.inn fwd).x (g.out fwd).x ≤ X ∧ X < max (g.inn fwd).x (g.out fwd).x := by
        rw [not_and_or, not_le, not_lt, lt_min_iff, max_le_iff] at hc
        rw [min_le_iff] at h1
        rw [lt_max_iff] at h2
        apply ih h.1
        · rw [min_le_iff]
          rcases hc with hc | hc
          · rcases h1 with h1 | h1
            · exact absurd hc.1 (not_lt.2 h1)
            · exact Or.inr h1
          · exact Or.inl hc.2
        · rw [lt_max_iff]
          rcases hc with hc | hc
          · exact Or.inl hc.2
          · rcases h2 with h2 | h2
            · exact absurd hc.1 (not_le.2 h2)
            · exact Or.inr h2
      obtain ⟨g, hg, hc⟩ := this
      exact ⟨g, List.mem_cons_of_mem _ hg, hc⟩

theorem Side.out_top {s : Side K} : s.out s.up = s.top := by
  unfold Side.out Side.top; split <;> rfl
theorem Side.inn_bot {s : Side K} : s.inn s.up = s.bot := by
  unfold Side.inn Side.bot; split <;> rfl
theorem Side.inn_top {s : Side K} : s.inn (!s.up) = s.top := by rw [Side.inn_not, Side.out_top]
theorem Side.out_bot {s : Side K} : s.out (!s.up) = s.bot := by rw [Side.out_not, Side.inn_bot]

end
end River
