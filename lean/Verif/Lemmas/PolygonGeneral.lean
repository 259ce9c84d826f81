import Verif.Lemmas.PolygonRing

/-! # Polygons in general position are stored as contours in general position -/

namespace River
variable {K : Type}

attribute [local instance 10000] FTrans.toFNum

/-- The rings store the polygons (with their types), in this order. -/
def StoresAll [LT K] (L : List (PathType × List (Vec2 K))) (rings : List (Ring K)) : Prop := List.Forall₂ (fun p r => Stores p.1 p.2 r) L rings

theorem StoresAll.get [LT K] {L : List (PathType × List (Vec2 K))} {rings : List (Ring K)} (h : StoresAll L rings) {k : Nat} {r : Ring K}
    (hr : rings[k]? = some r) : ∃ p, L[k]? = some p ∧ Stores p.1 p.2 r := by
  obtain ⟨h1, h2⟩ := List.forall₂_iff_get.1 h
  obtain ⟨hk, e⟩ := List.getElem?_eq_some_iff.1 hr
  have := h2 k (h1 ▸ hk) hk
  rw [List.get_eq_getElem, List.get_eq_getElem, e] at this
  exact ⟨_, List.getElem?_eq_getElem (h1 ▸ hk), this⟩

theorem StoresAll.geo [LT K] {L : List (PathType × List (Vec2 K))} {rings : List (Ring K)} (h : StoresAll L rings) :
    (sides rings).map (fun s => (s.frm, s.seg)) = ((L.map Prod.snd).flatMap polySides).map (fun s => (s.1, Seg.line s.2)) := by
  rw [sides_geo]
  induction h with
  | nil => rfl
  | @cons p r L rs h1 _ ih =>
    rw [show allNodes (r :: rs) = r.nodes ++ allNodes rs from List.flatMap_cons, List.map_append, ih, List.map_cons, List.flatMap_cons,
      List.map_append, h1.geo]

theorem StoresAll.side [LT K] {L : List (PathType × List (Vec2 K))} {rings : List (Ring K)} (h : StoresAll L rings) {s : Side K} (hs : s ∈ sides rings) :
    ∃ q ∈ (L.map Prod.snd).flatMap polySides, s.frm = q.1 ∧ s.seg = .line q.2 := by
  have : (s.frm, s.seg) ∈ (sides rings).map (fun s => (s.frm, s.seg)) := List.mem_map.2 ⟨s, hs, rfl⟩
  rw [h.geo] at this
  obtain ⟨q, hq, e⟩ := List.mem_map.1 this
  exact ⟨q, hq, (congrArg Prod.fst e).symm, (congrArg Prod.snd e).symm⟩

theorem Stores.len [LT K] {pt : PathType} {P : List (Vec2 K)} {r : Ring K} (h : Stores pt P r) : r.nodes.length = P.length := by
  have := congrArg List.length h.geo
  simpa [polySides] using this

theorem Stores.node [LT K] {pt : PathType} {P : List (Vec2 K)} {r : Ring K} (h : Stores pt P r) {i : Nat} {v : Vtx K} (hv : r.nodes[i]? = some v) :
    P[i]? = some v.pt ∧ P[(i + 1) % P.length]? = some v.seg.target ∧ v.seg = .line v.seg.target := by
  have e := congrArg (fun l => l[i]?) h.geo
  simp only [List.getElem?_map, hv, Option.map_some] at e
  obtain ⟨s, hs, e⟩ := Option.map_eq_some_iff.1 e.symm
  obtain ⟨h1, h2⟩ := polySides_get.1 hs
  have e1 : s.1 = v.pt := congrArg Prod.fst e
  have e2 : Seg.line s.2 = v.seg := congrArg Prod.snd e
  rw [← e2]
  exact ⟨e1 ▸ h1, h2, rfl⟩

theorem Stores.linked [LT K] {pt : PathType} {P : List (Vec2 K)} {r : Ring K} (h : Stores pt P r) : Linked r.nodes := by
  intro i v w hv hw
  rw [h.len] at hw
  exact Option.some.inj ((h.node hv).2.1.symm.trans (h.node hw).1)

variable [Field K] [LinearOrder K]

theorem MeetOk.symm {p0 p1 p2 p3 : Vec2 K} (h : MeetOk p0 p1 p2 p3) : MeetOk p2 p3 p0 p1 := by
  intro hn a b a0 a1 b0 b1 e
  exact (h (fun hp => hn hp.swap) b a b0 b1 a0 a1 e.symm).symm

/-! ## heights along a ring -/

omit [Field K] [LinearOrder K] in
theorem IsCyc.at {nodes : List (Vtx K)} {Y : ℤ → K} (hY : IsCyc (nodes.map Vtx.y) Y) {i : Nat} {v : Vtx K} (hv : nodes[i]? = some v) {z : ℤ}
    (hz : z ≡ i [ZMOD nodes.length]) : Y z = v.pt.y := by
  have hper : Function.Periodic Y (nodes.length : ℤ) := by have := hY.1; rwa [List.length_map] at this
  obtain ⟨m, hm⟩ := hz.symm.dvd
  have e : z = i + m * nodes.length := by linear_combination hm
  have hp := hper.int_mul m i
  rw [Int.cast_id] at hp
  rw [e, hp]
  exact hY.2 i _ (by rw [List.getElem?_map, hv]; rfl)

omit [Field K] [LinearOrder K] in
theorem IsCyc.side {rings : List (Ring K)} {k : Nat} {r : Ring K} (hr : rings[k]? = some r) {Y : ℤ → K} (hY : IsCyc (r.nodes.map Vtx.y) Y)
    {s : Side K} (hs : s ∈ sides rings) (hk : s.ring = k) {z : ℤ} (hz : z ≡ s.idx [ZMOD r.nodes.length]) : Y z = s.frm.y := by
  obtain ⟨r', v, h1, h2, h3, _⟩ := (mem_sides rings s).1 hs
  rw [hk, hr] at h1
  cases Option.some.inj h1
  rw [hY.at h2 hz, h3]

theorem prevIdx_mod {n i : Nat} (h : i < n) : ((prevIdx n i : Nat) : ℤ) ≡ (i : ℤ) - 1 [ZMOD n] := by
  unfold prevIdx
  rw [Int.natCast_mod]
  refine (Int.mod_modEq _ _).trans ?_
  rw [Nat.cast_add, Nat.cast_sub (by omega), Nat.cast_one, show (i : ℤ) + (n - 1) = (i - 1) + n by ring]
  exact Int.add_modEq_right

theorem nextIdx_mod {n i : Nat} : ((nextIdx n i : Nat) : ℤ) ≡ (i : ℤ) + 1 [ZMOD n] := by
  unfold nextIdx
  rw [Int.natCast_mod]
  refine (Int.mod_modEq _ _).trans ?_
  rw [Nat.cast_add, Nat.cast_one]

omit [Field K] [LinearOrder K] in
/-- Heights met when a ring is walked backwards over horizontal sides. -/
theorem FWalk.back {rings : List (Ring K)} (hl : ∀ r ∈ rings, Linked r.nodes) {k : Nat} {r : Ring K} (hr : rings[k]? = some r) {Y : ℤ → K}
    (hY : IsCyc (r.nodes.map Vtx.y) Y) {t s : Side K} {fl : List (Side K)} (h : FWalk rings false t fl s) (ht : t ∈ sides rings) (hk : t.ring = k)
    (z : ℤ) (hz : z ≡ t.idx [ZMOD r.nodes.length]) :
    (∀ l : Nat, l ≤ fl.length → Y (z - l) = Y z) ∧ Y (z - (fl.length + 1)) = s.frm.y ∧ s.seg.target.y = Y z := by
  have hsz := (nodeAt_eq hr 0).2
  have adj : ∀ {t s : Side K}, t ∈ sides rings → t.ring = k → Adj rings false t s → ∀ {z : ℤ}, z ≡ t.idx [ZMOD r.nodes.length] →
      s.ring = k ∧ z - 1 ≡ s.idx [ZMOD r.nodes.length] ∧ s.seg.target.y = Y z := by
    intro t s ht hk ha z hz
    have hlt := side_idx_lt' ht
    rw [hk, hsz] at hlt
    refine ⟨ha.2.1.trans hk, ?_, ?_⟩
    · rw [ha.2.2, if_neg (by simp), hk, hsz]
      exact (hz.sub_right 1).trans (prevIdx_mod hlt).symm
    · have : t.frm = s.seg.target := ha.point hl ht
      rw [← this, hY.side hr ht hk hz]
  induction h generalizing z with
  | nil h =>
    obtain ⟨a1, a2, a3⟩ := adj ht hk h hz
    refine ⟨fun l hl0 => ?_, ?_, a3⟩
    · have : l = 0 := by simpa using hl0
      rw [this]; simp
    · simp only [List.length_nil, Nat.cast_zero, zero_add]
      exact hY.side hr h.1 a1 a2
  | @cons t f s fl h hf hw ih =>
    obtain ⟨a1, a2, a3⟩ := adj ht hk h hz
    obtain ⟨i1, i2, i3⟩ := ih h.1 a1 (z - 1) a2
    have e : Y (z - 1) = Y z := by rw [← a3, hY.side hr h.1 a1 a2]; exact hf
    refine ⟨fun l hl0 => ?_, ?_, i3.trans e⟩
    · cases l with
      | zero => simp
      | succ l =>
        have := i1 l (by simpa using hl0)
        rw [e] at this
        rw [← this]; congr 1; push_cast; ring
    · rw [← i2]; congr 1; simp only [List.length_cons]; push_cast; ring

omit [Field K] in
theorem FWalk.into {rings : List (Ring K)} (hl : ∀ r ∈ rings, Linked r.nodes) {k : Nat} {r : Ring K} (hr : rings[k]? = some r) {Y : ℤ → K}
    (hY : IsCyc (r.nodes.map Vtx.y) Y) {t s : Side K} {fl : List (Side K)} (h : FWalk rings false t fl s) (ht : t ∈ sides rings) (hk : t.ring = k)
    (hs : ¬ s.Flat) : (DownInto Y t.idx ↔ s.up = false) ∧ (UpInto Y t.idx ↔ s.up = true) := by
  obtain ⟨h1, h2, h3⟩ := h.back hl hr hY ht hk t.idx (Int.ModEq.refl _)
  have hne : s.frm.y ≠ Y t.idx := fun e => hs (e.trans h3.symm)
  have key : ∀ k : Nat, Y (t.idx - (k + 1)) ≠ Y t.idx → (∀ l : Nat, l ≤ k → Y (t.idx - l) = Y t.idx) → k = fl.length := by
    intro k k1 k2
    rcases lt_trichotomy k fl.length with h | h | h
    · exact absurd (by have := h1 (k + 1) h; rwa [Nat.cast_succ] at this) k1
    · exact h
    · have := k2 (fl.length + 1) h
      rw [Nat.cast_succ, h2] at this
      exact absurd this hne
  unfold Side.up
  rw [h3]
  constructor
  · rw [decide_eq_false_iff_not, not_lt]
    constructor
    · rintro ⟨k, k1, k2⟩
      rw [key k k1.ne' k2, h2] at k1
      exact k1.le
    · intro hle
      exact ⟨fl.length, by rw [h2]; exact lt_of_le_of_ne hle hne.symm, h1⟩
  · rw [decide_eq_true_eq]
    constructor
    · rintro ⟨k, k1, k2⟩
      rw [key k k1.ne k2, h2] at k1
      exact k1
    · intro hlt
      exact ⟨fl.length, by rw [h2]; exact hlt, h1⟩

omit [Field K] [LinearOrder K] in
theorem FWalk.idx {rings : List (Ring K)} {a b : Side K} {fl : List (Side K)} (h : FWalk rings true a fl b) (ha : a ∈ sides rings) (j : Nat) (u : Side K)
    (hu : (a :: (fl ++ [b]))[j]? = some u) : u ∈ sides rings ∧ u.ring = a.ring ∧ u.idx = (a.idx + j) % ringSize rings a.ring := by
  induction h generalizing j with
  | @nil a b h =>
    rcases j with _ | _ | j
    · cases Option.some.inj hu
      exact ⟨ha, rfl, by rw [Nat.add_zero, Nat.mod_eq_of_lt (side_idx_lt' ha)]⟩
    · cases Option.some.inj hu
      exact ⟨h.1, h.2.1, h.2.2⟩
    · simp at hu
  | @cons a f b fl h hf hw ih =>
    rcases j with _ | j
    · cases Option.some.inj hu
      exact ⟨ha, rfl, by rw [Nat.add_zero, Nat.mod_eq_of_lt (side_idx_lt' ha)]⟩
    · obtain ⟨i1, i2, i3⟩ := ih h.1 j hu
      have e : f.idx = (a.idx + 1) % ringSize rings a.ring := h.2.2
      refine ⟨i1, i2.trans h.2.1, ?_⟩
      rw [i3, h.2.1, e, Nat.mod_add_mod, Nat.add_assoc, Nat.add_comm 1 j]

omit [Field K] [LinearOrder K] in
theorem double_get (R : List (Vec2 K)) (j : Nat) (hj : j < 2 * R.length) : (R ++ R)[j]? = R[j % R.length]? := by
  by_cases h : j < R.length
  · rw [List.getElem?_append_left h, Nat.mod_eq_of_lt h]
  · have : j = (j - R.length) + R.length := by omega
    rw [List.getElem?_append_right (by omega), this, Nat.add_mod_right, Nat.mod_eq_of_lt (by omega), Nat.add_sub_cancel]

omit [Field K] [LinearOrder K] in
/-- The corners passed on the way. -/
theorem StoresAll.successive [LT K] {L : List (PathType × List (Vec2 K))} {rings : List (Ring K)} (h : StoresAll L rings)
    {a b : Side K} {fl : List (Side K)} (ha : a ∈ sides rings) (hw : FWalk rings true a fl b)
    (hlen : fl.length < ringSize rings a.ring) (h2 : 2 ≤ ringSize rings a.ring) :
    ∃ p ∈ L, Successive p.2 (a.frm :: (fl ++ [b]).map Side.frm ++ [b.seg.target]) := by
  obtain ⟨r, v, h1, _⟩ := (mem_sides rings a).1 ha
  obtain ⟨p, hp, hS⟩ := h.get h1
  have hsz := (nodeAt_eq h1 0).2
  rw [hsz, hS.len] at hlen h2
  refine ⟨p, List.mem_of_getElem? hp, a.idx, ?_⟩
  have pos : ∀ u ∈ sides rings, u.ring = a.ring → p.2[u.idx]? = some u.frm ∧ p.2[(u.idx + 1) % p.2.length]? = some u.seg.target := by
    intro u hu hur
    obtain ⟨r', w, g1, g2, g3, g4, _⟩ := (mem_sides rings u).1 hu
    rw [hur, h1] at g1
    cases Option.some.inj g1
    obtain ⟨n1, n2, _⟩ := hS.node g2
    rw [g3, g4]; exact ⟨n1, n2⟩
  have idx : ∀ j u, (a :: (fl ++ [b]))[j]? = some u → p.2[(a.idx + j) % p.2.length]? = some u.frm ∧ p.2[(a.idx + j + 1) % p.2.length]? = some u.seg.target := by
    intro j u hu
    obtain ⟨i1, i2, i3⟩ := hw.idx ha j u hu
    rw [hsz, hS.len] at i3
    obtain ⟨q1, q2⟩ := pos u i1 i2
    rw [i3] at q1 q2
    rw [Nat.mod_add_mod] at q2
    exact ⟨q1, q2⟩
  rw [List.prefix_iff_getElem?]
  intro j hj
  simp only [List.length_append, List.length_cons, List.length_map, List.length_nil] at hj
  rw [double_get _ _ (by rw [List.length_rotate]; omega), List.length_rotate, rotate_get _ _ _ (Nat.mod_lt _ (by omega)), Nat.mod_add_mod, Nat.add_comm j,
    ← List.getElem?_eq_getElem]
  have hm : a.frm :: (fl ++ [b]).map Side.frm = (a :: (fl ++ [b])).map Side.frm := rfl
  rw [hm]
  rcases Nat.lt_or_ge j (fl.length + 2) with hj' | hj'
  · have hlt : j < (a :: (fl ++ [b])).length := by simp; omega
    rw [List.getElem?_append_left (by rw [List.length_map]; exact hlt), List.getElem?_map, List.getElem?_eq_getElem hlt]
    exact (idx j _ (List.getElem?_eq_getElem hlt)).1
  · have hjj : j = fl.length + 1 + 1 := by omega
    have hb : (a :: (fl ++ [b]))[fl.length + 1]? = some b := by simp
    rw [List.getElem?_append_right (by simp; omega), hjj, ← Nat.add_assoc]
    have := (idx _ b hb).2
    simpa using this

variable [IsStrictOrderedRing K] [FTrans K] [LawfulOrd K] [Exact K]

omit [Field K] [LinearOrder K] [IsStrictOrderedRing K] [FTrans K] [LawfulOrd K] [Exact K] in
theorem FWalk.join {rings : List (Ring K)} {fwd : Bool} {s f t : Side K} {fl fl2 : List (Side K)} (h : FWalk rings fwd s fl f) (hf : f.Flat)
    (h2 : FWalk rings fwd f fl2 t) : FWalk rings fwd s (fl ++ f :: fl2) t := by
  induction h with
  | nil h => exact .cons h hf h2
  | cons h h3 _ ih => exact .cons h h3 (ih hf h2)

omit [IsStrictOrderedRing K] [FTrans K] [LawfulOrd K] [Exact K] in
/-- Corners as ends of sides. -/
theorem StoresAll.cornerAt {L : List (PathType × List (Vec2 K))} {rings : List (Ring K)} (h : StoresAll L rings) {u : Side K} (hu : u ∈ sides rings) :
    ∃ p, L[u.ring]? = some p ∧ ringSize rings u.ring = p.2.length ∧
      ∀ z, z % p.2.length = u.idx → River.cornerAt p.2 z = u.frm ∧ River.cornerAt p.2 (z + 1) = u.seg.target := by
  obtain ⟨r, w, g1, g2, g3, g4, _⟩ := (mem_sides rings u).1 hu
  obtain ⟨p, hp, hS⟩ := h.get g1
  obtain ⟨n1, n2, _⟩ := hS.node g2
  refine ⟨p, hp, by rw [(nodeAt_eq g1 0).2, hS.len], fun z hz => ?_⟩
  unfold River.cornerAt
  rw [← Nat.mod_add_mod, hz, List.getD_eq_getElem?_getD, List.getD_eq_getElem?_getD, n1, n2, g3, g4]
  exact ⟨rfl, rfl⟩

omit [IsStrictOrderedRing K] [FTrans K] [LawfulOrd K] [Exact K] in
/-- A walk over horizontal sides from a side to another one in the same vertical direction is a ledge. -/
theorem StoresAll.ledge {L : List (PathType × List (Vec2 K))} {rings : List (Ring K)} (h : StoresAll L rings) (hlink : ∀ r ∈ rings, Linked r.nodes)
    {s t : Side K} {fl : List (Side K)} (hs : s ∈ sides rings) (hw : FWalk rings true s fl t) (ft : ¬ t.Flat) (fs : ¬ s.Flat) (hu : s.up = t.up) (hfl : fl ≠ []) :
    ∃ p, L[s.ring]? = some p ∧ ringSize rings s.ring = p.2.length ∧ Ledge p.2 (s.idx + 1) fl.length ∧
      (∀ j f, fl[j]? = some f → j < fl.length ∧ River.cornerAt p.2 (s.idx + 1 + j) = f.frm ∧ River.cornerAt p.2 (s.idx + 1 + j + 1) = f.seg.target ∧
        (s.idx + 1 + j) % p.2.length = f.idx) ∧
      ledgeStart p.2 (s.idx + 1) fl.length = (if s.up then s.seg.target else t.frm) := by
  obtain ⟨p, hp, hsz, hcs⟩ := h.cornerAt hs
  have hlt := side_idx_lt' hs
  rw [hsz] at hlt
  have idx : ∀ j u, (s :: (fl ++ [t]))[j]? = some u → River.cornerAt p.2 (s.idx + j) = u.frm ∧ River.cornerAt p.2 (s.idx + j + 1) = u.seg.target ∧
      (s.idx + j) % p.2.length = u.idx := by
    intro j u hu
    obtain ⟨i1, i2, i3⟩ := hw.idx hs j u hu
    obtain ⟨p', hp', _, hc⟩ := h.cornerAt i1
    rw [i2, hp] at hp'
    cases Option.some.inj hp'
    rw [hsz] at i3
    obtain ⟨c1, c2⟩ := hc (s.idx + j) i3.symm
    exact ⟨c1, c2, i3.symm⟩
  obtain ⟨hh1, hh2⟩ := hw.height hlink hs
  have hh1 : t.frm.y = s.seg.target.y := hh1
  have hh2 : ∀ f ∈ fl, f.frm.y = s.seg.target.y := hh2
  have e0 : River.cornerAt p.2 (s.idx + 1) = s.seg.target := (idx 0 s rfl).2.1
  have hget : ∀ j f, fl[j]? = some f → (s :: (fl ++ [t]))[j + 1]? = some f := by
    intro j f hf
    rw [List.getElem?_cons_succ, List.getElem?_append_left (List.getElem?_eq_some_iff.1 hf).1, hf]
  have hgt : (s :: (fl ++ [t]))[fl.length + 1]? = some t := by simp
  have et := idx _ t hgt
  have eb : River.cornerAt p.2 (s.idx + 1 + (p.2.length - 1)) = s.frm := by
    refine (hcs _ ?_).1
    rw [show s.idx + 1 + (p.2.length - 1) = s.idx + p.2.length by omega, Nat.add_mod_right, Nat.mod_eq_of_lt hlt]
  refine ⟨p, hp, hsz, ⟨List.length_pos_of_ne_nil hfl, ?_, ?_⟩, ?_, ?_⟩
  · intro j hj
    rw [e0]
    rcases Nat.lt_or_eq_of_le hj with hj | rfl
    · have hg := List.getElem?_eq_getElem hj
      have := (idx _ _ (hget j _ hg)).1
      rw [show s.idx + 1 + j = s.idx + (j + 1) by omega, this]
      exact hh2 _ (List.getElem_mem hj)
    · rw [show s.idx + 1 + fl.length = s.idx + (fl.length + 1) by omega, et.1]
      exact hh1
  · rw [e0, eb, show s.idx + 1 + fl.length + 1 = s.idx + (fl.length + 1) + 1 by omega, et.2.1, ← hh1]
    have us : s.frm.y ≠ s.seg.target.y := fs
    have ut : t.frm.y ≠ t.seg.target.y := ft
    unfold Side.up at hu
    rw [decide_eq_decide, ← hh1] at hu
    rw [← hh1] at us
    rcases lt_or_gt_of_ne us with h1 | h1
    · exact Or.inl ⟨h1, hu.1 h1⟩
    · right
      refine ⟨?_, h1⟩
      rcases lt_or_gt_of_ne ut with h2 | h2
      · exact absurd (hu.2 h2) (not_lt.2 h1.le)
      · exact h2
  · intro j f hf
    have := idx _ _ (hget j f hf)
    rw [show s.idx + 1 + j = s.idx + (j + 1) by omega]
    exact ⟨(List.getElem?_eq_some_iff.1 hf).1, this⟩
  · unfold ledgeStart Side.up
    rw [e0, eb, show s.idx + 1 + fl.length = s.idx + (fl.length + 1) by omega, et.1]
    by_cases hlt : s.frm.y < s.seg.target.y <;> simp [hlt]

omit [Field K] [IsStrictOrderedRing K] [FTrans K] [LawfulOrd K] [Exact K] in
theorem Through.walks {rings : List (Ring K)} {f : Side K} (hf : f ∈ sides rings) (h : Through rings f) :
    ∃ s ∈ sides rings, ∃ t ∈ sides rings, ¬ s.Flat ∧ ¬ t.Flat ∧ s.up = t.up ∧ f.ring = s.ring ∧ ∃ fl1 fl2, FWalk rings true s fl1 f ∧ FWalk rings true f fl2 t := by
  obtain ⟨s, hs, t, ht, fs, ft, hu, r1, r2, w1, w2⟩ := h
  obtain ⟨fl1, w1⟩ := flatRun_chain w1 s f hs r1.symm rfl hf rfl rfl
  obtain ⟨fl2, w2⟩ := flatRun_chain w2 f t hf rfl rfl ht r2.symm rfl
  exact ⟨s, hs, t, ht, fs, ft, hu, r1, fl1, fl2, w1, w2⟩

omit [Field K] [IsStrictOrderedRing K] [FTrans K] [LawfulOrd K] [Exact K] in
theorem GoesOn.walk {rings : List (Ring K)} {s : Side K} (hs : s ∈ sides rings) (fs : ¬ s.Flat) (h : GoesOn rings s) :
    ∃ a ∈ sides rings, ∃ b ∈ sides rings, ∃ fl, FWalk rings true a fl b ∧ fl ≠ [] ∧ ¬ a.Flat ∧ ¬ b.Flat ∧ a.up = b.up ∧
      (if s.up then s = a else s = b) := by
  obtain ⟨f, hf, hfl, hr, hth, hadj⟩ := h
  obtain ⟨a, ha, b, hb, fa, fb, hu, _, fl1, fl2, w1, w2⟩ := Through.walks hf hth
  refine ⟨a, ha, b, hb, _, w1.join hfl w2, by simp, fa, fb, hu, ?_⟩
  cases hup : s.up with
  | true =>
    rw [hup, if_pos rfl] at hadj
    have h1 : Adj rings true s f := ⟨hf, hr, by rw [if_pos rfl]; exact hadj⟩
    exact ((FWalk.nil (h1.rev hs)).unique (w1.rev ha) fs fa).2
  | false =>
    rw [hup, if_neg Bool.false_ne_true] at hadj
    have h1 : Adj rings true f s := ⟨hs, hr.symm, by rw [if_pos rfl, hr]; exact hadj⟩
    exact ((FWalk.nil h1).unique w2 fs fb).2

omit [IsStrictOrderedRing K] [FTrans K] [LawfulOrd K] [Exact K] in
/-- What holds for sides at different places in the list of all sides of the polygons. -/
theorem StoresAll.pairwise {L : List (PathType × List (Vec2 K))} {rings : List (Ring K)} (h : StoresAll L rings)
    {R : Vec2 K × Vec2 K → Vec2 K × Vec2 K → Prop} (hR : ∀ x y, R x y → R y x) (hp : ((L.map Prod.snd).flatMap polySides).Pairwise R) :
    ∀ s ∈ sides rings, ∀ t ∈ sides rings, s ≠ t → R (s.frm, s.seg.target) (t.frm, t.seg.target) := by
  intro s hs t ht hne
  have key : ((sides rings).map (fun s => (s.frm, s.seg))).Pairwise (fun a b => R (a.1, a.2.target) (b.1, b.2.target)) := by
    rw [h.geo, List.pairwise_map]
    exact hp
  rw [List.pairwise_map] at key
  have : Std.Symm (fun a b : Side K => R (a.frm, a.seg.target) (b.frm, b.seg.target)) := ⟨fun _ _ h => hR _ _ h⟩
  exact key.forall hs ht hne

omit [FTrans K] [LawfulOrd K] [Exact K] in
theorem StoresAll.apart {L : List (PathType × List (Vec2 K))} {rings : List (Ring K)} (h : StoresAll L rings) (hN : SidesApart (L.map Prod.snd)) :
    Apart rings := by
  have flat : ∀ {p0 p1 p2 p3 : Vec2 K}, Overlap p0 p1 p2 p3 → p0.y = p1.y → p2.y = p3.y := by
    rintro p0 p1 p2 p3 ⟨p, q, hpq, ⟨a, _, _, e1⟩, ⟨b, _, _, e2⟩, ⟨c, _, _, e3⟩, ⟨d, _, _, e4⟩⟩ hy
    have y1 : p.y = q.y := by rw [e1, e2]; simp [lerp, hy]
    rw [e3, e4] at y1
    simp only [lerp] at y1
    have hcd : c ≠ d := fun e => hpq (by rw [e3, e4, e])
    have : (c - d) * (p3.y - p2.y) = 0 := by linear_combination y1
    exact (sub_eq_zero.1 ((mul_eq_zero.1 this).resolve_left (sub_ne_zero.2 hcd))).symm
  have symm : ∀ {p0 p1 p2 p3 : Vec2 K}, Overlap p0 p1 p2 p3 → Overlap p2 p3 p0 p1 := by
    rintro p0 p1 p2 p3 ⟨p, q, h, h1, h2, h3, h4⟩
    exact ⟨p, q, h, h3, h4, h1, h2⟩
  intro s hs t ht ls hne
  exact h.pairwise (R := fun s t => s.1.y ≠ s.2.y → ¬ Overlap s.1 s.2 t.1 t.2) (fun x y hxy hy ho => hxy (fun e => hy (flat (symm ho) e)) (symm ho)) hN s hs t ht hne ls

omit [LawfulOrd K] in
theorem StoresAll.general {L : List (PathType × List (Vec2 K))} {rings : List (Ring K)} (h : StoresAll L rings)
    (G : GeneralPolygons (L.map Prod.snd)) : General rings := by
  have hmax : (FNum.maxNum : K) = (dblMax : K) := Exact.max_eq
  have hstr : ∀ s ∈ sides rings, s.Straight := by
    intro s hs
    obtain ⟨q, _, _, e⟩ := h.side hs
    unfold Side.Straight
    rw [e]; rfl
  have hlink : ∀ r ∈ rings, Linked r.nodes := by
    intro r hr
    obtain ⟨k, hk⟩ := List.getElem?_of_mem hr
    obtain ⟨p, _, hp⟩ := h.get hk
    exact hp.linked
  have hpair : ∀ s ∈ sides rings, (s.frm, s.seg.target) ∈ (L.map Prod.snd).flatMap polySides := by
    intro s hs
    obtain ⟨q, hq, e1, e2⟩ := h.side hs
    rw [e1, e2]; exact hq
  have hprop : ∀ s ∈ sides rings, s.frm ≠ s.seg.target := fun s hs => G.proper _ (hpair s hs)
  have hmeet : ∀ s ∈ sides rings, ∀ t ∈ sides rings, s ≠ t → MeetOk s.frm s.seg.target t.frm t.seg.target :=
    h.pairwise (R := fun s t => MeetOk s.1 s.2 t.1 t.2) (fun _ _ h => h.symm) G.meet
  have hget : ∀ {k : Nat} {p : PathType × List (Vec2 K)}, L[k]? = some p → (L.map Prod.snd)[k]? = some p.2 := by
    intro k p hk
    rw [List.getElem?_map, hk]; rfl
  refine ⟨hstr, hlink, hprop, ?_, ?_, ?_, hmeet, ?_, ?_, ?_, ?_, ?_⟩
  · intro f hf _
    obtain ⟨r, v, h1, h2, _⟩ := (mem_sides rings f).1 hf
    obtain ⟨p, hp, hS⟩ := h.get h1
    by_contra hc
    push Not at hc
    obtain ⟨a, ha, b, hb, hab⟩ := G.turn p.2 (List.mem_map.2 ⟨p, List.mem_of_getElem? hp, rfl⟩)
    have hn := hS.len
    have flat : ∀ i : Nat, ∀ p0, p.2[0]? = some p0 → ∀ q, p.2[i]? = some q → q.y = p0.y := by
      intro i p0 h0
      induction i with
      | zero => intro q hq; rw [h0] at hq; rw [Option.some.inj hq]
      | succ i ih =>
        intro q hq
        have hi := (List.getElem?_eq_some_iff.1 hq).1
        have hv := List.getElem?_eq_getElem (l := r.nodes) (i := i) (by omega)
        have hside : (⟨f.ring, i, (r.nodes[i]'(by omega)).pt, (r.nodes[i]'(by omega)).seg, r.ptype⟩ : Side K) ∈ sides rings :=
          (mem_sides rings _).2 ⟨r, _, h1, hv, rfl, rfl, rfl⟩
        obtain ⟨n1, n2, _⟩ := hS.node hv
        have hfl := hc _ hside rfl
        rw [Nat.mod_eq_of_lt hi, hq] at n2
        rw [Option.some.inj n2, ← ih _ n1]
        exact Eq.symm hfl
    obtain ⟨i, hi⟩ := List.getElem?_of_mem ha
    obtain ⟨j, hj⟩ := List.getElem?_of_mem hb
    have h0 := List.getElem?_eq_getElem (l := p.2) (i := 0) (by have := (List.getElem?_eq_some_iff.1 hi).1; omega)
    exact hab ((flat i _ h0 a hi).trans (flat j _ h0 b hj).symm)
  · intro s hs
    obtain ⟨q, hq, e1, _⟩ := h.side hs
    obtain ⟨P, hP, hqP⟩ := List.mem_flatMap.1 hq
    obtain ⟨r1, r2, r3, r4⟩ := G.range P hP q.1 (List.of_mem_zip hqP).1
    rw [e1]
    unfold InDoubles
    rw [Exact.neg_eq, hmax]
    exact ⟨⟨r1, r2, r3.le, r4⟩, r3⟩
  · intro t ht v hv
    obtain ⟨r, v', h1, h2, h3, h4, _⟩ := (mem_sides rings t).1 ht
    rw [(nodeAt_eq h1 _).1, h2] at hv
    cases Option.some.inj hv
    obtain ⟨p, hp, hS⟩ := h.get h1
    have hlt := (List.getElem?_eq_some_iff.1 h2).1
    have hne : r.nodes.map Vtx.y ≠ [] := by
      intro e
      have := congrArg List.length e
      simp at this; rw [this] at hlt; simp at hlt
    obtain ⟨Y, hY⟩ := exists_cyc (r.nodes.map Vtx.y) hne
    obtain ⟨f1, f2⟩ := hS.flags Y hY t.idx v h2
    have y0 : Y t.idx = t.frm.y := hY.side h1 ht rfl (Int.ModEq.refl _)
    have y1 : Y (t.idx + 1) = t.seg.target.y := by
      have hw := List.getElem?_eq_getElem (l := r.nodes) (i := (t.idx + 1) % r.nodes.length) (Nat.mod_lt _ (by omega))
      rw [h4, hS.linked t.idx v _ h2 hw]
      exact hY.at hw (nextIdx_mod (n := r.nodes.length) (i := t.idx)).symm
    rw [f1, f2]
    unfold LocalMin LocalMax
    rw [y1, y0]
    by_cases hfl : t.Flat
    · have e : t.frm.y = t.seg.target.y := hfl
      rw [e]
      constructor
      · exact ⟨fun q => absurd q.2 (lt_irrefl _), fun q => by obtain ⟨_, s, _, hf, _⟩ := q; exact absurd hfl hf.2.1⟩
      · exact ⟨fun q => absurd q.2 (lt_irrefl _), fun q => by obtain ⟨_, s, _, hf, _⟩ := q; exact absurd hfl hf.2.1⟩
    · obtain ⟨fl, s, w1, w2, _⟩ := FWalk.exists false ht ht rfl hfl
      obtain ⟨d1, d2⟩ := w1.into hlink h1 hY ht rfl w2
      have hf : Follows rings s t := (follows_iff w1.mem.1 ht).2 ⟨w2, hfl, _, w1.rev ht⟩
      have uniq : ∀ u : Bool, (∃ z ∈ sides rings, Follows rings z t ∧ z.up = u) ↔ s.up = u := by
        intro u
        constructor
        · rintro ⟨z, hz, hzf, hzu⟩
          rw [Follows.unique w1.mem.1 hz ht hf hzf]; exact hzu
        · exact fun q => ⟨s, w1.mem.1, hf, q⟩
      rw [uniq, uniq, d1, d2]
      have hup : (t.up = true ↔ t.frm.y < t.seg.target.y) ∧ (t.up = false ↔ t.seg.target.y < t.frm.y) := by
        unfold Side.up
        rw [decide_eq_true_eq, decide_eq_false_iff_not, not_lt]
        exact ⟨Iff.rfl, ⟨fun q => lt_of_le_of_ne q (Ne.symm hfl), le_of_lt⟩⟩
      rw [hup.1, hup.2]
      exact ⟨and_comm, and_comm⟩
  · intro s hs t ht lt hp p hpe hin
    obtain ⟨u, hu, u1, u2⟩ := G.along _ (hpair s hs) _ (hpair t ht) lt hp p hpe hin
    obtain ⟨x, hx, e⟩ : ∃ x ∈ sides rings, (x.frm, x.seg) = (u.1, Seg.line u.2) := by
      have : (u.1, Seg.line u.2) ∈ (sides rings).map (fun s => (s.frm, s.seg)) := by rw [h.geo]; exact List.mem_map.2 ⟨u, hu, rfl⟩
      exact List.mem_map.1 this
    have e1 : x.frm = u.1 := congrArg Prod.fst e
    have e2 : x.seg = .line u.2 := congrArg Prod.snd e
    exact ⟨x, hx, by rw [e1, e2]; exact u1, by rw [e1, e2]; exact u2⟩
  · intro f hf hfl hth p hp s hs t ht hne ps pt gs gt
    obtain ⟨a, ha, b, hb, fa, fb, hu, hr, fl1, fl2, w1, w2⟩ := Through.walks hf hth
    obtain ⟨q, hq, _, hled, hc, _⟩ := h.ledge hlink ha (w1.join hfl w2) fb fa hu (by simp)
    obtain ⟨c0, c1, c2, _⟩ := hc fl1.length f (by simp)
    have := G.corner q.2 (List.mem_map.2 ⟨q, List.mem_of_getElem? hq, rfl⟩) _ _ hled fl1.length c0 p (by rw [c1, c2]; exact hp)
    exact h.pairwise (R := fun s t => OnSeg p s.1 s.2 → OnSeg p t.1 t.2 → GoesUp p s.1 s.2 → GoesUp p t.1 t.2 → Parallel s.1 s.2 t.1 t.2)
      (fun x y hxy h1 h2 h3 h4 => (hxy h2 h1 h4 h3).swap) this s hs t ht hne ps pt gs gt
  · intro s hs t ht ls lt hne etop gs gt
    obtain ⟨a, ha, b, hb, fl, w, w0, fa, fb, hu, es⟩ := gs.walk hs ls
    obtain ⟨a', ha', b', hb', fl', w', w0', fa', fb', hu', et⟩ := gt.walk ht lt
    obtain ⟨p, hp, hsz, hled, _, hst⟩ := h.ledge hlink ha w fb fa hu w0
    obtain ⟨p', hp', hsz', hled', _, hst'⟩ := h.ledge hlink ha' w' fb' fa' hu' w0'
    have top : ∀ {s a b : Side K}, a.up = b.up → (if s.up then s = a else s = b) → s.up = a.up ∧ s.top = if a.up then a.seg.target else b.frm := by
      intro s a b hu hs
      cases hb : s.up with
      | true =>
        rw [hb, if_pos rfl] at hs
        subst hs
        rw [Side.top, hb]; exact ⟨rfl, rfl⟩
      | false =>
        rw [hb, if_neg Bool.false_ne_true] at hs
        subst hs
        rw [Side.top, hu, hb]; exact ⟨rfl, rfl⟩
    obtain ⟨us, ts⟩ := top hu es
    obtain ⟨ut, tt⟩ := top hu' et
    have key := mt (G.start _ _ _ _ (hget hp) (hget hp') _ _ _ _ hled hled') (by
      rw [not_not, hst, hst', ← ts, ← tt]; exact etop)
    rw [not_not] at key
    obtain ⟨k1, k2⟩ := key
    have l1 := side_idx_lt' ha
    have l2 := side_idx_lt' ha'
    rw [hsz] at l1
    rw [← k1, hsz] at l2
    have ei : a.idx = a'.idx := by
      have := congrArg (fun z => (z + (p.2.length - 1)) % p.2.length) k2
      simp only [Nat.mod_add_mod] at this
      rw [show a.idx + 1 + (p.2.length - 1) = a.idx + p.2.length by omega, show a'.idx + 1 + (p.2.length - 1) = a'.idx + p.2.length by omega,
        Nat.add_mod_right, Nat.add_mod_right, Nat.mod_eq_of_lt l1, Nat.mod_eq_of_lt l2] at this
      exact this
    have ea : a = a' := side_ext rings a a' ha ha' k1 ei
    subst ea
    obtain ⟨_, eb⟩ := w.unique w' fb fb'
    subst eb
    rw [us] at es
    rw [ut] at et
    apply hne
    cases hb : a.up with
    | true => rw [hb, if_pos rfl] at es et; rw [es, et]
    | false => rw [hb, if_neg Bool.false_ne_true] at es et; rw [es, et]
  · intro f hf g hg ff fg hne tf tg hy
    obtain ⟨a, ha, b, hb, fa, fb, hu, hr, fl1, fl2, w1, w2⟩ := Through.walks hf tf
    obtain ⟨q, hq, hsz, hled, hc, _⟩ := h.ledge hlink ha (w1.join ff w2) fb fa hu (by simp)
    obtain ⟨c0, c1, c2, c3⟩ := hc fl1.length f (by simp)
    obtain ⟨a', ha', b', hb', fa', fb', hu', hr', fl1', fl2', w1', w2'⟩ := Through.walks hg tg
    obtain ⟨q', hq', hsz', hled', hc', _⟩ := h.ledge hlink ha' (w1'.join fg w2') fb' fa' hu' (by simp)
    obtain ⟨c0', c1', c2', c3'⟩ := hc' fl1'.length g (by simp)
    have := G.overlap _ _ _ _ (hget hq) (hget hq') _ _ _ _ hled hled' _ _ c0 c0' ?_ ?_
    · rw [c1, c2, c1', c2'] at this; exact this
    · rintro ⟨k1, k2⟩
      rw [k1, hq'] at hq
      cases Option.some.inj hq
      exact hne (side_ext rings f g hf hg (by rw [hr, hr', k1]) (by rw [← c3, ← c3', k2]))
    · rw [← hled.flat _ c0.le, ← hled'.flat _ c0'.le, c1, c1']; exact hy
  · intro a ha b hb hf hau hbu u hu hua hub hrb
    obtain ⟨sa, sb, fl, hw⟩ := (follows_iff ha hb).1 hf
    obtain ⟨fl', b', hw', sb', hlen⟩ := FWalk.exists true ha hb hw.mem.2.1 sb
    obtain ⟨rfl, rfl⟩ := hw.unique hw' sb sb'
    have hab : a ≠ b := by
      rintro rfl
      rw [hau] at hbu; cases hbu
    have h2 : 2 ≤ ringSize rings a.ring := by
      have l1 := side_idx_lt' ha
      have l2 := side_idx_lt' hb
      rw [hw.mem.2.1] at l2
      by_contra hc
      exact hab (side_ext rings a b ha hb hw.mem.2.1.symm (by omega))
    obtain ⟨q, hq, hsucc⟩ := h.successive ha hw hlen h2
    obtain ⟨hh1, hh2⟩ := hw.height hlink ha
    have hne : (fl ++ [b]).map Side.frm ≠ [] := by simp
    have hhead : ((fl ++ [b]).map Side.frm).head hne = a.seg.target := by
      cases hw with
      | nil h => exact (h.point hlink ha).symm
      | cons h _ _ => exact (h.point hlink ha).symm
    have hlast : ((fl ++ [b]).map Side.frm).getLast hne = b.frm := by simp
    have e : b.frm.y = a.seg.target.y := hh1
    have hya : b.frm.y < a.frm.y := by
      rw [e]
      rw [Side.up, decide_eq_false_iff_not, not_lt] at hau
      exact lt_of_le_of_ne hau (fun e => sa e.symm)
    have key := G.minima q.2 (List.mem_map.2 ⟨q, hq, rfl⟩) a.frm b.seg.target _ hne hsucc b.frm.y ?_ hya ?_
    · rw [hhead, hlast] at key
      refine h.pairwise (R := fun u v => ¬ (RunsBetween b.frm.y (b.frm, b.seg.target) (a.frm, a.seg.target) u ∧
        RunsBetween b.frm.y (b.frm, b.seg.target) (a.frm, a.seg.target) v)) (fun x y h q => h q.symm) key u hu a ha hua ⟨hrb, ?_⟩
      obtain ⟨_, _, z, z1, z2⟩ := hrb
      refine ⟨(min_le_right _ _).trans e.symm.le, hya.trans_le (le_max_left _ _), z, z1, fun y' y1 y2 => ?_⟩
      obtain ⟨q1, q2⟩ := z2 y' y1 y2
      exact ⟨q1.trans_le q2, le_refl _⟩
    · intro c hc
      obtain ⟨w, hw0, rfl⟩ := List.mem_map.1 hc
      rcases List.mem_append.1 hw0 with hw0 | hw0
      · rw [hh2 w hw0]; exact hh1.symm
      · rw [List.mem_singleton.1 hw0]
    · simpa [Side.up] using hbu

theorem crossing_side (X y : K) {v : Vtx K} {s : Vec2 K × Vec2 K} (hs : (v.pt, v.seg) = (s.1, Seg.line s.2)) :
    crossing X y v = sideWinding X y s := by
  have e1 : v.pt = s.1 := congrArg Prod.fst hs
  have e2 : v.seg = .line s.2 := congrArg Prod.snd hs
  by_cases hl : s.1.y = s.2.y
  · rw [crossing_flat X y (by rw [e1, e2]; exact hl)]
    unfold sideWinding
    have h1 : ¬ (s.2.y ≤ y ∧ y < s.2.y) := fun h => absurd h.1 (not_le.2 h.2)
    simp only [hl, h1, if_false, ite_self]
  rw [crossing_line X y (by rw [e2]; rfl) (by rw [e1, e2]; exact hl), e1, e2]
  show (if atHeight s.1 s.2 y < X then step y s.2.y - step y s.1.y else 0) = _
  unfold sideWinding step
  by_cases h1 : s.1.y ≤ y <;> by_cases h2 : s.2.y ≤ y <;> by_cases h3 : atHeight s.1 s.2 y < X <;>
    simp [h1, h2, h3, not_lt.2, not_le.1] <;> (try simp only [not_le] at h1 h2) <;> (try simp [h1, h2])

theorem sum_crossing (X y : K) (l : List (Vtx K)) (S : List (Vec2 K × Vec2 K)) (h : l.map (fun v => (v.pt, v.seg)) = S.map (fun s => (s.1, Seg.line s.2))) :
    (l.map (crossing X y)).sum = (S.map (sideWinding X y)).sum := by
  induction l generalizing S with
  | nil => cases S with
    | nil => rfl
    | cons s S => simp at h
  | cons v l ih => cases S with
    | nil => simp at h
    | cons s S =>
      rw [List.map_cons, List.map_cons, List.cons.injEq] at h
      rw [List.map_cons, List.sum_cons, List.map_cons, List.sum_cons, crossing_side X y h.1, ih S h.2]

/-- The winding numbers of the stored contours are those of the polygons. -/
theorem StoresAll.winding {L : List (PathType × List (Vec2 K))} {rings : List (Ring K)} (h : StoresAll L rings)
    (t : PathType) (X y : K) :
    wnS t ((sides rings).filter (fun s => decide (s.Above y ∧ s.x y < X))) =
      polyWinding ((L.filter (fun p => decide (p.1 = t))).map Prod.snd) X y := by
  rw [wnS_crossing]
  unfold polyWinding
  induction h with
  | nil => rfl
  | @cons p r L rs h1 _ ih =>
    rw [List.map_cons, List.sum_cons, ih, h1.ptype, sum_crossing X y r.nodes (polySides p.2) h1.geo, List.filter_cons]
    by_cases hp : p.1 = t
    · simp [hp]
    · simp [hp]

/-! ## adding polygons -/

omit [Field K] [LinearOrder K] [IsStrictOrderedRing K] [FTrans K] [LawfulOrd K] [Exact K] in
theorem flatten_singletons {α : Type} (l : List α) : (l.map (fun d => [d])).flatten = l := by
  induction l with
  | nil => rfl
  | cons a l ih => simp [ih]

omit [Field K] [IsStrictOrderedRing K] [Exact K] in
theorem addPolygons (pt : PathType) (Ps : List (List (Vec2 K))) (hne : ∀ P ∈ Ps, ∃ p ∈ P, ∃ q ∈ P, p.y ≠ q.y) (hl : ∀ s ∈ Ps.flatMap polySides, s.1 ≠ s.2)
    (rings : List (Ring K)) :
    ∃ rs, addPaths pt rings (Ps.map (fun P => Path.build (polyCmds P))) = some (rings ++ rs) ∧ StoresAll (Ps.map (fun P => (pt, P))) rs := by
  obtain ⟨ds, hds, hok⟩ : ∃ ds : List (Drawn K), Ps.map (fun P => Path.build (polyCmds P)) = (ds.map (fun d => [d])).map (fun ds => Path.build (ds.flatMap Drawn.cmds)) ∧
      (∀ d ∈ ds, d.Ok) ∧ StoresAll (Ps.map (fun P => (pt, P))) (ds.filterMap (fun d => insertVertexList d.contour pt)) := by
    induction Ps with
    | nil => exact ⟨[], rfl, by simp, List.Forall₂.nil⟩
    | cons P Ps ih =>
      obtain ⟨ds, h1, h2, h3⟩ := ih (fun Q hQ => hne Q (by simp [hQ])) (fun s hs => hl s (by rw [List.flatMap_cons]; exact List.mem_append_right _ hs))
      cases P with
      | nil => obtain ⟨p, hp, _⟩ := hne [] (by simp); simp at hp
      | cons p qs =>
        obtain ⟨r, hr, hS⟩ := intake_stores pt p qs (fun s hs => hl s (by rw [List.flatMap_cons]; exact List.mem_append_left _ hs)) (hne _ (by simp))
        refine ⟨⟨p, qs.map .lineto⟩ :: ds, ?_, ?_, ?_⟩
        · rw [List.map_cons, List.map_cons, List.map_cons, h1]
          simp [Drawn.cmds, polyCmds]
        · intro d hd
          rcases List.mem_cons.1 hd with rfl | hd
          · intro c hc q
            obtain ⟨x, _, rfl⟩ := List.mem_map.1 hc
            simp
          · exact h2 d hd
        · rw [List.filterMap_cons, hr, List.map_cons]
          exact List.Forall₂.cons hS h3
  refine ⟨_, ?_, hok.2⟩
  rw [hds, addPaths_spec pt rings _ (by
    intro x hx d hd
    obtain ⟨e, he, rfl⟩ := List.mem_map.1 hx
    rw [List.mem_singleton.1 hd]; exact hok.1 e he)]
  rw [show (ds.map (fun d => [d])).flatten = ds from flatten_singletons ds]

end River
