import Verif.Lemmas.Sides

/-! # Active edges and the sides they run along -/

namespace River
variable {K : Type}

/-- Number of the side an edge runs along. -/
def Edge.sideIdx (rings : List (Ring K)) (e : Edge K) : Nat :=
  if e.isUp then prevIdx (ringSize rings e.ring) e.vtop else e.vtop

/-- The side an edge runs along. -/
def sideOf (rings : List (Ring K)) (e : Edge K) : Side K :=
  ⟨e.ring, e.sideIdx rings, ((getSeg rings e).getD (Seg.line e.top, e.top)).2, ((getSeg rings e).getD (Seg.line e.top, e.top)).1,
    e.ptype⟩

theorem sideOf_plain (rings : List (Ring K)) (e : Edge K) : sideOf rings e.plain = sideOf rings e := rfl

theorem nextIdx_lt {n i : Nat} (h : i < n) : nextIdx n i < n := Nat.mod_lt _ (by omega)
theorem prevIdx_lt {n i : Nat} (h : i < n) : prevIdx n i < n := Nat.mod_lt _ (by omega)

theorem prev_next {n i : Nat} (h : i < n) : prevIdx n (nextIdx n i) = i := by
  unfold prevIdx nextIdx
  rw [Nat.mod_add_mod, show i + 1 + (n - 1) = i + n by omega, Nat.add_mod_right, Nat.mod_eq_of_lt h]

theorem next_prev {n i : Nat} (h : i < n) : nextIdx n (prevIdx n i) = i := by
  unfold prevIdx nextIdx
  rw [Nat.mod_add_mod, show i + (n - 1) + 1 = i + n by omega, Nat.add_mod_right, Nat.mod_eq_of_lt h]

theorem side_at {rings : List (Ring K)} {r i : Nat} {v : Vtx K} {x : Ring K} (h : nodeAt rings r i = some v)
    (hx : rings[r]? = some x) : (⟨r, i, v.pt, v.seg, x.ptype⟩ : Side K) ∈ sides rings := by
  refine (mem_sides rings _).2 ⟨x, v, hx, ?_, rfl, rfl, rfl⟩
  rw [nodeAt, hx] at h
  exact h

theorem side_node {rings : List (Ring K)} {s : Side K} (h : s ∈ sides rings) :
    ∃ x v, rings[s.ring]? = some x ∧ nodeAt rings s.ring s.idx = some v ∧ s.frm = v.pt ∧ s.seg = v.seg ∧ s.ptype = x.ptype := by
  obtain ⟨r, v, h1, h2, h3, h4, h5⟩ := (mem_sides rings s).1 h
  exact ⟨r, v, h1, by rw [nodeAt, h1]; exact h2, h3, h4, h5⟩

theorem node_target {rings : List (Ring K)} (hl : ∀ r ∈ rings, Linked r.nodes) {r i : Nat} {v w : Vtx K}
    (h : nodeAt rings r i = some v) (hw : nodeAt rings r (nextIdx (ringSize rings r) i) = some w) : v.seg.target = w.pt := by
  obtain ⟨x, hx, h1, h2, h3⟩ := nodeAt_ring h
  rw [h3] at h hw
  rw [h2] at hw
  exact hl x hx i v w h hw

/-- The edge runs along a side of the contours, from its lower to its upper end. -/
structure EOk [LinearOrder K] (rings : List (Ring K)) (e : Edge K) : Prop where
  ring : ∃ x, rings[e.ring]? = some x ∧ x.ptype = e.ptype
  dir : e.windDx = 1 ∨ e.windDx = -1
  hi : ∃ v, nodeAt rings e.ring e.vtop = some v ∧ v.pt = e.top
  lo : ∃ u, nodeAt rings e.ring (if e.isUp then prevIdx (ringSize rings e.ring) e.vtop else nextIdx (ringSize rings e.ring) e.vtop) =
    some u ∧ u.pt = e.bot
  lt : e.bot.y < e.top.y

section
variable [LinearOrder K] {rings : List (Ring K)}

theorem EOk.vtop_lt {e : Edge K} (h : EOk rings e) : e.vtop < ringSize rings e.ring := by
  obtain ⟨v, hv, _⟩ := h.hi; exact nodeAt_lt hv

theorem EOk.nav {e : Edge K} (h : EOk rings e) : Nav rings e := by
  obtain ⟨v, hv, _⟩ := h.hi; exact ⟨v, hv⟩

/-- All that is known about the side of an edge. -/
theorem EOk.facts (hl : ∀ r ∈ rings, Linked r.nodes) {e : Edge K} (h : EOk rings e) :
    sideOf rings e ∈ sides rings ∧ getSeg rings e = some ((sideOf rings e).seg, (sideOf rings e).frm) ∧
      (sideOf rings e).up = e.isUp ∧ (sideOf rings e).bot = e.bot ∧ (sideOf rings e).top = e.top ∧
      (sideOf rings e).dx = e.windDx ∧ (sideOf rings e).ptype = e.ptype := by
  obtain ⟨x, hx, hp⟩ := h.ring
  obtain ⟨v, hv, hvt⟩ := h.hi
  obtain ⟨u, hu, hub⟩ := h.lo
  have hlt := nodeAt_lt hv
  have hyy := h.lt
  cases hup : e.isUp with
  | true =>
    have hd : e.windDx = -1 := by
      rcases h.dir with d | d
      · simp [Edge.isUp, d] at hup
      · exact d
    rw [hup, if_pos rfl] at hu
    have hg : getSeg rings e = some (u.seg, u.pt) := by rw [getSeg, hup, if_pos rfl, hu]; rfl
    have ht : u.seg.target = e.top := by
      rw [← hvt]; refine node_target hl hu ?_; rw [next_prev hlt]; exact hv
    have hs : sideOf rings e = ⟨e.ring, prevIdx (ringSize rings e.ring) e.vtop, u.pt, u.seg, e.ptype⟩ := by
      rw [sideOf, hg, Edge.sideIdx, hup]; rfl
    have hup2 : (sideOf rings e).up = true := by rw [hs]; simp [Side.up, ht, hub, hyy]
    refine ⟨?_, by rw [hg, hs], hup2, ?_, ?_, ?_, rfl⟩
    · rw [hs, ← hp]; exact side_at hu hx
    · rw [Side.bot, hup2, if_pos rfl, hs]; exact hub
    · rw [Side.top, hup2, if_pos rfl, hs]; exact ht
    · rw [Side.dx, hup2, if_pos rfl, hd]
  | false =>
    have hd : e.windDx = 1 := by
      rcases h.dir with d | d
      · exact d
      · simp [Edge.isUp, d] at hup
    rw [hup] at hu
    simp only [Bool.false_eq_true, if_false] at hu
    have hg : getSeg rings e = some (v.seg, e.top) := by rw [getSeg, hup, hv]; rfl
    have ht : v.seg.target = e.bot := by rw [← hub]; exact node_target hl hv hu
    have hs : sideOf rings e = ⟨e.ring, e.vtop, v.pt, v.seg, e.ptype⟩ := by
      rw [sideOf, hg, Edge.sideIdx, hup, hvt]; rfl
    have hup2 : (sideOf rings e).up = false := by rw [hs]; simp [Side.up, ht, hvt, hyy.le]
    refine ⟨?_, by rw [hg, hs, hvt], hup2, ?_, ?_, ?_, rfl⟩
    · rw [hs, ← hp]; exact side_at hv hx
    · rw [Side.bot, hup2, hs]; exact ht
    · rw [Side.top, hup2, hs]; exact hvt
    · rw [Side.dx, hup2, hd]; rfl

theorem side_idx_lt {s : Side K} (hs : s ∈ sides rings) : s.idx < ringSize rings s.ring := by
  obtain ⟨x, v, _, h, _⟩ := side_node hs
  exact nodeAt_lt h

end

section
variable [FTrans K] [LinearOrder K] [Absc K] [LawfulOrd K] {rings : List (Ring K)}

/-- The code's order of two edges crossing the same height, unless they run along the same curve. -/
theorem validOrder_iff (A : Arranged rings) {e f : Edge K} (he : EOk rings e) (hf : EOk rings f) {y : K}
    (ae : (sideOf rings e).Above y) (af : (sideOf rings f).Above y) (hex : e.currX = (sideOf rings e).x y)
    (hfx : f.currX = (sideOf rings f).x y) (hne : sideOf rings e ≠ sideOf rings f)
    (htw : ¬ Twin (sideOf rings e) (sideOf rings f)) :
    validOrder rings e f = true ↔ LeftOf (sideOf rings e) (sideOf rings f) := by
  obtain ⟨m1, g1, _, b1, t1, _, _⟩ := he.facts A.linked
  obtain ⟨m2, g2, _, b2, t2, _, _⟩ := hf.facts A.linked
  rw [validOrder]
  simp only [eq_eq_decide, lt_eq_decide, decide_eq_true_eq]
  rw [hex, hfx, g1, g2]
  generalize sideOf rings e = s at *
  generalize sideOf rings f = t at *
  split
  · next heq =>
    have hbb : s.bot = t.bot ∧ y = s.bot.y := by
      rcases A.total3 m1 m2 hne ae af with h | h | h
      · exact h.eq ae af heq.symm
      · obtain ⟨q1, q2⟩ := h.eq af ae heq
        exact ⟨q1.symm, by rw [← q1]; exact q2⟩
      · exact (htw h).elim
    obtain ⟨M1, M2⟩ := A.mid s m1 t m2 ae.steep af.steep hne hbb.1
    have V1 := A.visitMid s m1 t m2 ae.steep af.steep hne hbb.1
    have V2 := A.visitMid t m2 s m1 af.steep ae.steep (Ne.symm hne) hbb.1.symm
    rw [← hbb.1, fmin_eq_min, min_comm] at V2
    have hbots : fmin e.bot.y f.bot.y = s.bot.y := by rw [← b1, ← b2, ← hbb.1, fmin_eq_min, min_self]
    rw [← t1, ← t2, hbots]
    rw [fmin_eq_min] at M1 M2 V1 ⊢
    generalize (s.bot.y +. min s.top.y t.top.y) /. FNum.lit 2 = m at *
    have q1 : m < s.top.y := lt_of_lt_of_le M2 (min_le_left _ _)
    have q2 : m < t.top.y := lt_of_lt_of_le M2 (min_le_right _ _)
    have q3 : t.bot.y < m := hbb.1 ▸ M1
    simp only
    rw [← V1, ← V2, ← Side.x_mid M1.ne' q1.ne, ← Side.x_mid q3.ne' q2.ne]
    constructor
    · intro h
      rcases A.total3 m1 m2 hne ae af with h1 | h1 | h1
      · exact h1
      · have h2 := h1.lt (m := m) ⟨q3, M1, q2, q1⟩
        rw [if_neg h2.ne'] at h
        exact absurd (of_decide_eq_true h) (not_lt.2 h2.le)
      · exact (htw h1).elim
    · intro h
      have h2 := h.lt (m := m) ⟨M1, q3, q1, q2⟩
      rw [if_neg h2.ne]
      exact decide_eq_true h2
  · next hneq =>
    rw [decide_eq_true_eq]
    constructor
    · exact A.of_lt m1 m2 ae af
    · intro h
      exact lt_of_le_of_ne (h.le ae af) (fun hc => hneq hc.symm)

end
end River
