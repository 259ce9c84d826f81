import Verif.Spec.UprightCross
import Verif.Lemmas.CurvedPieces
import Verif.Lemmas.UprightReal
import Mathlib.Topology.Order.IntermediateValue
import Mathlib.Topology.Instances.Real.Lemmas

/-! # Contours that cross, broken at their common points, do not cross -/

namespace River.Upright
variable {K : Type}

attribute [local instance 10000] FTrans.toFNum

/-! ## parts of sides that rise or fall all the way -/

section
variable [Field K] [LinearOrder K] [IsStrictOrderedRing K]
variable {s w : Vec2 K × Seg K} {a b : K}

theorem part_climbs (h : IsPart s w a b) (hs : Climbs s) : Climbs w := by
  intro c d c0 cd d1
  have hp := sub_pos.2 h.lt
  have ha := h.low
  have hb := h.high
  rw [h.trace, h.trace]
  refine hs _ _ ?_ ?_ ?_ <;> nlinarith

theorem part_drops (h : IsPart s w a b) (hs : Drops s) : Drops w := by
  intro c d c0 cd d1
  have hp := sub_pos.2 h.lt
  have ha := h.low
  have hb := h.high
  rw [h.trace, h.trace]
  refine hs _ _ ?_ ?_ ?_ <;> nlinarith

theorem part_runs (h : IsPart s w a b) (hs : Climbs s ∨ Drops s) : Climbs w ∨ Drops w := hs.imp (part_climbs h) (part_drops h)

theorem climbs_up (hs : Climbs s) : s.1.y < s.2.target.y := by
  have := hs 0 1 le_rfl one_pos le_rfl
  rwa [(sidePoint_ends s).1, (sidePoint_ends s).2] at this

theorem drops_down (hs : Drops s) : s.2.target.y < s.1.y := by
  have := hs 0 1 le_rfl one_pos le_rfl
  rwa [(sidePoint_ends s).1, (sidePoint_ends s).2] at this

theorem runs_steep (hs : Climbs s ∨ Drops s) : s.1.y ≠ s.2.target.y := by
  rcases hs with h | h
  · exact (climbs_up h).ne
  · exact (drops_down h).ne'

theorem runs_inj (h : Climbs s ∨ Drops s) {a b : K} (a0 : 0 ≤ a) (a1 : a ≤ 1) (b0 : 0 ≤ b) (b1 : b ≤ 1)
    (e : (sidePoint s a).y = (sidePoint s b).y) : a = b := by
  rcases lt_trichotomy a b with hl | hl | hl
  · rcases h with r | r
    · exact absurd e (r a b a0 hl b1).ne
    · exact absurd e (r a b a0 hl b1).ne'
  · exact hl
  · rcases h with r | r
    · exact absurd e (r b a b0 hl a1).ne'
    · exact absurd e (r b a b0 hl a1).ne

theorem part_up (h : IsPart s w a b) (hs : Climbs s ∨ Drops s) :
    (w.1.y < w.2.target.y ↔ s.1.y < s.2.target.y) ∧ (w.2.target.y < w.1.y ↔ s.2.target.y < s.1.y) := by
  rcases hs with hs | hs
  · have h1 := climbs_up hs
    have h2 := climbs_up (part_climbs h hs)
    exact ⟨iff_of_true h2 h1, iff_of_false h2.not_gt h1.not_gt⟩
  · have h1 := drops_down hs
    have h2 := drops_down (part_drops h hs)
    exact ⟨iff_of_false h2.not_gt h1.not_gt, iff_of_true h2 h1⟩

/-- The heights of a part. -/
theorem part_range (h : IsPart s w a b) (hw : Reaches w) {y : K} (h1 : lowest w ≤ y) (h2 : y ≤ highest w) :
    ∃ p r, a ≤ p ∧ p ≤ b ∧ 0 ≤ r ∧ r ≤ 1 ∧ sidePoint w r = sidePoint s p ∧ (sidePoint s p).y = y ∧
      ((p = a ∨ p = b) → y = lowest w ∨ y = highest w) := by
  have hb := sub_pos.2 h.lt
  obtain ⟨u, u0, u1, hu⟩ := hw y h1 h2
  have ey : (sidePoint s (a + u * (b - a))).y = y := by rw [← h.trace]; exact hu
  refine ⟨a + u * (b - a), u, by nlinarith, by nlinarith, u0, u1, h.trace u, ey, ?_⟩
  rintro (e | e)
  · rw [e, ← h.ends.1] at ey
    rw [← ey]
    unfold lowest highest
    rcases le_total w.1.y w.2.target.y with hl | hl
    · exact Or.inl (min_eq_left hl).symm
    · exact Or.inr (max_eq_left hl).symm
  · rw [e, ← h.ends.2] at ey
    rw [← ey]
    unfold lowest highest
    rcases le_total w.1.y w.2.target.y with hl | hl
    · exact Or.inr (max_eq_right hl).symm
    · exact Or.inl (min_eq_right hl).symm

/-- The foot of a part, by its position. -/
theorem part_foot (h : IsPart s w a b) (hs : Climbs s ∨ Drops s) :
    River.foot w = sidePoint s (if s.1.y < s.2.target.y then a else b) ∧ (River.foot w).y = lowest w := by
  unfold River.foot lowest
  by_cases hl : w.1.y < w.2.target.y
  · rw [if_pos hl, if_pos ((part_up h hs).1.1 hl), min_eq_left hl.le]
    exact ⟨h.ends.1, rfl⟩
  · rw [if_neg hl, if_neg (fun q => hl ((part_up h hs).1.2 q)), min_eq_right (not_lt.1 hl)]
    exact ⟨h.ends.2, rfl⟩

end

section
variable [Field K] [LinearOrder K] [IsStrictOrderedRing K] [FTrans K]
variable {s w : Vec2 K × Seg K} {a b : K}

theorem part_lowest (h : IsPart s w a b) (hs : Fine s) : lowest s ≤ w.1.y ∧ lowest s ≤ lowest w ∧ highest w ≤ highest s := by
  obtain ⟨a1, a2⟩ := hs.range h.low (h.lt.le.trans h.high)
  obtain ⟨b1, b2⟩ := hs.range (h.low.trans h.lt.le) h.high
  rw [← h.ends.1] at a1 a2
  rw [← h.ends.2] at b1 b2
  exact ⟨a1, le_min a1 b1, max_le a2 b2⟩

end

/-! ## the abscissa as a function of the height -/

theorem sidePoint_continuous (s : Vec2 ℝ × Seg ℝ) : Continuous (fun r => (sidePoint s r).x) ∧ Continuous (fun r => (sidePoint s r).y) := by
  obtain ⟨p, g⟩ := s
  cases g with
  | line q => simp only [sidePoint, lerp]; constructor <;> fun_prop
  | cubic c1 c2 q => simp only [sidePoint, Cubic.eval, bern]; constructor <;> fun_prop

/-- A function that rises all the way from `0` to `1` has a continuous inverse. -/
theorem inverse_continuous {h : ℝ → ℝ} (hc : Continuous h) (hm : ∀ a b, 0 ≤ a → a < b → b ≤ 1 → h a < h b) :
    ∃ g : ℝ → ℝ, Continuous g ∧ ∀ r, 0 ≤ r → r ≤ 1 → g (h r) = r := by
  obtain ⟨π, hπ⟩ : ∃ π : ℝ → ℝ, π = fun t => max 0 (min t 1) := ⟨_, rfl⟩
  have π0 : ∀ t, 0 ≤ π t := fun t => by rw [hπ]; exact le_max_left _ _
  have π1 : ∀ t, π t ≤ 1 := fun t => by rw [hπ]; exact max_le zero_le_one (min_le_right _ _)
  have πid : ∀ t, 0 ≤ t → t ≤ 1 → π t = t := fun t h0 h1 => by rw [hπ]; simp only; rw [min_eq_left h1, max_eq_right h0]
  have πc : Continuous π := by rw [hπ]; fun_prop
  have πm : ∀ a b, a ≤ b → π a ≤ π b := fun a b hab => by rw [hπ]; exact max_le_max le_rfl (min_le_min hab le_rfl)
  obtain ⟨H, hH⟩ : ∃ H : ℝ → ℝ, H = fun t => h (π t) + (t - π t) := ⟨_, rfl⟩
  have Hc : Continuous H := by rw [hH]; exact (hc.comp πc).add (continuous_id.sub πc)
  have πlip : ∀ a b, a ≤ b → a - π a ≤ b - π b := by
    intro a b hab
    rw [hπ]
    simp only
    rcases le_total a 1 with a1 | a1 <;> rcases le_total b 1 with b1 | b1 <;> rcases le_total 0 a with a0 | a0 <;> rcases le_total 0 b with b0 | b0 <;>
      simp only [min_eq_left, min_eq_right, max_eq_left, max_eq_right, a1, b1, a0, b0, zero_le_one] <;> linarith
  have hle : ∀ a b, 0 ≤ a → a ≤ b → b ≤ 1 → h a ≤ h b := by
    intro a b a0 hab b1
    rcases hab.eq_or_lt with rfl | hl
    · exact le_rfl
    · exact (hm a b a0 hl b1).le
  have Hm : StrictMono H := by
    intro a b hab
    rw [hH]
    simp only
    have k1 := πlip a b hab.le
    rcases (πm a b hab.le).eq_or_lt with e | e
    · rw [e] at k1 ⊢; linarith
    · have := hm _ _ (π0 a) e (π1 b); linarith
  have Hs : Function.Surjective H := by
    have lo : ∀ t, t ≤ 0 → H t = h 0 + t := by
      intro t ht
      rw [hH, hπ]; simp only
      rw [min_eq_left (ht.trans zero_le_one), max_eq_left ht]; ring
    have hi : ∀ t, 1 ≤ t → H t = h 1 + (t - 1) := by
      intro t ht
      rw [hH, hπ]; simp only
      rw [min_eq_right ht, max_eq_right zero_le_one]
    intro y
    obtain ⟨u, hu⟩ : ∃ u, u = min 0 (y - h 0) := ⟨_, rfl⟩
    obtain ⟨v, hv⟩ : ∃ v, v = max 1 (y - h 1 + 1) := ⟨_, rfl⟩
    have u0 : u ≤ 0 := by rw [hu]; exact min_le_left _ _
    have v1 : 1 ≤ v := by rw [hv]; exact le_max_left _ _
    have k1 : H u ≤ y := by rw [lo u u0, hu]; linarith [min_le_right 0 (y - h 0)]
    have k2 : y ≤ H v := by rw [hi v v1, hv]; linarith [le_max_right 1 (y - h 1 + 1)]
    obtain ⟨z, _, ez⟩ := intermediate_value_Icc (show u ≤ v by linarith) Hc.continuousOn ⟨k1, k2⟩
    exact ⟨z, ez⟩
  refine ⟨(Hm.orderIsoOfSurjective H Hs).symm, (Hm.orderIsoOfSurjective H Hs).symm.continuous, fun r h0 h1 => ?_⟩
  have : H r = h r := by rw [hH]; simp only; rw [πid r h0 h1, sub_self, add_zero]
  rw [← this]
  exact (Hm.orderIsoOfSurjective H Hs).symm_apply_apply r

/-- The abscissa of a side that rises or falls all the way is a continuous function of the height. -/
theorem abscissa_function {s : Vec2 ℝ × Seg ℝ} (h : Climbs s ∨ Drops s) :
    ∃ f : ℝ → ℝ, Continuous f ∧ ∀ r, 0 ≤ r → r ≤ 1 → f (sidePoint s r).y = (sidePoint s r).x := by
  obtain ⟨cx, cy⟩ := sidePoint_continuous s
  rcases h with h | h
  · obtain ⟨g, g1, g2⟩ := inverse_continuous cy h
    exact ⟨fun y => (sidePoint s (g y)).x, cx.comp g1, fun r h0 h1 => by simp only [g2 r h0 h1]⟩
  · obtain ⟨g, g1, g2⟩ := inverse_continuous cy.neg (fun a b a0 hab b1 => neg_lt_neg (h a b a0 hab b1))
    refine ⟨fun y => (sidePoint s (g (-y))).x, cx.comp (g1.comp continuous_neg), fun r h0 h1 => ?_⟩
    have e : g (-(sidePoint s r).y) = r := g2 r h0 h1
    simp only [e]

/-- Two continuous functions that are equal at most at the ends of an interval. -/
theorem one_side {f g : ℝ → ℝ} (hf : Continuous f) (hg : Continuous g) {u v : ℝ} (huv : u < v) (h : ∀ y, u < y → y < v → f y ≠ g y) :
    (∀ y, u ≤ y → y ≤ v → f y ≤ g y) ∨ ∀ y, u ≤ y → y ≤ v → g y ≤ f y := by
  obtain ⟨m, hm⟩ : ∃ m, m = (u + v) / 2 := ⟨_, rfl⟩
  have um : u < m := by linarith
  have mv : m < v := by linarith
  have key : ∀ F : ℝ → ℝ, Continuous F → (∀ y, u < y → y < v → F y ≠ 0) → F m < 0 → ∀ y, u ≤ y → y ≤ v → F y ≤ 0 := by
    intro F hF hn hneg y y1 y2
    by_contra hpos
    rw [not_le] at hpos
    rcases le_total m y with hl | hl
    · obtain ⟨z, ⟨z1, z2⟩, ez⟩ := intermediate_value_Icc hl hF.continuousOn ⟨hneg.le, hpos.le⟩
      have z3 : z < y := lt_of_le_of_ne z2 (fun e => by rw [e] at ez; linarith)
      exact hn z (by linarith) (by linarith) ez
    · obtain ⟨z, ⟨z1, z2⟩, ez⟩ := intermediate_value_Icc' hl hF.continuousOn ⟨hneg.le, hpos.le⟩
      have z3 : y < z := lt_of_le_of_ne z1 (fun e => by rw [← e] at ez; linarith)
      exact hn z (by linarith) (by linarith) ez
  rcases lt_or_gt_of_ne (h m um mv) with hl | hl
  · left
    intro y y1 y2
    have := key (fun y => f y - g y) (hf.sub hg) (fun y a b e => h y a b (sub_eq_zero.1 e)) (sub_neg.2 hl) y y1 y2
    exact sub_nonpos.1 this
  · right
    intro y y1 y2
    have := key (fun y => g y - f y) (hg.sub hf) (fun y a b e => h y a b (sub_eq_zero.1 e).symm) (sub_neg.2 hl) y y1 y2
    exact sub_nonpos.1 this

/-! ## all vertices -/

/-- An end, or a common point with the side of another vertex. -/
def NStop (N : List (Vtx ℝ)) (n : Nat) (v : Vtx ℝ) (a : ℝ) : Prop :=
  a = 0 ∨ a = 1 ∨ ∃ (j : Nat) (w : Vtx ℝ), j ≠ n ∧ N[j]? = some w ∧ ∃ r, Meet2 (v.pt, v.seg) (w.pt, w.seg) a r

/-- What is asked of the list of all vertices. -/
structure NodesGood (N : List (Vtx ℝ)) : Prop extends NodesCross N where
  fine : ∀ v ∈ N, Fine (v.pt, v.seg)
  parts : ∀ (n : Nat) (v : Vtx ℝ), N[n]? = some v → ∀ a b, NStop N n v a → NStop N n v b → (∀ t, NStop N n v t → ¬ (a < t ∧ t < b)) →
    ∀ w, IsPart (v.pt, v.seg) w a b → Traced w
  low : ∀ v ∈ N, -(dblMax : ℝ) < lowest (v.pt, v.seg)
  feet : ∀ (i j k : Nat) (u v w : Vtx ℝ), N[i]? = some u → N[j]? = some v → N[k]? = some w → ∀ a b c, Meet2 (u.pt, u.seg) (v.pt, v.seg) a b →
    Meet2 (v.pt, v.seg) (w.pt, w.seg) b c → (sidePoint (u.pt, u.seg) a).y < highest (u.pt, u.seg) →
    (sidePoint (u.pt, u.seg) a).y < highest (v.pt, v.seg) → (sidePoint (u.pt, u.seg) a).y < highest (w.pt, w.seg) → i = j ∨ i = k ∨ j = k

/-- The vertices `N` are replaced by chains, cut at the common points of their sides. -/
structure Cut (N : List (Vtx ℝ)) (chunks : List (List (Vtx ℝ))) (tss : Nat → List ℝ) : Prop where
  len : chunks.length = N.length
  pieces : ∀ (n : Nat) (v : Vtx ℝ) (c : List (Vtx ℝ)), N[n]? = some v → chunks[n]? = some c → CurvePieces v (tss n) c
  stops : ∀ (n : Nat) (v : Vtx ℝ), N[n]? = some v → ∀ t, t ∈ tss n ↔ inUnit t = true ∧
    ∃ (j : Nat) (w : Vtx ℝ), j ≠ n ∧ N[j]? = some w ∧ ∃ r, Meet2 (v.pt, v.seg) (w.pt, w.seg) t r

/-- `x` is the piece number `k` of the side number `n`, from position `a` to position `b`. -/
structure At (N : List (Vtx ℝ)) (tss : Nat → List ℝ) (n k : Nat) (x : Vec2 ℝ × Seg ℝ) (v : Vtx ℝ) (a b : ℝ) : Prop where
  node : N[n]? = some v
  frm : (0 :: (tss n ++ [1]))[k]? = some a
  upto : (0 :: (tss n ++ [1]))[k + 1]? = some b
  part : IsPart (v.pt, v.seg) x a b

variable {N : List (Vtx ℝ)} {chunks : List (List (Vtx ℝ))} {tss : Nat → List ℝ}

theorem Cut.mem (C : Cut N chunks tss) {n k : Nat} {c : List (Vtx ℝ)} {w : Vtx ℝ} (hc : chunks[n]? = some c) (hw : c[k]? = some w) :
    ∃ v a b, At N tss n k (w.pt, w.seg) v a b := by
  have hn : n < N.length := C.len ▸ (List.getElem?_eq_some_iff.1 hc).1
  have hv := List.getElem?_eq_getElem hn
  obtain ⟨a, b, h1, h2, h3⟩ := (C.pieces n _ c hv hc).piece k w hw
  exact ⟨_, a, b, hv, h1, h2, h3⟩

theorem Cut.sorted (C : Cut N chunks tss) {n : Nat} {v : Vtx ℝ} (hv : N[n]? = some v) : (0 :: (tss n ++ [1])).Pairwise (· < ·) := by
  have hn : n < chunks.length := C.len ▸ (List.getElem?_eq_some_iff.1 hv).1
  exact (C.pieces n v _ hv (List.getElem?_eq_getElem hn)).sorted

theorem Cut.outside (C : Cut N chunks tss) {n k : Nat} {x : Vec2 ℝ × Seg ℝ} {v : Vtx ℝ} {a b t : ℝ} (h : At N tss n k x v a b)
    (ht : t ∈ 0 :: (tss n ++ [1])) (h1 : a ≤ t) (h2 : t ≤ b) : t = a ∨ t = b := by
  have hn : n < chunks.length := C.len ▸ (List.getElem?_eq_some_iff.1 h.node).1
  exact (C.pieces n v _ h.node (List.getElem?_eq_getElem hn)).outside h.frm h.upto ht h1 h2

theorem Cut.stop_mem (C : Cut N chunks tss) {n : Nat} {v : Vtx ℝ} (hv : N[n]? = some v) {t : ℝ} (ht : t ∈ 0 :: (tss n ++ [1])) : NStop N n v t := by
  rcases List.mem_cons.1 ht with h | h
  · exact Or.inl h
  · rcases List.mem_append.1 h with h | h
    · exact Or.inr (Or.inr ((C.stops n v hv t).1 h).2)
    · exact Or.inr (Or.inl (List.mem_singleton.1 h))

/-- A common point with another side is a cut. -/
theorem Cut.meet_mem (C : Cut N chunks tss) (G : NodesGood N) {n m : Nat} {v w : Vtx ℝ} (hv : N[n]? = some v) (hw : N[m]? = some w) (hnm : n ≠ m) {a r : ℝ}
    (h : Meet2 (v.pt, v.seg) (w.pt, w.seg) a r) : a ∈ 0 :: (tss n ++ [1]) := by
  rcases (G.meet n m v w hnm hv hw a r h).1 with e | e | e
  · rw [e]; simp
  · rw [e]; simp
  · have := (C.stops n v hv a).2 ⟨(inUnit_iff a).2 e, m, w, hnm.symm, hw, r, h⟩
    simp [this]

theorem At.fine {n k : Nat} {x : Vec2 ℝ × Seg ℝ} {v : Vtx ℝ} {a b : ℝ} (h : At N tss n k x v a b) (C : Cut N chunks tss) (G : NodesGood N) : Fine x := by
  have hf := G.fine v (List.mem_of_getElem? h.node)
  refine ⟨part_runs h.part hf.runs, reaches_real x, G.parts n v h.node a b (C.stop_mem h.node (List.mem_of_getElem? h.frm))
    (C.stop_mem h.node (List.mem_of_getElem? h.upto)) ?_ x h.part⟩
  rintro t ht ⟨t1, t2⟩
  have hm : t ∈ 0 :: (tss n ++ [1]) := by
    rcases ht with rfl | rfl | ⟨j, w, hj, hw, r, hr⟩
    · simp
    · simp
    · exact C.meet_mem G h.node hw hj.symm hr
  rcases C.outside h hm t1.le t2.le with e | e
  · exact t1.ne' e
  · exact t2.ne e

theorem At.later {n k l : Nat} {x y : Vec2 ℝ × Seg ℝ} {v w : Vtx ℝ} {a b c d : ℝ} (h : At N tss n k x v a b) (h' : At N tss n l y w c d)
    (C : Cut N chunks tss) (hkl : k < l) : b ≤ c := by
  obtain ⟨i1, e1⟩ := List.getElem?_eq_some_iff.1 h.upto
  obtain ⟨i2, e2⟩ := List.getElem?_eq_some_iff.1 h'.frm
  rw [← e1, ← e2]
  rcases Nat.lt_or_ge (k + 1) l with h3 | h3
  · exact (List.pairwise_iff_getElem.1 (C.sorted h.node) (k + 1) l i1 i2 h3).le
  · have : k + 1 = l := by omega
    subst this; exact le_refl _

theorem At.apart {n k l : Nat} {x y : Vec2 ℝ × Seg ℝ} {v w : Vtx ℝ} {a b c d : ℝ} (h : At N tss n k x v a b) (h' : At N tss n l y w c d)
    (C : Cut N chunks tss) (G : NodesGood N) (hkl : k < l) : highest x ≤ lowest y ∨ highest y ≤ lowest x := by
  have hbc := h.later h' C hkl
  have e : w = v := Option.some.inj (h'.node.symm.trans h.node)
  subst e
  have hf := G.fine w (List.mem_of_getElem? h.node)
  have xl := h.part.lt
  have yl := h'.part.lt
  have a0 := h.part.low
  have d1 := h'.part.high
  unfold lowest highest
  rw [h.part.ends.1, h.part.ends.2, h'.part.ends.1, h'.part.ends.2]
  rcases hf.runs with hr | hr
  · left
    have k1 := hr a b a0 xl (by linarith)
    have k2 := hr c d (by linarith) yl d1
    have k3 : (sidePoint (w.pt, w.seg) b).y ≤ (sidePoint (w.pt, w.seg) c).y := by
      rcases hbc.eq_or_lt with e | e
      · rw [e]
      · exact (hr b c (by linarith) e (by linarith)).le
    refine max_le (le_min ?_ ?_) (le_min ?_ ?_) <;> linarith
  · right
    have k1 := hr a b a0 xl (by linarith)
    have k2 := hr c d (by linarith) yl d1
    have k3 : (sidePoint (w.pt, w.seg) c).y ≤ (sidePoint (w.pt, w.seg) b).y := by
      rcases hbc.eq_or_lt with e | e
      · rw [e]
      · exact (hr b c (by linarith) e (by linarith)).le
    refine max_le (le_min ?_ ?_) (le_min ?_ ?_) <;> linarith

theorem At.clear {n k m l : Nat} {x y : Vec2 ℝ × Seg ℝ} {v w : Vtx ℝ} {a b c d : ℝ} (h : At N tss n k x v a b) (h' : At N tss m l y w c d)
    (C : Cut N chunks tss) (G : NodesGood N) (hne : (n, k) ≠ (m, l)) : Clear2 x y := by
  intro h1 h2
  by_cases hnm : n = m
  · subst hnm
    exfalso
    rcases Nat.lt_or_gt_of_ne (fun e : k = l => hne (by rw [e])) with hkl | hkl
    · rcases h.apart h' C G hkl with q | q
      · exact absurd h2 (not_lt.2 q)
      · exact absurd h1 (not_lt.2 q)
    · rcases h'.apart h C G hkl with q | q
      · exact absurd h1 (not_lt.2 q)
      · exact absurd h2 (not_lt.2 q)
  have fv := G.fine v (List.mem_of_getElem? h.node)
  have fw := G.fine w (List.mem_of_getElem? h'.node)
  have fx := h.fine C G
  have fy := h'.fine C G
  have lx : lowest x < highest x := min_lt_max.2 fx.steep
  have ly : lowest y < highest y := min_lt_max.2 fy.steep
  obtain ⟨f, f1, f2⟩ := abscissa_function fx.runs
  obtain ⟨g, g1, g2⟩ := abscissa_function fy.runs
  have zero : ∀ z, lowest x ≤ z → lowest y ≤ z → z ≤ highest x → z ≤ highest y → f z = g z →
      (z = lowest x ∧ z = lowest y) ∨ (z = highest x ∧ z = highest y) := by
    intro z z1 z2 z3 z4 e
    obtain ⟨p, r, p1, p2, r0, r1, p3, p4, p5⟩ := part_range h.part fx.reach z1 z3
    obtain ⟨q, t, q1, q2, t0, t1, q3, q4, q5⟩ := part_range h'.part fy.reach z2 z4
    have ef := f2 r r0 r1
    have eg := g2 t t0 t1
    rw [p3, p4] at ef
    rw [q3, q4] at eg
    have hm : Meet2 (v.pt, v.seg) (w.pt, w.seg) p q :=
      ⟨h.part.low.trans p1, p2.trans h.part.high, h'.part.low.trans q1, q2.trans h'.part.high, Vec2.ext_iff.2 ⟨by rw [← ef, ← eg, e], by rw [p4, q4]⟩⟩
    have r1 := p5 (C.outside h (C.meet_mem G h.node h'.node hnm hm) p1 p2)
    have r2 := q5 (C.outside h' (C.meet_mem G h'.node h.node (Ne.symm hnm) hm.symm) q1 q2)
    rcases r1 with r1 | r1 <;> rcases r2 with r2 | r2
    · exact Or.inl ⟨r1, r2⟩
    · exact absurd h1 (by rw [← r1, ← r2]; exact lt_irrefl _)
    · exact absurd h2 (by rw [← r1, ← r2]; exact lt_irrefl _)
    · exact Or.inr ⟨r1, r2⟩
  have huv : max (lowest x) (lowest y) < min (highest x) (highest y) := max_lt (lt_min lx h1) (lt_min h2 ly)
  rcases one_side f1 g1 huv (by
    intro z z1 z2 e
    obtain ⟨z1, z1'⟩ := max_lt_iff.1 z1
    obtain ⟨z2, z2'⟩ := lt_min_iff.1 z2
    rcases zero z z1.le z1'.le z2.le z2'.le e with ⟨q, _⟩ | ⟨q, _⟩
    · exact z1.ne' q
    · exact z2.ne q) with hq | hq
  · left
    intro c d c0 c1 d0 d1 e
    obtain ⟨z1, z3⟩ := fx.range c0 c1
    obtain ⟨z2, z4⟩ := fy.range d0 d1
    have kz := zero (sidePoint x c).y z1 (e ▸ z2) z3 (e ▸ z4)
    have kq := hq (sidePoint x c).y (max_le z1 (e ▸ z2)) (le_min z3 (e ▸ z4))
    have eg := g2 d d0 d1
    rw [← e] at eg
    rw [f2 c c0 c1, eg] at kz kq
    rw [← e]
    exact ⟨kq, kz⟩
  · right
    intro d c d0 d1 c0 c1 e
    obtain ⟨z1, z3⟩ := fx.range c0 c1
    obtain ⟨z2, z4⟩ := fy.range d0 d1
    have kz := zero (sidePoint x c).y z1 (e ▸ z2) z3 (e ▸ z4)
    have kq := hq (sidePoint x c).y (max_le z1 (e ▸ z2)) (le_min z3 (e ▸ z4))
    have eg := g2 d d0 d1
    rw [e] at eg
    rw [f2 c c0 c1, eg] at kz kq
    rw [e]
    refine ⟨kq, fun q => ?_⟩
    rcases kz q.symm with ⟨q1, q2⟩ | ⟨q1, q2⟩
    · exact Or.inl ⟨q2, q1⟩
    · exact Or.inr ⟨q2, q1⟩

/-- Through no point more than two pieces lead up. -/
theorem At.feet {n k m l o q : Nat} {x y z : Vec2 ℝ × Seg ℝ} {v w u : Vtx ℝ} {a b c d e f : ℝ} (hx : At N tss n k x v a b) (hy : At N tss m l y w c d)
    (hz : At N tss o q z u e f) (C : Cut N chunks tss) (G : NodesGood N) (h1 : foot x = foot y) (h2 : foot y = foot z) :
    (n, k) = (m, l) ∨ (n, k) = (o, q) ∨ (m, l) = (o, q) := by
  have same : ∀ {n k l : Nat} {x y : Vec2 ℝ × Seg ℝ} {v w : Vtx ℝ} {a b c d : ℝ}, At N tss n k x v a b → At N tss n l y w c d → foot x = foot y → k = l := by
    intro n k l x y v w a b c d h h' hf
    have fx := h.fine C G
    have fy := h'.fine C G
    have fv := G.fine v (List.mem_of_getElem? h.node)
    have fw := G.fine w (List.mem_of_getElem? h'.node)
    have lx : lowest x < highest x := min_lt_max.2 fx.steep
    have ly : lowest y < highest y := min_lt_max.2 fy.steep
    have e1 := (part_foot h.part fv.runs).2
    rw [hf, (part_foot h'.part fw.runs).2] at e1
    by_contra hkl
    rcases Nat.lt_or_gt_of_ne hkl with g | g
    · rcases h.apart h' C G g with r | r <;> linarith
    · rcases h'.apart h C G g with r | r <;> linarith
  have fv := G.fine v (List.mem_of_getElem? hx.node)
  have fw := G.fine w (List.mem_of_getElem? hy.node)
  have fu := G.fine u (List.mem_of_getElem? hz.node)
  obtain ⟨ex, ex'⟩ := part_foot hx.part fv.runs
  obtain ⟨ey, ey'⟩ := part_foot hy.part fw.runs
  obtain ⟨ez, ez'⟩ := part_foot hz.part fu.runs
  have unit : ∀ {s w : Vec2 ℝ × Seg ℝ} {a b : ℝ}, IsPart s w a b → 0 ≤ (if s.1.y < s.2.target.y then a else b) ∧ (if s.1.y < s.2.target.y then a else b) ≤ 1 := by
    intro s w a b h
    split
    · exact ⟨h.low, h.lt.le.trans h.high⟩
    · exact ⟨h.low.trans h.lt.le, h.high⟩
  have top : ∀ {n k : Nat} {x : Vec2 ℝ × Seg ℝ} {v : Vtx ℝ} {a b : ℝ}, At N tss n k x v a b → (foot x).y < highest (v.pt, v.seg) := by
    intro n k x v a b h
    have fv := G.fine v (List.mem_of_getElem? h.node)
    rw [(part_foot h.part fv.runs).2]
    exact (min_lt_max.2 (h.fine C G).steep).trans_le (part_lowest h.part fv).2.2
  obtain ⟨x0, x1⟩ := unit hx.part
  obtain ⟨y0, y1⟩ := unit hy.part
  obtain ⟨z0, z1⟩ := unit hz.part
  have key := G.feet n m o v w u hx.node hy.node hz.node _ _ _ ⟨x0, x1, y0, y1, ex.symm.trans (h1.trans ey)⟩ ⟨y0, y1, z0, z1, ey.symm.trans (h2.trans ez)⟩
    (ex ▸ top hx) (ex ▸ h1 ▸ top hy) (ex ▸ (h1.trans h2) ▸ top hz)
  rcases key with rfl | rfl | rfl
  · left; rw [same hx hy h1]
  · right; left; rw [same hx hz (h1.trans h2)]
  · right; right; rw [same hy hz h2]

end River.Upright
