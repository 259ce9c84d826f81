import Verif.Props.UprightCross
import Verif.Lemmas.CurvedQuiet

/-! # C74, C82: the curves of `Spec/Curved.lean`, of four points with equally spaced heights, are among those that rise or fall all the way -/

namespace River.Upright
variable {K : Type}

attribute [local instance 10000] FTrans.toFNum

section
variable [Field K] [LinearOrder K] [IsStrictOrderedRing K] [FTrans K] [LawfulOrd K] [Exact K]

omit [LawfulOrd K] [Exact K] [FTrans K] in
theorem beside_even {s t : Vec2 K × Seg K} (hs : Even s) (ht : Even t) (h1 : s.1.y ≠ s.2.target.y) (h2 : t.1.y ≠ t.2.target.y) (h : River.Beside s t) : Beside s t := by
  intro a b a0 a1 b0 b1 e
  obtain ⟨k1, k2⟩ := height_range hs a0 a1
  obtain ⟨k3, k4⟩ := height_range ht b0 b1
  have := h (sidePoint s a).y k1 (e ▸ k3) k2 (e ▸ k4)
  rw [abscissa_at hs h1] at this
  have e2 := abscissa_at ht h2 b
  rw [← e] at e2
  rw [e2] at this
  rwa [← e]

/-- The contours of `Spec/Curved.lean` meet the conditions. -/
theorem nonCrossing_even {Ls : List (Loop K)} (h : River.NonCrossing Ls) : NonCrossing Ls := by
  have hf : ∀ s ∈ Ls.flatMap Loop.sides, Fine s := fun s hs => fine_even (h.fine hs)
  refine ⟨h.closed, h.range, fun s hs => (hf s hs).runs, fun s hs => (hf s hs).reach, fun s hs => (hf s hs).traced, ?_, h.quiet, h.feet⟩
  refine h.apart.imp_of_mem (fun {s t} hs ht q l1 l2 => ?_)
  have fs := h.fine hs
  have ft := h.fine ht
  rcases q l1 l2 with q | q
  · exact Or.inl (beside_even fs.even ft.even fs.steep ft.steep q)
  · exact Or.inr (beside_even ft.even fs.even ft.steep fs.steep q)

omit [FTrans K] [LawfulOrd K] [Exact K] in
/-- The winding numbers agree. -/
theorem loopWinding_even {Ls : List (Loop K)} (he : ∀ s ∈ Ls.flatMap Loop.sides, Even s ∧ s.1.y ≠ s.2.target.y) (X y : K) :
    loopWinding Ls X y = River.loopWinding Ls X y := by
  unfold loopWinding River.loopWinding sidesWinding River.sidesWinding
  congr 1
  refine List.map_congr_left (fun s hs => ?_)
  obtain ⟨hs, hst⟩ := he s hs
  unfold curveWinding River.curveWinding
  by_cases hr : lowest s ≤ y ∧ y ≤ highest s
  · obtain ⟨u0, u1⟩ := param_unit hst hr.1 hr.2
    have ey : (sidePoint s ((y - s.1.y) / (s.2.target.y - s.1.y))).y = y := by
      rw [sidePoint_y hs]
      have := sub_ne_zero.2 hst.symm
      field_simp
      ring
    have hl : LeftAt X y s ↔ abscissa s y < X := by
      constructor
      · rintro ⟨r, r0, r1, er, hx⟩
        rw [← er, abscissa_at hs hst]; exact hx
      · exact fun hx => ⟨_, u0, u1, ey, hx⟩
    by_cases hx : abscissa s y < X
    · rw [if_pos hx, if_pos (hl.2 hx)]
    · rw [if_neg hx, if_neg (fun q => hx (hl.1 q))]
  · unfold lowest highest at hr
    have n1 : ¬ (s.2.target.y ≤ y ∧ y < s.1.y) := fun h => hr ⟨(min_le_right _ _).trans h.1, h.2.le.trans (le_max_left _ _)⟩
    have n2 : ¬ (s.1.y ≤ y ∧ y < s.2.target.y) := fun h => hr ⟨(min_le_left _ _).trans h.1, h.2.le.trans (le_max_right _ _)⟩
    simp only [if_neg n1, if_neg n2, ite_self]

/-- The contours of `Spec/CurvedCross.lean` meet the conditions. -/
theorem crossingLoops_even {Ls : List (Loop K)} (h : River.CrossingLoops Ls) : CrossingLoops Ls := by
  have hf : ∀ s ∈ Ls.flatMap Loop.sides, ∀ a b w, Stop (Ls.flatMap Loop.sides) s a → Stop (Ls.flatMap Loop.sides) s b → IsPart s w a b → Fine w := by
    intro s hs a b w ha hb hp
    refine fine_even ⟨fun e => ?_, fun hc => ?_, hp.even (h.even s hs)⟩
    · have k := hp.height (h.even s hs)
      rw [e, sub_self] at k
      rcases mul_eq_zero.1 k.symm with k | k
      · exact (sub_pos.2 hp.lt).ne' k
      · exact h.steep s hs (sub_eq_zero.1 k).symm
    · rw [hp.ends.1, hp.ends.2]
      exact h.tall s hs (hp.kind ▸ hc) a b ha hb hp.lt
  have whole : ∀ s ∈ Ls.flatMap Loop.sides, Fine s := fun s hs =>
    hf s hs 0 1 s (Or.inl rfl) (Or.inr (Or.inl rfl)) ⟨le_rfl, one_pos, le_rfl, rfl, fun r => by rw [sub_zero, mul_one, zero_add]⟩
  exact ⟨h.closed, h.range, fun s hs => (whole s hs).runs, fun s hs => (whole s hs).traced, fun s hs a b ha hb _ w hp => (hf s hs a b w ha hb hp).traced,
    h.boxed, h.meet, h.truthful, h.feet⟩

end

end River.Upright
