import Verif.Props.SameEdge
import Verif.Lemmas.BeamGeo
import Verif.RatTrans

/-! # C58: edges lying on each other cancel in pairs -/

namespace River
variable {K : Type}

section
variable [FNum K] [LinearOrder K] [LawfulOrd K]

/-- On edges that have a segment, being coincident is an equivalence relation. -/
theorem isSame_equiv (rings : List (Ring K)) (a b c : Edge K) (ha : (getSeg rings a).isSome) (hb : (getSeg rings b).isSome)
    (hc : (getSeg rings c).isSome) : isSame rings a a = true ∧ (isSame rings a b = true → isSame rings b a = true) ∧
      (isSame rings a b = true → isSame rings b c = true → isSame rings a c = true) := by
  obtain ⟨⟨sa, fa⟩, ea⟩ := Option.isSome_iff_exists.1 ha
  obtain ⟨⟨sb, fb⟩, eb⟩ := Option.isSome_iff_exists.1 hb
  obtain ⟨⟨sc, fc⟩, ec⟩ := Option.isSome_iff_exists.1 hc
  rw [isSame_iff rings a a sa sa fa fa ea ea, isSame_iff rings a b sa sb fa fb ea eb, isSame_iff rings b a sb sa fb fa eb ea,
    isSame_iff rings b c sb sc fb fc eb ec, isSame_iff rings a c sa sc fa fc ea ec]
  refine ⟨⟨rfl, rfl, Or.inl rfl, rfl⟩, ?_, ?_⟩
  · rintro ⟨h1, h2, h3, h4⟩
    refine ⟨h1.symm, h2.symm, ?_, h4.symm⟩
    rcases h3 with h | h
    · exact Or.inl h.symm
    · exact Or.inr (by rw [h, List.reverse_reverse])
  · rintro ⟨h1, h2, h3, h4⟩ ⟨k1, k2, k3, k4⟩
    refine ⟨h1.trans k1, h2.trans k2, ?_, h4.trans k4⟩
    rcases h3 with h | h <;> rcases k3 with k | k
    · exact Or.inl (h.trans k)
    · exact Or.inr (h.trans k)
    · exact Or.inr (by rw [h, k])
    · exact Or.inl (by rw [h, k, List.reverse_reverse])
end

variable [FTrans K] [LinearOrder K] [LawfulOrd K]

/-- **C58.** Of the edges that bound the result, edges lying on each other (`is_same`) cancel in pairs: the edges left over are
contributing edges in their order in the active edge list, no two neighbours among them coincide, and of the contributing
edges coinciding with any given edge an even number has been removed. -/
theorem coincident_cancel (rings : List (Ring K)) (ct : ClipType) (fr : FillRule) (ael : List (Edge K))
    (hseg : ∀ e ∈ ael, (getSeg rings e).isSome) :
    (boundEdges rings ct fr ael).Sublist (ael.filter (isContributing ct fr)) ∧
    (boundEdges rings ct fr ael).IsChain (fun a b => isSame rings b a = false) ∧
    ∀ x ∈ ael, ((ael.filter (isContributing ct fr)).filter (isSame rings x)).length % 2 =
      ((boundEdges rings ct fr ael).filter (isSame rings x)).length % 2 := by
  obtain ⟨F, hF, f1, f2, f3, f4⟩ := boundEdges_loop rings ct fr ael
  rw [hF]
  have main : ∀ (l : List (Edge K)) (acc done : List (Edge K)), (∀ e ∈ l, (getSeg rings e).isSome) → (∀ e ∈ acc, (getSeg rings e).isSome) →
      acc.reverse.Sublist done → acc.IsChain (fun b a => isSame rings b a = false) →
      (l.foldl F acc).reverse.Sublist (done ++ l.filter (isContributing ct fr)) ∧
      (l.foldl F acc).IsChain (fun b a => isSame rings b a = false) ∧
      ∀ x, (getSeg rings x).isSome → (acc.filter (isSame rings x)).length % 2 = (done.filter (isSame rings x)).length % 2 →
        ((l.foldl F acc).filter (isSame rings x)).length % 2 =
          ((done ++ l.filter (isContributing ct fr)).filter (isSame rings x)).length % 2 := by
    intro l
    induction l with
    | nil => intro acc done _ _ hs hch; exact ⟨by simpa using hs, hch, fun x _ h => by simpa using h⟩
    | cons e l ih =>
      intro acc done hl hacc hs hch
      have hl' : ∀ e ∈ l, (getSeg rings e).isSome := fun z hz => hl z (List.mem_cons_of_mem _ hz)
      have he := hl e List.mem_cons_self
      rw [List.foldl_cons]
      cases hc : isContributing ct fr e with
      | false =>
        rw [f1 acc e hc, List.filter_cons_of_neg (by simp [hc])]
        exact ih acc done hl' hacc hs hch
      | true =>
        rw [List.filter_cons_of_pos (by simp [hc]),
          show done ++ e :: l.filter (isContributing ct fr) = (done ++ [e]) ++ l.filter (isContributing ct fr) by simp]
        cases acc with
        | nil =>
          rw [f2 e hc]
          obtain ⟨i1, i2, i3⟩ := ih [e] (done ++ [e]) hl' (by simpa using he) (by simp) (by simp)
          refine ⟨i1, i2, fun x hx h => i3 x hx ?_⟩
          rw [List.filter_append, List.length_append, Nat.add_mod, ← h]
          simp
        | cons b acc =>
          have hb := hacc b List.mem_cons_self
          have hacc' : ∀ e ∈ acc, (getSeg rings e).isSome := fun z hz => hacc z (List.mem_cons_of_mem _ hz)
          cases hsm : isSame rings e b with
          | true =>
            rw [f3 acc b e hc hsm]
            have hs' : acc.reverse.Sublist (done ++ [e]) := by
              rw [List.reverse_cons] at hs
              exact ((List.sublist_append_left _ _).trans hs).trans (List.sublist_append_left _ _)
            obtain ⟨i1, i2, i3⟩ := ih acc (done ++ [e]) hl' hacc' hs' hch.tail
            refine ⟨i1, i2, fun x hx h => i3 x hx ?_⟩
            have heb : isSame rings x e = isSame rings x b := by
              rw [Bool.eq_iff_iff]
              constructor
              · exact fun h => (isSame_equiv rings x e b hx he hb).2.2 h hsm
              · exact fun h => (isSame_equiv rings x b e hx hb he).2.2 h ((isSame_equiv rings e b e he hb he).2.1 hsm)
            rw [List.filter_append, List.length_append]
            rw [List.filter_cons] at h
            rw [List.filter_cons, heb]
            cases hxb : isSame rings x b <;> simp [hxb] at h ⊢ <;> omega
          | false =>
            rw [f4 acc b e hc hsm]
            obtain ⟨i1, i2, i3⟩ := ih (e :: b :: acc) (done ++ [e]) hl'
              (by intro z hz; rcases List.mem_cons.1 hz with rfl | hz
                  · exact he
                  · exact hacc z hz)
              (by rw [List.reverse_cons]; exact hs.append (List.Sublist.refl _)) (List.isChain_cons_cons.2 ⟨hsm, hch⟩)
            refine ⟨i1, i2, fun x hx h => i3 x hx ?_⟩
            rw [List.filter_append, List.length_append]
            rw [List.filter_cons (x := e)]
            rw [List.filter_cons (x := e)]
            split <;> simp at h ⊢ <;> omega
  obtain ⟨m1, m2, m3⟩ := main ael [] [] hseg (by simp) (by simp) (by simp)
  refine ⟨by simpa using m1, ?_, ?_⟩
  · rw [List.isChain_reverse]; exact m2
  · intro x hx
    have := m3 x (hseg x hx) rfl
    rw [List.filter_reverse, List.length_reverse, this]
    rfl

/-- A case with coincident edges: a square's right side and its neighbour's left side lie on each other. -/
theorem coincident_demo :
    let rings : List (Ring ℚ) := [⟨[⟨⟨0, 0⟩, .line ⟨2, 0⟩, false, false⟩, ⟨⟨2, 0⟩, .line ⟨2, 2⟩, false, false⟩, ⟨⟨2, 2⟩, .line ⟨0, 2⟩, false, false⟩,
        ⟨⟨0, 2⟩, .line ⟨0, 0⟩, false, false⟩], .subject⟩,
      ⟨[⟨⟨2, 0⟩, .line ⟨4, 0⟩, false, false⟩, ⟨⟨4, 0⟩, .line ⟨4, 2⟩, false, false⟩, ⟨⟨4, 2⟩, .line ⟨2, 2⟩, false, false⟩,
        ⟨⟨2, 2⟩, .line ⟨2, 0⟩, false, false⟩], .clip⟩]
    let e : Nat → ℚ → Int → Nat → Nat → Int → Int → Edge ℚ := fun i x dx r v w w2 => { eid := i, bot := ⟨x, 0⟩, top := ⟨x, 2⟩, currX := x, windDx := dx, ring := r, vtop := v, ptype := if r = 0 then .subject else .clip, windCnt := w, windCnt2 := w2 }
    let ael := [e 0 0 1 0 3 1 0, e 1 2 (-1) 0 2 1 0, e 2 2 1 1 3 1 0, e 3 4 (-1) 1 2 1 0]
    (∀ a ∈ ael, (getSeg rings a).isSome) ∧ (ael.filter (isContributing .union .positive)).map (·.eid) = [0, 1, 2, 3] ∧
      (boundEdges rings .union .positive ael).map (·.eid) = [0, 3] := by
  decide +kernel

end River
