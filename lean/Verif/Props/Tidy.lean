import Verif.Spec.Tidy
import Verif.Props.PolygonsDemo

/-! # C90: commands that draw nothing do not matter -/

set_option linter.unusedSectionVars false

namespace River

section any
variable {K : Type} [FTrans K]

theorem splitLoop_last (ts : List K) (cur : Cubic K) (t : K) : ∃ l, (Cubic.splitLoop cur t ts).getLast? = some l ∧ l.p3 = cur.p3 := by
  induction ts generalizing cur t with
  | nil => exact ⟨cur, rfl, rfl⟩
  | cons a ts ih =>
    rw [Cubic.splitLoop]
    obtain ⟨l, h1, h2⟩ := ih (cur.split ((a -. (FNum.lit 1 -. t)) /. t)).2 _
    refine ⟨l, ?_, h2⟩
    rw [List.getLast?_cons, h1]; rfl

/-- With any arithmetic the last piece of a curve ends where the curve ends. -/
theorem readPieces_last (c : Cubic K) : ∃ l, c.readPieces.getLast? = some l ∧ l.p3 = c.p3 := by
  unfold Cubic.readPieces
  dsimp only
  generalize List.filter _ _ = ts
  cases ts with
  | nil => exact ⟨c, rfl, rfl⟩
  | cons t ts => exact splitLoop_last (t :: ts) c _

theorem bodySegs_append (p : Vec2 K) (l r : List (Cmd K)) : bodySegs p (l ++ r) = bodySegs p l ++ bodySegs (penAfter p l) r := by
  induction l generalizing p with
  | nil => rfl
  | cons c l ih =>
    have := ih c.target
    unfold bodySegs at this ⊢
    rw [List.cons_append, bodyEdges, bodyEdges, List.map_append, List.map_append, this, List.append_assoc]
    rfl

end any

section ordered
variable {K : Type} [FTrans K] [LinearOrder K] [LawfulOrd K]

theorem bne_self (p : Vec2 K) : Vec2.bne p p = false := by
  have : Vec2.beq p p = true := (Vec2.beq_iff p p).2 rfl
  simp [Vec2.bne, this]

theorem bne_true {p q : Vec2 K} (h : p ≠ q) : Vec2.bne p q = true := by
  have : ¬ Vec2.beq p q = true := fun e => h ((Vec2.beq_iff p q).1 e)
  simp [Vec2.bne, this]

/-- The last segment of a contour ends at the pen position; without segments the pen has not moved. -/
theorem bodySegs_last (p : Vec2 K) (cs : List (Cmd K)) (hok : ∀ c ∈ cs, ∀ q, c ≠ .moveto q) :
    (∀ s, (bodySegs p cs).getLast? = some s → s.target = penAfter p cs) ∧ (bodySegs p cs = [] → penAfter p cs = p) := by
  induction cs using List.reverseRecOn with
  | nil => exact ⟨by simp [bodySegs, bodyEdges], fun _ => rfl⟩
  | append_singleton cs c ih =>
    obtain ⟨i1, i2⟩ := ih (fun x hx => hok x (by simp [hx]))
    have hpen : penAfter p (cs ++ [c]) = c.target := by simp [penAfter]
    rw [bodySegs_append, hpen]
    have hlast : (∀ s, (bodySegs (penAfter p cs) [c]).getLast? = some s → s.target = c.target) ∧
        (bodySegs (penAfter p cs) [c] = [] → penAfter p cs = c.target) := by
      have hline : ∀ pen q : Vec2 K, (∀ s, (((if Vec2.bne pen q then [(pen, Seg.line q)] else []) : List (Vec2 K × Seg K)).map Prod.snd).getLast? = some s → s.target = q) ∧
          (((if Vec2.bne pen q then [(pen, Seg.line q)] else []) : List (Vec2 K × Seg K)).map Prod.snd = [] → pen = q) := by
        intro pen q
        by_cases h : pen = q
        · subst h; rw [bne_self]; simp
        · rw [bne_true h]; simp [Seg.target]
      have e1 : bodySegs (penAfter p cs) [c] = (cmdEdges (penAfter p cs) c).map Prod.snd := by simp [bodySegs, bodyEdges]
      rw [e1]
      cases c with
      | moveto q => exact absurd rfl (hok (.moveto q) (by simp) q)
      | lineto q => exact hline _ _
      | cubicto c1 c2 q =>
        simp only [cmdEdges]
        split
        · exact hline _ _
        · obtain ⟨l, h1, h2⟩ := readPieces_last (⟨penAfter p cs, c1, c2, q⟩ : Cubic K)
          constructor
          · intro s hs
            rw [List.map_map, List.getLast?_map, h1] at hs
            simp only [Option.map_some, Option.some.injEq] at hs
            rw [← hs]; exact h2
          · intro e
            rw [List.map_map, List.map_eq_nil_iff] at e
            rw [e] at h1; simp at h1
    constructor
    · intro s hs
      rw [List.getLast?_append] at hs
      cases hb : (bodySegs (penAfter p cs) [c]).getLast? with
      | some t => rw [hb] at hs; simp only [Option.some_or, Option.some.injEq] at hs; subst hs; exact hlast.1 _ hb
      | none =>
        rw [hb, Option.none_or] at hs
        rw [i1 s hs]
        exact hlast.2 (List.getLast?_eq_none_iff.1 hb)
    · intro e
      obtain ⟨e1, e2⟩ := List.append_eq_nil_iff.1 e
      rw [← hlast.2 e2, i2 e1]

/-- The line back to the start makes no difference to the closed contour. -/
theorem closeContour_close (p : Vec2 K) (l : List (Cmd K)) (hok : ∀ c ∈ l, ∀ q, c ≠ .moveto q) :
    closeContour ⟨p, bodySegs p (l ++ [.lineto p])⟩ = closeContour ⟨p, bodySegs p l⟩ := by
  obtain ⟨h1, h2⟩ := bodySegs_last p l hok
  rw [bodySegs_append]
  have e1 : bodySegs (penAfter p l) [.lineto p] = if penAfter p l = p then [] else [Seg.line p] := by
    simp only [bodySegs, bodyEdges, cmdEdges]
    by_cases h : penAfter p l = p
    · rw [if_pos h, h, bne_self]; rfl
    · rw [if_neg h, bne_true h]; rfl
  rw [e1]
  by_cases h : penAfter p l = p
  · rw [if_pos h, List.append_nil]
  · rw [if_neg h]
    cases hL : (bodySegs p l).getLast? with
    | none => exact absurd (h2 (List.getLast?_eq_none_iff.1 hL)) h
    | some s =>
      have hs := h1 s hL
      have hL' : (bodySegs p l ++ [Seg.line p]).getLast? = some (Seg.line p) := by simp
      unfold closeContour
      rw [hL', hL]
      dsimp only
      have b1 : ¬ Vec2.bne p (Seg.line p : Seg K).target = true := by rw [Seg.target, bne_self]; simp
      have b2 : Vec2.bne p s.target = true := by rw [hs]; exact bne_true (Ne.symm h)
      rw [if_neg b1, if_pos b2]
      have hne : bodySegs p l ≠ [] := by intro e; rw [e] at hL; simp at hL
      have hlen : 0 < (bodySegs p l).length := List.length_pos_iff.2 hne
      rw [if_neg (by simp; exact hne)]
      congr 2
      rw [List.map_append, List.map_cons, List.map_nil, ← List.cons_append]
      rw [← List.append_nil (bodySegs p l ++ [Seg.line p]), List.zip_append (by simp)]
      simp [Seg.target]

/-- A contour at one height is ignored. -/
theorem flat_ignored (d : Drawn K) (y : K) (h : d.Flat y) (pt : PathType) : insertVertexList d.contour pt = none := by
  obtain ⟨hs, hb⟩ := h
  have key : ∀ (cs : List (Cmd K)) (pen : Vec2 K), pen.y = y → (∀ c ∈ cs, match c with
      | .moveto p => p.y = y
      | .lineto p => p.y = y
      | .cubicto c1 c2 p => c1.y = y ∧ c2.y = y ∧ p.y = y) → ∀ s ∈ bodySegs pen cs, s.target.y = y := by
    intro cs
    induction cs with
    | nil => intro pen _ _ s hs; simp [bodySegs, bodyEdges] at hs
    | cons c cs ih =>
      intro pen hp hc s hs
      have hc0 := hc c (by simp)
      have ht : c.target.y = y := by
        cases c with
        | moveto q => exact hc0
        | lineto q => exact hc0
        | cubicto c1 c2 q => exact hc0.2.2
      rw [bodySegs, bodyEdges, List.map_append, List.mem_append] at hs
      rcases hs with hs | hs
      · have hline : ∀ q : Vec2 K, q.y = y → s ∈ ((if Vec2.bne pen q then [(pen, Seg.line q)] else []) : List (Vec2 K × Seg K)).map Prod.snd → s.target.y = y := by
          intro q hq hm
          split at hm
          · simp only [List.map_cons, List.map_nil, List.mem_singleton] at hm
            subst hm; exact hq
          · simp at hm
        cases c with
        | moveto q => simp [cmdEdges] at hs
        | lineto q => exact hline q ht hs
        | cubicto c1 c2 q =>
          rw [cmdEdges, if_pos (by simp [hp, hc0.1, hc0.2.1, hc0.2.2])] at hs
          exact hline q ht hs
      · exact ih c.target ht (fun c' h' => hc c' (by simp [h'])) s hs
  rw [insertVertexList_none_iff]
  intro nodes hn v hv w hw
  have hpt : ∀ u ∈ nodes, u.y = y := by
    intro u hu
    unfold closeContour at hn
    have hall := key d.body d.start hs hb
    cases hL : (bodySegs d.start d.body).getLast? with
    | none => rw [Drawn.contour, hL] at hn; simp at hn
    | some last =>
      have hlast : last.target.y = y := hall last (List.mem_of_getLast? hL)
      rw [Drawn.contour, hL] at hn
      dsimp only at hn
      split at hn
      · simp only [Option.some.injEq] at hn
        subst hn
        obtain ⟨q, hq, rfl⟩ := List.mem_map.1 hu
        have := (List.of_mem_zip hq).1
        simp only [List.mem_cons, List.mem_map] at this
        rcases this with e | ⟨s, h1, h2⟩
        · show q.1.y = y; rw [e]; exact hs
        · show q.1.y = y; rw [← h2]; exact hall s h1
      · split at hn
        · simp at hn
        · simp only [Option.some.injEq] at hn
          subst hn
          obtain ⟨q, hq, rfl⟩ := List.mem_map.1 hu
          have := (List.of_mem_zip hq).1
          simp only [List.mem_cons, List.mem_map] at this
          rcases this with e | ⟨s, h1, h2⟩
          · show q.1.y = y; rw [e]; exact hlast
          · show q.1.y = y; rw [← h2]; exact hall s h1
  rw [hpt v hv, hpt w hw]

theorem redundant_step {D D' : List (Drawn K)} (h : Redundant D D') (hok : ∀ d ∈ D, d.Ok) (pt : PathType) :
    (∀ d ∈ D', d.Ok) ∧ D.filterMap (fun d => insertVertexList d.contour pt) = D'.filterMap (fun d => insertVertexList d.contour pt) := by
  have hmid : ∀ (A B : List (Drawn K)) (d d' : Drawn K), (∀ x ∈ A ++ d :: B, x.Ok) → (d.Ok → d'.Ok ∧ insertVertexList d.contour pt = insertVertexList d'.contour pt) →
      (∀ x ∈ A ++ d' :: B, x.Ok) ∧ (A ++ d :: B).filterMap (fun d => insertVertexList d.contour pt) = (A ++ d' :: B).filterMap (fun d => insertVertexList d.contour pt) := by
    intro A B d d' h1 h2
    obtain ⟨h3, h4⟩ := h2 (h1 d (by simp))
    refine ⟨fun x hx => ?_, ?_⟩
    · simp only [List.mem_append, List.mem_cons] at hx
      rcases hx with hx | rfl | hx
      · exact h1 x (by simp [hx])
      · exact h3
      · exact h1 x (by simp [hx])
    · rw [List.filterMap_append, List.filterMap_append, List.filterMap_cons, List.filterMap_cons, h4]
  cases h with
  | line A B p l r =>
    refine hmid A B _ _ hok (fun hd => ⟨fun c hc => hd c ?_, ?_⟩)
    · simp only [List.mem_append] at hc
      rcases hc with hc | hc <;> simp [hc]
    · congr 1
      unfold Drawn.contour
      dsimp only
      rw [bodySegs_append, bodySegs_append]
      congr 2
      simp [bodySegs, bodyEdges, cmdEdges, bne_self, Cmd.target]
  | curve A B p l r =>
    refine hmid A B _ _ hok (fun hd => ⟨fun c hc => hd c ?_, ?_⟩)
    · simp only [List.mem_append] at hc
      rcases hc with hc | hc <;> simp [hc]
    · congr 1
      unfold Drawn.contour
      dsimp only
      rw [bodySegs_append, bodySegs_append]
      congr 2
      simp [bodySegs, bodyEdges, cmdEdges, bne_self, Cmd.target]
  | close A B p l =>
    refine hmid A B _ _ hok (fun hd => ?_)
    have h1 : ∀ c ∈ l, ∀ q, c ≠ .moveto q := fun c hc => hd c (by simp [hc])
    refine ⟨h1, ?_⟩
    unfold insertVertexList Drawn.contour
    rw [closeContour_close p l h1]
  | flat A B d y hf =>
    refine ⟨fun x hx => hok x ?_, ?_⟩
    · simp only [List.mem_append] at hx
      rcases hx with hx | hx <;> simp [hx]
    · rw [List.filterMap_append, List.filterMap_cons, flat_ignored d y hf, ← List.filterMap_append]

/-- **C90.** A path with commands that draw nothing — lines and curves from the pen position to itself, lines that close a contour,
contours at one height — is stored exactly as the path without them, with curves and lines in any order, and with any arithmetic whose
comparisons form a linear order. -/
theorem redundant_irrelevant (pt : PathType) (rings : List (Ring K)) {D D' : List (Drawn K)} (h : Relation.ReflTransGen Redundant D D')
    (hok : ∀ d ∈ D, d.Ok) : addPath1 pt rings (Path.build (D.flatMap Drawn.cmds)) = addPath1 pt rings (Path.build (D'.flatMap Drawn.cmds)) ∧
      ∃ rs, addPath1 pt rings (Path.build (D.flatMap Drawn.cmds)) = some (rings ++ rs) := by
  have : (∀ d ∈ D', d.Ok) ∧ D.filterMap (fun d => insertVertexList d.contour pt) = D'.filterMap (fun d => insertVertexList d.contour pt) := by
    induction h with
    | refl => exact ⟨hok, rfl⟩
    | tail _ h ih =>
      obtain ⟨h1, h2⟩ := redundant_step h ih.1 pt
      exact ⟨h1, ih.2.trans h2⟩
  rw [addPath1_spec pt rings D hok, addPath1_spec pt rings D' this.1, this.2]
  exact ⟨rfl, _, rfl⟩

end ordered
end River
