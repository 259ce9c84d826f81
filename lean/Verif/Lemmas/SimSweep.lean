import Verif.Lemmas.Sim

/-! # The sweep in two arithmetics that agree -/

namespace River.Sim
attribute [local instance 10000] FTrans.toFNum
variable {K L : Type} [FTrans K] [FTrans L] [Sim K L] [LinearOrder L] [LawfulOrd L]

/-- The edge lies on a side of its contour. -/
structure Att {L : Type} (rings : List (Ring L)) (e : Edge L) : Prop where
  hi : ∃ v, nodeAt rings e.ring e.vtop = some v ∧ v.pt = e.top
  lo : ∃ u, nodeAt rings e.ring (if e.isUp then prevIdx (ringSize rings e.ring) e.vtop else nextIdx (ringSize rings e.ring) e.vtop) = some u ∧ u.pt = e.bot

/-- The edge lies on a side of its contour that is not horizontal. -/
def Steep (rings : List (Ring L)) (e : Edge L) : Prop := Att rings e ∧ e.isHorz = false

/-- The minimum is a vertex. -/
def MinOk {L : Type} (rings : List (Ring L)) (m : LocMin L) : Prop := ∃ v, nodeAt rings m.ring m.node = some v ∧ v.pt = m.pt

omit [LinearOrder L] [LawfulOrd L] in
theorem steep_same {rings : List (Ring L)} (f g : Edge L) (h : SameRun f g) (hf : Steep rings f) : Steep rings g := by
  obtain ⟨⟨h1, h2⟩, h3⟩ := hf
  have hu : g.isUp = f.isUp := by unfold Edge.isUp; rw [h.windDx]
  refine ⟨⟨?_, ?_⟩, ?_⟩
  · rw [h.ring, h.vtop, h.top]; exact h1
  · rw [h.ring, h.vtop, h.bot, hu]; exact h2
  · unfold Edge.isHorz at h3 ⊢; rw [h.bot, h.top]; exact h3

/-- Corresponding states. -/
structure StR (rings : List (Ring L)) (st : St K) (st' : St L) : Prop where
  ael : List.Forall₂ (ER (Steep rings)) st.ael st'.ael
  out : OutsR st.out st'.out
  changes : List.Forall₂ R st.changes st'.changes
  scan : List.Forall₂ G st.scan st'.scan
  mins : List.Forall₂ (fun m n => LocMinR m n ∧ MinOk rings n) st.mins st'.mins
  nextId : st.nextId = st'.nextId

section
variable {rings : List (Ring K)} {rings' : List (Ring L)} (hR : List.Forall₂ (RingR G) rings rings')
include hR

omit [LinearOrder L] [LawfulOrd L] in
theorem nodeAt_r (r i : Nat) : Option.Rel (VtxR G) (nodeAt rings r i) (nodeAt rings' r i) :=
  orel_bind (f2_get hR r) (fun _ _ h => f2_get h.nodes i)

omit [LinearOrder L] [LawfulOrd L] in
theorem ringSize_r (r : Nat) : ringSize rings r = ringSize rings' r := by
  unfold ringSize
  have := f2_get hR r
  generalize rings[r]? = x at this
  generalize rings'[r]? = x' at this
  cases this with
  | none => rfl
  | some h => simp [h.nodes.length_eq]

omit [LinearOrder L] [LawfulOrd L] in
theorem getSeg_r {e : Edge K} {f : Edge L} (he : EdgeR e f) :
    Option.Rel (fun a b => SegR G a.1 b.1 ∧ V2 G a.2 b.2) (getSeg rings e) (getSeg rings' f) := by
  unfold getSeg
  rw [he.isUp, he.ring, he.vtop, ringSize_r hR]
  split
  · exact orel_map (nodeAt_r hR _ _) (fun _ _ h => ⟨h.seg, h.pt⟩)
  · exact orel_map (nodeAt_r hR _ _) (fun _ _ h => ⟨h.seg, he.top⟩)

omit [LinearOrder L] [LawfulOrd L] in
theorem isMaxima_r {e : Edge K} {f : Edge L} (he : EdgeR e f) : isMaxima rings e = isMaxima rings' f := by
  unfold isMaxima
  rw [he.ring, he.vtop]
  exact orel_eq (orel_map (nodeAt_r hR _ _) (fun _ _ h => h.lmax))

omit [LinearOrder L] [LawfulOrd L] in
theorem stepEdge_r {e : Edge K} {f : Edge L} (he : ER (Att rings') e f) : Option.Rel (ER (Att rings')) (stepEdge rings e) (stepEdge rings' f) := by
  obtain ⟨he, ha⟩ := he
  unfold stepEdge
  simp only
  rw [he.isUp, he.ring, he.vtop, ringSize_r hR]
  obtain ⟨v, hv, hvt⟩ := ha.hi
  have hlt := nodeAt_lt hv
  obtain ⟨i, hi⟩ : ∃ i, i = if f.isUp then nextIdx (ringSize rings' f.ring) f.vtop else prevIdx (ringSize rings' f.ring) f.vtop := ⟨_, rfl⟩
  rw [← hi]
  have := nodeAt_r hR f.ring i
  generalize nodeAt rings f.ring i = x at this
  generalize hx : nodeAt rings' f.ring i = x' at this
  cases this with
  | none => exact .none
  | some h =>
    refine .some ⟨{ he with ring := rfl, vtop := rfl, bot := he.top, top := h.pt, currX := Sim.wk he.top.1 }, ⟨_, hx, rfl⟩, v, ?_, hvt⟩
    show nodeAt rings' f.ring (if f.isUp then prevIdx (ringSize rings' f.ring) i else nextIdx (ringSize rings' f.ring) i) = some v
    rw [hi]
    cases f.isUp
    · simp only [Bool.false_eq_true, if_false]; rw [next_prev hlt]; exact hv
    · simp only [if_true]; rw [prev_next hlt]; exact hv

omit [LinearOrder L] [LawfulOrd L] in
theorem isSame_r {a b : Edge K} {a' b' : Edge L} (ha : EdgeR a a') (hb : EdgeR b b') : isSame rings a b = isSame rings' a' b' := by
  unfold isSame
  have h1 := getSeg_r hR ha
  have h2 := getSeg_r hR hb
  generalize getSeg rings a = x at h1
  generalize getSeg rings' a' = x' at h1
  generalize getSeg rings b = z at h2
  generalize getSeg rings' b' = z' at h2
  cases h1 with
  | none => rfl
  | some h1 =>
    cases h2 with
    | none => rfl
    | some h2 =>
      rename_i p p' q q'
      obtain ⟨s, u⟩ := p
      obtain ⟨s', u'⟩ := p'
      obtain ⟨t, w⟩ := q
      obtain ⟨t', w'⟩ := q'
      obtain ⟨h1, _⟩ := h1
      obtain ⟨h2, _⟩ := h2
      cases h1
      cases h2
      simp only
      rw [beq_r ha.bot.wk hb.bot.wk, beq_r ha.top.wk hb.top.wk]

variable (hl : ∀ r ∈ rings', Linked r.nodes)
include hl

omit hR in
theorem Steep.ne {f : Edge L} (hf : Steep rings' f) {s : Seg L} {p : Vec2 L} (h : getSeg rings' f = some (s, p)) : s.target.y ≠ p.y := by
  obtain ⟨⟨⟨v, hv, h1⟩, u, hu, h2⟩, h3⟩ := hf
  have hlt := nodeAt_lt hv
  have hne : f.bot.y ≠ f.top.y := by
    intro h
    unfold Edge.isHorz at h3
    rw [(LawfulOrd.eq_iff _ _).2 h] at h3
    exact absurd h3 (by simp)
  unfold getSeg at h
  cases hup : f.isUp with
  | true =>
    rw [hup] at h hu
    simp only [if_true] at h hu
    rw [hu] at h
    simp only [Option.map_some, Option.some.injEq, Prod.mk.injEq] at h
    rw [← h.1, ← h.2, h2]
    have : u.seg.target = v.pt := node_target hl hu (by rw [next_prev hlt]; exact hv)
    rw [this, h1]
    exact hne.symm
  | false =>
    rw [hup] at h hu
    simp only [Bool.false_eq_true, if_false] at h hu
    rw [hv] at h
    simp only [Option.map_some, Option.some.injEq, Prod.mk.injEq] at h
    rw [← h.1, ← h.2]
    have : v.seg.target = u.pt := node_target hl hv hu
    rw [this, h2]
    exact hne

/-- The abscissa of an edge at a height. -/
theorem currX_r {e : Edge K} {f : Edge L} (he : ER (Steep rings') e f) {y : K} {y' : L} (hy : H y y') :
    Option.Rel (fun a b => R (a.1.currX a.2 y) (b.1.currX b.2 y')) (getSeg rings e) (getSeg rings' f) := by
  have h1 := getSeg_r hR he.1
  generalize getSeg rings e = x at h1
  generalize hx : getSeg rings' f = x' at h1
  cases h1 with
  | none => exact .none
  | some h1 =>
    rename_i p p'
    obtain ⟨s, u⟩ := p
    obtain ⟨s', u'⟩ := p'
    obtain ⟨h1, h2⟩ := h1
    have := he.2.ne hl hx
    cases h1 with
    | line h1 => exact .some (Sim.linX h1 h2 hy this)

theorem validOrder_r {a b : Edge K} {a' b' : Edge L} (ha : ER (Steep rings') a a') (hb : ER (Steep rings') b b') :
    validOrder rings a b = validOrder rings' a' b' := by
  unfold validOrder
  rw [Sim.eq hb.1.currX ha.1.currX, Sim.lt ha.1.currX hb.1.currX]
  split
  · simp only
    have hm : H ((fmin a.bot.y b.bot.y +. fmin a.top.y b.top.y) /. FNum.lit 2) ((fmin a'.bot.y b'.bot.y +. fmin a'.top.y b'.top.y) /. FNum.lit 2) :=
      Sim.half (fmin_r Sim.wk ha.1.bot.2 hb.1.bot.2) (fmin_r Sim.wk ha.1.top.2 hb.1.top.2)
    have h1 := currX_r hR hl ha hm
    have h2 := currX_r hR hl hb hm
    generalize getSeg rings a = x at h1
    generalize getSeg rings' a' = x' at h1
    generalize getSeg rings b = z at h2
    generalize getSeg rings' b' = z' at h2
    cases h1 with
    | none => rfl
    | some h1 =>
      cases h2 with
      | none => rfl
      | some h2 =>
        rename_i p p' q q'
        simp only
        rw [Sim.eq h1 h2, Sim.lt h1 h2, ha.1.ptype, hb.1.ptype]
  · rfl

theorem skipHorz_r (fuel : Nat) {e : Edge K} {f : Edge L} (he : ER (Att rings') e f) {ch : List K} {ch' : List L} (hc : List.Forall₂ R ch ch') :
    Option.Rel (fun a b => ER (Steep rings') a.1 b.1 ∧ List.Forall₂ R a.2 b.2) (skipHorz rings fuel e ch) (skipHorz rings' fuel f ch') := by
  induction fuel generalizing e f ch ch' with
  | zero => exact .none
  | succ n ih =>
    unfold skipHorz
    rw [he.1.isHorz]
    split
    · exact orel_bind (stepEdge_r hR he) (fun a b hab => ih hab (f2_append hc (.cons (Sim.wk hab.1.bot.1) .nil)))
    · next h => exact .some ⟨⟨he.1, he.2, by simpa using h⟩, hc⟩

theorem newEdge_r {m : LocMin K} {n : LocMin L} (hm : LocMinR m n) (ho : MinOk rings' n) (eid : Nat) (dx : Int) {ch : List K}
    {ch' : List L} (hc : List.Forall₂ R ch ch') :
    Option.Rel (fun a b => ER (Steep rings') a.1 b.1 ∧ List.Forall₂ R a.2 b.2) (newEdge rings m eid dx ch) (newEdge rings' n eid dx ch') := by
  obtain ⟨v, hv, hvp⟩ := ho
  have hlt := nodeAt_lt hv
  unfold newEdge
  simp only
  rw [hm.ring, hm.node, ringSize_r hR]
  obtain ⟨i, hi⟩ : ∃ i, i = if dx < 0 then nextIdx (ringSize rings' n.ring) n.node else prevIdx (ringSize rings' n.ring) n.node := ⟨_, rfl⟩
  rw [← hi]
  have := nodeAt_r hR n.ring i
  generalize nodeAt rings n.ring i = x at this
  generalize hx : nodeAt rings' n.ring i = x' at this
  cases this with
  | none => exact .none
  | some h =>
    rename_i w w'
    refine orel_map (skipHorz_r hR hl _ (f := { eid := eid, bot := n.pt, top := w'.pt, currX := FNum.lit 0, windDx := dx, ring := n.ring, vtop := i, ptype := n.ptype })
      ⟨⟨rfl, hm.pt, h.pt, Sim.wk Sim.zero, rfl, rfl, rfl, rfl, rfl, rfl, hm.ptype⟩, ⟨_, hx, rfl⟩, v, ?_, hvp⟩
      (f2_append hc (.cons (Sim.wk hm.pt.1) .nil))) ?_
    · simp only
      rw [hi]
      unfold Edge.isUp
      simp only [decide_eq_true_eq]
      split
      · rw [prev_next hlt]; exact hv
      · rw [next_prev hlt]; exact hv
    · rintro a b ⟨h1, h2⟩
      exact ⟨⟨{ h1.1 with currX := Sim.wk h1.1.bot.1 }, steep_same b.1 _ ⟨rfl, rfl, rfl, rfl, rfl⟩ h1.2⟩, h2⟩

theorem insertMin_r {m : LocMin K} {n : LocMin L} (hm : LocMinR m n) (ho : MinOk rings' n) {st : St K} {st' : St L} (h : StR rings' st st') :
    Option.Rel (StR rings') (insertMin rings m st) (insertMin rings' n st') := by
  unfold insertMin
  rw [h.nextId]
  refine orel_bind (newEdge_r hR hl hm ho _ _ h.changes) (fun a b hab => orel_map (newEdge_r hR hl hm ho _ _ hab.2) (fun c d hcd => ?_))
  have hv : ∀ a b a' b', ER (Steep rings') a a' → ER (Steep rings') b b' → validOrder rings a b = validOrder rings' a' b' :=
    fun _ _ _ _ h1 h2 => validOrder_r hR hl h1 h2
  exact { h with
    ael := insertAfterPrev_r hv _ hcd.1 (insertAel_r hv hab.1 h.ael)
    changes := hcd.2
    scan := insertNum_r Sim.wk hcd.1.1.top.2 (insertNum_r Sim.wk hab.1.1.top.2 h.scan)
    nextId := rfl }

theorem insertMins_r {y : K} {y' : L} (hy : R y y') {ms : List (LocMin K)} {ms' : List (LocMin L)}
    (hm : List.Forall₂ (fun m n => LocMinR m n ∧ MinOk rings' n) ms ms') {st : St K} {st' : St L} (h : StR rings' st st') :
    Option.Rel (StR rings') (insertMins rings y ms st) (insertMins rings' y' ms' st') := by
  induction hm generalizing st st' with
  | nil => exact .some { h with mins := .nil }
  | cons h1 t ih =>
    unfold insertMins
    rw [Sim.eq (Sim.wk h1.1.pt.2) hy]
    split
    · exact orel_bind (insertMin_r hR hl h1.1 h1.2 h) (fun a b hab => ih hab)
    · exact .some { h with mins := .cons h1 t }

end

omit [LinearOrder L] [LawfulOrd L] in
theorem detach_r {o : Outs K} {q : Outs L} (h : OutsR o q) {e : Edge K} {f : Edge L} (he : EdgeR e f) : OutsR (detach o e) (detach q f) := by
  unfold detach
  rw [he.bound]
  split
  · refine modB_r h _ ?_
    intro a b hab; exact { hab with currEdge := rfl }
  · exact h

omit [LinearOrder L] [LawfulOrd L] in
theorem recalcWind_r (fr : FillRule) {rings' : List (Ring L)} {st : St K} {st' : St L} (h : StR rings' st st') :
    StR rings' (recalcWind fr st) (recalcWind fr st') := by
  have hx := uniqNum_r (sortNum_r h.changes)
  have ha := recalcGo_r fr (T := Steep rings') steep_same hx .nil h.ael
  unfold recalcWind
  refine { h with ael := ha, changes := hx, out := ?_ }
  refine f2_foldl (f2_zip h.ael ha) h.out ?_
  rintro o q ⟨e, e1⟩ ⟨f, f1⟩ ho ⟨h1, h2⟩
  simp only
  rw [h2.1.bound]
  split
  · exact detach_r ho h1.1
  · exact ho

omit [LinearOrder L] [LawfulOrd L] in
theorem setBound_r {rings' : List (Ring L)} {l : List (Edge K)} {l' : List (Edge L)} (h : List.Forall₂ (ER (Steep rings')) l l') (i : Nat) (b : Option Nat) :
    List.Forall₂ (ER (Steep rings')) (setBound l i b) (setBound l' i b) := by
  refine f2_map h (fun e f he => ?_)
  have hi := he.1.eid
  by_cases hc : f.eid = i
  · rw [if_pos hc, if_pos (hi.trans hc)]
    exact ⟨{ he.1 with eid := hi, bound := rfl }, steep_same f _ ⟨rfl, rfl, rfl, rfl, rfl⟩ he.2⟩
  · rw [if_neg hc, if_neg (fun h => hc (hi.symm.trans h))]
    exact he

omit [LinearOrder L] [LawfulOrd L] in
theorem stNew_r {rings' : List (Ring L)} {st : St K} {st' : St L} (h : StR rings' st st') {a b : Edge K} {a' b' : Edge L} (ha : EdgeR a a')
    (hb : EdgeR b b') : StR rings' (st.newOutput a b) (st'.newOutput a' b') := by
  unfold St.newOutput
  refine { h with ael := ?_, out := newOutput_r h.out ha hb }
  rw [ha.eid, hb.eid, h.out.bounds.length_eq]
  exact setBound_r (setBound_r h.ael _ _) _ _

omit [LinearOrder L] [LawfulOrd L] in
theorem stUpdate_r {rings' : List (Ring L)} {st : St K} {st' : St L} (h : StR rings' st st') (i : Nat) {e : Edge K} {f : Edge L} (he : EdgeR e f) :
    Option.Rel (StR rings') (st.updateBound i e) (st'.updateBound i f) := by
  unfold St.updateBound
  rw [he.eid]
  exact orel_map (updateBound_r h.out i he) (fun a b hab => { h with out := hab, ael := setBound_r h.ael _ _ })

omit [LinearOrder L] [LawfulOrd L] in
theorem clearEdge_r {rings' : List (Ring L)} {st : St K} {st' : St L} (h : StR rings' st st') (i : Nat) :
    List.Forall₂ (ER (Steep rings')) (clearEdge st i) (clearEdge st' i) := by
  unfold clearEdge
  have : st.out.bounds[i]?.bind Bound.currEdge = st'.out.bounds[i]?.bind Bound.currEdge :=
    orel_eq (orel_bind (f2_get h.out.bounds i) (fun a b hab => by rw [hab.currEdge]; exact orel_refl _))
  rw [this]
  split
  · exact setBound_r h.ael _ _
  · exact h.ael

omit [LinearOrder L] [LawfulOrd L] in
theorem stJoin_r {rings' : List (Ring L)} {st : St K} {st' : St L} (h : StR rings' st st') (i j : Nat) {y : K} {y' : L} (hy : R y y') :
    Option.Rel (StR rings') (st.join i j y) (st'.join i j y') := by
  unfold St.join
  refine orel_map (join_r h.out i j hy) (fun a b hab => { h with out := hab, ael := clearEdge_r ?_ j })
  exact { h with ael := clearEdge_r h i }

omit [LinearOrder L] [LawfulOrd L] in
theorem openPairs_r {rings' : List (Ring L)} {l : List (Edge K)} {l' : List (Edge L)} (hl : List.Forall₂ EdgeR l l') {st : St K} {st' : St L}
    (h : StR rings' st st') : StR rings' (openPairs st l).1 (openPairs st' l').1 ∧ List.Forall₂ EdgeR (openPairs st l).2 (openPairs st' l').2 := by
  induction l using List.twoStepInduction generalizing l' st st' with
  | nil => cases hl; exact ⟨h, .nil⟩
  | singleton a => cases hl with | cons h1 t => cases t; exact ⟨h, .cons h1 .nil⟩
  | cons_cons a b l ih _ =>
    cases hl with
    | cons h1 t =>
      cases t with
      | cons h2 t =>
        unfold openPairs
        rw [Sim.eq h1.currX h2.currX]
        split
        · exact ih t (stNew_r h h1 h2)
        · exact ⟨(ih t h).1, .cons h1 (.cons h2 (ih t h).2)⟩

omit [LinearOrder L] [LawfulOrd L] in
theorem oblWalk_r {bs : List (Bound K)} {bs' : List (Bound L)} (h : List.Forall₂ BoundR bs bs') (fuel : Nat) (i : Option Nat) :
    oblWalk bs fuel i = oblWalk bs' fuel i := by
  induction fuel generalizing i with
  | zero => cases i <;> rfl
  | succ n ih =>
    cases i with
    | none => rfl
    | some i =>
      unfold oblWalk
      refine orel_eq (orel_bind (f2_get h i) (fun a b hab => ?_))
      rw [hab.next, ih]
      exact orel_refl _

/-- Corresponding items. -/
inductive ItemR : Item K → Item L → Prop
  | edge {e f} (h : EdgeR e f) : ItemR (.edge e) (.edge f)
  | bound (i : Nat) {x x'} (h : R x x') : ItemR (.bound i x) (.bound i x')

omit [LinearOrder L] [LawfulOrd L] in
theorem ItemR.x {a : Item K} {b : Item L} (h : ItemR a b) : R a.x b.x := by
  cases h with
  | edge h => exact h.currX
  | bound i h => exact h

omit [LinearOrder L] [LawfulOrd L] in
theorem ItemR.isEdge {a : Item K} {b : Item L} (h : ItemR a b) : a.isEdge = b.isEdge := by cases h <;> rfl

omit [LinearOrder L] [LawfulOrd L] in
theorem insertItem_r {a : Item K} {b : Item L} (h : ItemR a b) {l : List (Item K)} {l' : List (Item L)} (hl : List.Forall₂ ItemR l l') :
    List.Forall₂ ItemR (insertItem a l) (insertItem b l') := by
  induction hl with
  | nil => exact .cons h .nil
  | cons h1 t ih =>
    unfold insertItem
    rw [Sim.lt h1.x h.x]; split
    · exact .cons h1 ih
    · exact .cons h (.cons h1 t)

omit [LinearOrder L] [LawfulOrd L] in
theorem sortItems_r {l : List (Item K)} {l' : List (Item L)} (hl : List.Forall₂ ItemR l l') : List.Forall₂ ItemR (sortItems l) (sortItems l') :=
  f2_foldr hl .nil (fun _ _ _ _ hx hl => insertItem_r hx hl)

omit [LinearOrder L] [LawfulOrd L] in
theorem connect_r {rings' : List (Ring L)} {y : K} {y' : L} (hy : R y y') {st : St K} {st' : St L} (h : StR rings' st st') {a b : Item K} {a' b' : Item L}
    (ha : ItemR a a') (hb : ItemR b b') : Option.Rel (StR rings') (connect y st a b) (connect y' st' a' b') := by
  cases ha with
  | edge ha =>
    cases hb with
    | edge hb => exact .some (stNew_r h ha hb)
    | bound j hb => exact stUpdate_r h j ha
  | bound i ha =>
    cases hb with
    | edge hb => exact stUpdate_r h i hb
    | bound j hb => exact stJoin_r h i j hy

omit [LinearOrder L] [LawfulOrd L] in
theorem pairItems_r {rings' : List (Ring L)} {y : K} {y' : L} (hy : R y y') (fuel : Nat) {st : St K} {st' : St L} (h : StR rings' st st')
    {l : List (Item K)} {l' : List (Item L)} (hl : List.Forall₂ ItemR l l') : Option.Rel (StR rings') (pairItems y fuel st l) (pairItems y' fuel st' l') := by
  induction fuel generalizing st st' l l' with
  | zero =>
    cases hl with
    | nil => exact .some h
    | cons h1 t => exact .none
  | succ n ih =>
    cases hl with
    | nil => exact .some h
    | cons h1 t =>
      rename_i a b r r'
      unfold pairItems
      simp only
      have hp : ∀ u v, ItemR u v → ((u.x ==. a.x) && (u.isEdge == a.isEdge)) = ((v.x ==. b.x) && (v.isEdge == b.isEdge)) := by
        intro u v huv
        rw [Sim.eq huv.x h1.x, huv.isEdge, h1.isEdge]
      have ht := f2_takeWhile t hp
      have hd := f2_dropWhile t hp
      generalize List.takeWhile _ r = s at ht
      generalize List.takeWhile _ r' = s' at ht
      generalize List.dropWhile _ r = q at hd
      generalize List.dropWhile _ r' = q' at hd
      cases t with
      | nil => cases hd with
        | nil => exact .none
        | cons h2 t2 =>
          simp only
          rw [Sim.eq h2.x h1.x]
          split
          · exact orel_bind (connect_r hy h h1 h2) (fun _ _ hab => ih hab (f2_append ht t2))
          · exact .none
      | cons h3 t =>
        have key := orel_bind (connect_r hy h h1 h3) (fun _ _ hab => ih hab t)
        cases hd with
        | nil => exact key
        | cons h2 t2 =>
          simp only
          rw [Sim.eq h2.x h1.x]
          split
          · exact orel_bind (connect_r hy h h1 h2) (fun _ _ hab => ih hab (f2_append ht t2))
          · exact key

omit [LinearOrder L] [LawfulOrd L] in
theorem linkObl_r {o : Outs K} {q : Outs L} (h : OutsR o q) (last : Nat) (l : List Nat) : OutsR (linkObl o last l) (linkObl q last l) := by
  induction l generalizing o q last with
  | nil => exact h
  | cons i l ih =>
    unfold linkObl
    refine ih (modB_r (modB_r h _ ?_) _ ?_) _ <;> intro a b hab
    · exact { hab with next := rfl }
    · exact { hab with prev := rfl }

omit [LinearOrder L] [LawfulOrd L] in
theorem rebuildObl_r {o : Outs K} {q : Outs L} (h : OutsR o q) (l : List Nat) : OutsR (rebuildObl o l) (rebuildObl q l) := by
  cases l with
  | nil => exact { h with oblFirst := rfl }
  | cons i l =>
    unfold rebuildObl
    have h0 : OutsR { o with oblFirst := some i } { q with oblFirst := some i } := { h with oblFirst := rfl }
    refine linkObl_r (modB_r h0 _ ?_) _ _
    intro a b hab
    exact { hab with prev := rfl, next := rfl }

omit [LinearOrder L] [LawfulOrd L] in
theorem boundsOf_r {rings' : List (Ring L)} {l : List (Edge K)} {l' : List (Edge L)} (hl : List.Forall₂ (ER (Steep rings')) l l') {bs : List (Edge K)}
    {bs' : List (Edge L)} (h : List.Forall₂ EdgeR bs bs') : boundsOf l bs = boundsOf l' bs' := by
  unfold boundsOf
  refine orel_eq (orel_mono (f2_mapM (Q := (· = ·)) h (fun e f he => ?_)) (fun _ _ h => f2_eq h))
  rw [he.eid]
  refine orel_bind (f2_find hl (fun a b hab => ?_)) (fun a b hab => ?_)
  · rw [hab.1.eid]
  · rw [hab.1.bound]; exact orel_refl _

section
variable {rings : List (Ring K)} {rings' : List (Ring L)} (hR : List.Forall₂ (RingR G) rings rings')
include hR

omit [LinearOrder L] [LawfulOrd L] in
theorem boundEdges_r (ct : ClipType) (fr : FillRule) {l : List (Edge K)} {l' : List (Edge L)} (h : List.Forall₂ (ER (Steep rings')) l l') :
    List.Forall₂ EdgeR (boundEdges rings ct fr l) (boundEdges rings' ct fr l') := by
  unfold boundEdges
  refine f2_reverse (f2_foldl (Q := List.Forall₂ EdgeR) h .nil ?_)
  intro x x' e f hx he
  rw [isContributing_r ct fr he.1]
  split
  · cases hx with
    | nil => exact .cons he.1 .nil
    | cons h1 t =>
      simp only
      rw [isSame_r hR he.1 h1]
      split
      · exact t
      · exact .cons he.1 (.cons h1 t)
  · exact hx

omit [LinearOrder L] [LawfulOrd L] in
theorem updateOutput_r (ct : ClipType) (fr : FillRule) {y : K} {y' : L} (hy : R y y') {st : St K} {st' : St L} (h : StR rings' st st') :
    Option.Rel (StR rings') (updateOutput rings ct fr y st) (updateOutput rings' ct fr y' st') := by
  unfold updateOutput
  have he : st.changes.isEmpty = st'.changes.isEmpty := by
    have := h.changes
    generalize st.changes = a at this
    generalize st'.changes = b at this
    cases this <;> rfl
  rw [he]
  split
  · exact .some h
  · simp only
    have hb := boundEdges_r hR ct fr h.ael
    have hst : StR rings' { st with changes := [] } { st' with changes := [] } := { h with changes := .nil }
    obtain ⟨ho, hr⟩ := openPairs_r hb hst
    generalize openPairs { st with changes := [] } _ = p at ho hr
    generalize openPairs { st' with changes := [] } _ = p' at ho hr
    rw [oblWalk_r ho.out.bounds, ho.out.bounds.length_eq, ho.out.oblFirst]
    refine orel_bind (orel_refl _) (fun o o' hoo => ?_)
    subst hoo
    have hi : List.Forall₂ ItemR (sortItems (p.2.map Item.edge ++ o.filterMap (fun i => (p.1.out.bounds[i]?).map (fun b => Item.bound i b.stopX))))
        (sortItems (p'.2.map Item.edge ++ o.filterMap (fun i => (p'.1.out.bounds[i]?).map (fun b => Item.bound i b.stopX)))) := by
      refine sortItems_r (f2_append (f2_map hr (fun _ _ h => .edge h)) (f2_filterMap (f2_rfl o) ?_))
      rintro i _ rfl
      exact orel_map (f2_get ho.out.bounds i) (fun _ _ h => .bound i h.stopX)
    rw [hi.length_eq]
    refine orel_bind (pairItems_r hy _ ho hi) (fun s s' hs => ?_)
    rw [boundsOf_r hs.ael hb]
    refine orel_map (orel_refl _) (fun l l' hll => ?_)
    subst hll
    exact { hs with out := rebuildObl_r hs.out l }

omit [LinearOrder L] [LawfulOrd L] in
theorem appendSeg_r {o : Outs K} {q : Outs L} (h : OutsR o q) {e : Edge K} {f : Edge L} (he : EdgeR e f) {x : K} {x' : L} (hx : R x x') :
    Option.Rel OutsR (appendSeg rings o e x) (appendSeg rings' q f x') := by
  unfold appendSeg
  rw [he.bound]
  split
  · exact .some h
  · rename_i i _
    have h1 := f2_get h.bounds i
    have h2 := getSeg_r hR he
    generalize o.bounds[i]? = a at h1
    generalize q.bounds[i]? = a' at h1
    generalize getSeg rings e = b at h2
    generalize getSeg rings' f = b' at h2
    cases h1 with
    | none => exact .none
    | some h1 =>
      cases h2 with
      | none => exact .none
      | some h2 =>
        rename_i c c' d d'
        obtain ⟨s, u⟩ := d
        obtain ⟨s', u'⟩ := d'
        obtain ⟨h2, h3⟩ := h2
        simp only at h2 h3 ⊢
        refine .some (modB_r (push_r h h1 ?_) i ?_)
        · rw [he.isUp, h1.isUp]
          cases h2 with
          | line h2 =>
            split
            · exact .line h3.wk
            · exact .line h2.wk
        · intro a b hab
          exact { hab with stopX := hx }

variable (hl : ∀ r ∈ rings', Linked r.nodes)
include hl

omit hl [LinearOrder L] [LawfulOrd L] in
theorem horzGo_r (fuel : Nat) {e : Edge K} {f : Edge L} (he : ER (Att rings') e f) {ch : List K} {ch' : List L} (hc : List.Forall₂ R ch ch') :
    Option.Rel (fun a b => Option.Rel (ER (Steep rings')) a.1 b.1 ∧ List.Forall₂ R a.2 b.2) (horzGo rings fuel e ch) (horzGo rings' fuel f ch') := by
  induction fuel generalizing e f ch ch' with
  | zero => exact .none
  | succ n ih =>
    unfold horzGo
    have hc' : List.Forall₂ R (ch ++ [e.top.x]) (ch' ++ [f.top.x]) := f2_append hc (.cons (Sim.wk he.1.top.1) .nil)
    rw [he.1.isHorz, isMaxima_r hR he.1]
    split
    · refine orel_bind (orel_refl _) (fun m m' hm => ?_)
      subst hm
      split
      · exact .some ⟨.none, hc'⟩
      · exact orel_bind (stepEdge_r hR he) (fun a b hab => ih hab hc')
    · next h => exact .some ⟨.some ⟨he.1, he.2, by simpa using h⟩, hc⟩

theorem topEdge_r {y : K} {y' : L} (hy : G y y') {st : St K} {st' : St L} (h : StR rings' st st') {last : K} {last' : L} (hla : Old last last')
    {e : Edge K} {f : Edge L} (he : ER (Steep rings') e f) :
    Option.Rel (fun a b => Option.Rel (ER (Steep rings')) a.1 b.1 ∧ StR rings' a.2.1 b.2.1 ∧ Old a.2.2 b.2.2)
      (topEdge rings y st last e) (topEdge rings' y' st' last' f) := by
  unfold topEdge
  rw [Sim.eq (Sim.wk he.1.top.2) (Sim.wk hy)]
  split
  · simp only
    have he1 : EdgeR { e with currX := e.top.x } { f with currX := f.top.x } := { he.1 with currX := Sim.wk he.1.top.1 }
    have ha1 : ER (Att rings') { e with currX := e.top.x } { f with currX := f.top.x } := ⟨he1, he.2.1.hi, he.2.1.lo⟩
    have hx : R e.top.x f.top.x := Sim.wk he.1.top.1
    have hc : List.Forall₂ R (if e.top.x ==. last then st.changes ++ [last] else st.changes) (if f.top.x ==. last' then st'.changes ++ [last'] else st'.changes) := by
      rw [Old.eq hx hla]; split
      · next hq => exact f2_append h.changes (.cons (Old.back hx hla hq) .nil)
      · exact h.changes
    refine orel_bind (appendSeg_r hR h.out he1 hx) (fun o q hoq => ?_)
    rw [isMaxima_r hR he1]
    refine orel_bind (orel_refl _) (fun m m' hm => ?_)
    subst hm
    split
    · exact .some ⟨.none, { h with out := detach_r hoq he1, changes := hc }, Or.inl hx⟩
    · refine orel_bind (stepEdge_r hR ha1) (fun a b hab => ?_)
      have hs : ringSize rings e.ring = ringSize rings' f.ring := by rw [he.1.ring, ringSize_r hR]
      rw [hs]
      refine orel_map (horzGo_r hR _ hab hc) (fun r r' hr => ?_)
      obtain ⟨h1, h2⟩ := hr
      obtain ⟨r1, r2⟩ := r
      obtain ⟨r1', r2'⟩ := r'
      simp only at h1 h2 ⊢
      cases h1 with
      | none => exact ⟨.none, { h with out := detach_r hoq he1, changes := h2 }, Or.inl hx⟩
      | some h1 => exact ⟨.some h1, { h with out := hoq, changes := h2, scan := insertNum_r Sim.wk h1.1.top.2 h.scan }, Or.inl hx⟩
  · refine orel_map (currX_r hR hl he (Sim.half_wk hy)) (fun a b hab => ?_)
    simp only
    have h1 : ER (Steep rings') { e with currX := a.1.currX a.2 y } { f with currX := b.1.currX b.2 y' } :=
      ⟨{ he.1 with currX := hab }, steep_same f _ ⟨rfl, rfl, rfl, rfl, rfl⟩ he.2⟩
    have h2 : List.Forall₂ R (if a.1.currX a.2 y ==. last then st.changes ++ [last] else st.changes)
        (if b.1.currX b.2 y' ==. last' then st'.changes ++ [last'] else st'.changes) := by
      rw [Old.eq hab hla]; split
      · next hq => exact f2_append h.changes (.cons (Old.back hab hla hq) .nil)
      · exact h.changes
    have hb := he.1.bound
    cases hf : f.bound with
    | none =>
      rw [hf] at hb
      rw [hb]
      exact ⟨.some ⟨{ h1.1 with bound := rfl }, steep_same f _ ⟨rfl, rfl, rfl, rfl, rfl⟩ he.2⟩, { h with changes := h2 }, Or.inl hab⟩
    | some i =>
      rw [hf] at hb
      rw [hb]
      refine ⟨.some ⟨{ h1.1 with bound := rfl }, steep_same f _ ⟨rfl, rfl, rfl, rfl, rfl⟩ he.2⟩, { h with out := modB_r h.out _ ?_, changes := h2 }, Or.inl hab⟩
      intro c d hcd
      exact { hcd with stopX := hab }

theorem topGo_r {y : K} {y' : L} (hy : G y y') {l : List (Edge K)} {l' : List (Edge L)} (hll : List.Forall₂ (ER (Steep rings')) l l')
    {st : St K} {st' : St L} (h : StR rings' st st') {last : K} {last' : L} (hla : Old last last') {d : List (Edge K)} {d' : List (Edge L)}
    (hd : List.Forall₂ (ER (Steep rings')) d d') :
    Option.Rel (StR rings') (topGo rings y st last d l) (topGo rings' y' st' last' d' l') := by
  induction hll generalizing st st' last last' d d' with
  | nil => exact .some { h with ael := hd }
  | cons h1 t ih =>
    unfold topGo
    refine orel_bind (topEdge_r hR hl hy h hla h1) (fun a b hab => ih hab.2.1 hab.2.2 (f2_append hd ?_))
    obtain ⟨h2, _⟩ := hab
    generalize a.1 = u at h2
    generalize b.1 = w at h2
    cases h2 with
    | none => exact .nil
    | some h => exact .cons h .nil

theorem doTop_r {y : K} {y' : L} (hy : G y y') {st : St K} {st' : St L} (h : StR rings' st st') :
    Option.Rel (StR rings') (doTop rings y st) (doTop rings' y' st') :=
  topGo_r hR hl hy h.ael (st := { st with changes := [] }) (st' := { st' with changes := [] }) { h with changes := .nil } (Or.inr ⟨rfl, rfl⟩) .nil

end

omit [LinearOrder L] [LawfulOrd L] in
theorem closeGo_r {rings' : List (Ring L)} {y : K} {y' : L} (hy : R y y') (fuel : Nat) {st : St K} {st' : St L} (h : StR rings' st st') (c : Nat) :
    Option.Rel (StR rings') (closeGo y fuel st c) (closeGo y' fuel st' c) := by
  induction fuel generalizing st st' c with
  | zero => exact .none
  | succ n ih =>
    unfold closeGo
    refine orel_bind (f2_get h.out.bounds c) (fun a b hab => ?_)
    rw [hab.next]
    split
    · exact .some h
    · rename_i i _
      refine orel_bind (f2_get h.out.bounds i) (fun d e hde => ?_)
      rw [hde.next, Sim.eq hab.stopX hde.stopX]
      refine orel_bind (P := StR rings') ?_ (fun s s' hs => ?_)
      · split
        · exact stJoin_r h _ _ hy
        · exact .some h
      · split
        · exact .some hs
        · exact ih hs _

omit [LinearOrder L] [LawfulOrd L] in
theorem closeOutput_r {rings' : List (Ring L)} {y : K} {y' : L} (hy : R y y') {st : St K} {st' : St L} (h : StR rings' st st') :
    Option.Rel (StR rings') (closeOutput y st) (closeOutput y' st') := by
  unfold closeOutput
  rw [h.out.oblFirst, h.out.bounds.length_eq]
  split
  · exact .some h
  · exact closeGo_r hy _ h _

omit [LinearOrder L] [LawfulOrd L] in
theorem takeAt_r {T : Edge L → Prop} {x : K} {x' : L} (hx : R x x') {l : List (Edge K)} {l' : List (Edge L)} (h : List.Forall₂ (ER T) l l') :
    List.Forall₂ (ER T) (takeAt x l).1 (takeAt x' l').1 ∧ List.Forall₂ (ER T) (takeAt x l).2.1 (takeAt x' l').2.1 ∧
      List.Forall₂ (ER T) (takeAt x l).2.2 (takeAt x' l').2.2 := by
  induction h with
  | nil => exact ⟨.nil, .nil, .nil⟩
  | cons h1 t ih =>
    unfold takeAt
    simp only
    rw [Sim.eq h1.1.currX hx, Sim.lt hx h1.1.currX]
    split
    · exact ⟨ih.1, .cons h1 ih.2.1, ih.2.2⟩
    · split
      · exact ⟨.nil, .nil, .cons h1 t⟩
      · exact ⟨.cons h1 ih.1, ih.2.1, ih.2.2⟩

omit [LinearOrder L] [LawfulOrd L] in
theorem takeAll_r {T : Edge L → Prop} {xs : List K} {xs' : List L} (hx : List.Forall₂ R xs xs') {l : List (Edge K)} {l' : List (Edge L)}
    (h : List.Forall₂ (ER T) l l') :
    List.Forall₂ (ER T) (takeAll xs l).1 (takeAll xs' l').1 ∧ List.Forall₂ (ER T) (takeAll xs l).2 (takeAll xs' l').2 := by
  induction hx generalizing l l' with
  | nil => exact ⟨h, .nil⟩
  | cons hx _ ih =>
    unfold takeAll
    have h1 := takeAt_r hx h
    have h2 := ih h1.2.2
    exact ⟨f2_append h1.1 h2.1, f2_append h1.2.1 h2.2⟩

section
variable {rings : List (Ring K)} {rings' : List (Ring L)} (hR : List.Forall₂ (RingR G) rings rings') (hl : ∀ r ∈ rings', Linked r.nodes)
include hR hl

theorem resortAel_r {st : St K} {st' : St L} (h : StR rings' st st') : StR rings' (resortAel rings st) (resortAel rings' st') := by
  have hx := uniqNum_r (sortNum_r h.changes)
  have ht := takeAll_r hx h.ael
  unfold resortAel
  refine { h with changes := hx, out := f2_foldl ht.2 h.out (fun _ _ _ _ ho he => detach_r ho he.1), ael := ?_ }
  refine f2_foldl (Q := List.Forall₂ (ER (Steep rings'))) ht.2 ht.1 ?_
  intro l l' e f hll he
  have hv : ∀ a b a' b', ER (Steep rings') a a' → ER (Steep rings') b b' → validOrder rings a b = validOrder rings' a' b' :=
    fun _ _ _ _ h1 h2 => validOrder_r hR hl h1 h2
  have h1 : ER (Steep rings') { e with bound := none } { f with bound := none } :=
    ⟨{ he.1 with bound := rfl }, steep_same f _ ⟨rfl, rfl, rfl, rfl, rfl⟩ he.2⟩
  exact insertAel_r hv h1 hll

theorem sweepA_r (ct : ClipType) (fr : FillRule) {y : K} {y' : L} (hy : R y y') {st : St K} {st' : St L} (h : StR rings' st st') :
    Option.Rel (StR rings') (sweepA rings ct fr y st) (sweepA rings' ct fr y' st') :=
  orel_bind (insertMins_r hR hl hy h.mins h) (fun _ _ hab => updateOutput_r hR ct fr hy (recalcWind_r fr hab))

theorem sweepB_r {y : K} {y' : L} (hy : G y y') {st : St K} {st' : St L} (h : StR rings' st st') :
    Option.Rel (StR rings') (sweepB rings y st) (sweepB rings' y' st') :=
  orel_bind (doTop_r hR hl hy h) (fun _ _ hab => orel_map (closeOutput_r (Sim.wk hy) hab) (fun _ _ hcd => resortAel_r hR hl hcd))

/-- The main loop. -/
theorem sweep_r (ct : ClipType) (fr : FillRule) (fuel : Nat) {y : K} {y' : L} (hy : G y y') {st : St K} {st' : St L} (h : StR rings' st st') :
    Option.Rel (Option.Rel (StR rings')) (sweep rings ct fr fuel y st) (sweep rings' ct fr fuel y' st') := by
  induction fuel generalizing y y' st st' with
  | zero => exact .some .none
  | succ n ih =>
    unfold sweep
    refine orel_bind (sweepA_r hR hl ct fr (Sim.wk hy) h) (fun a b hab => ?_)
    have := popScan_r (Or.inl (Sim.wk hy)) hab.scan
    generalize popScan y _ = x at this
    generalize popScan y' _ = x' at this
    cases this with
    | none => exact .some (.some { hab with scan := .nil })
    | some h2 =>
      rename_i p q
      obtain ⟨p1, p2⟩ := p
      obtain ⟨q1, q2⟩ := q
      simp only
      exact orel_bind (sweepB_r hR hl h2.1 (st := { a with scan := p2 }) (st' := { b with scan := q2 }) { hab with scan := h2.2 }) (fun _ _ hcd => ih h2.1 hcd)

end

end River.Sim
