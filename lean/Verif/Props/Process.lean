import Verif.Lemmas.Frame
import Verif.Props.Output
import Verif.Props.Break

/-! # C37, C44 and further statements about whole calls of `process` -/

namespace River
variable {K : Type}

/-! ## C37: `clip_type::none` and empty input -/

section quiet
variable [FTrans K]

/-- Nothing is attached to the edges and the output is as in `o`. -/
def Quiet (o : Outs K) (st : St K) : Prop := st.out = o ∧ ∀ e ∈ st.ael, e.bound = none

theorem skipHorz_bound (rings : List (Ring K)) (fuel : Nat) (e e' : Edge K) (ch ch' : List K)
    (h : skipHorz rings fuel e ch = some (e', ch')) : e'.bound = e.bound := by
  induction fuel generalizing e ch with
  | zero => simp [skipHorz] at h
  | succ fuel ih =>
    rw [skipHorz] at h
    split at h
    · obtain ⟨e1, h1, h2⟩ := Option.bind_eq_some_iff.1 h
      obtain ⟨v, _, _, he⟩ := stepEdge_some h1
      rw [ih _ _ h2, he]
    · simp only [Option.some.injEq, Prod.mk.injEq] at h
      rw [h.1]

theorem newEdge_bound (rings : List (Ring K)) (m : LocMin K) (i : Nat) (dx : Int) (ch ch' : List K) (e : Edge K)
    (h : newEdge rings m i dx ch = some (e, ch')) : e.bound = none := by
  rw [newEdge] at h
  obtain ⟨v, _, h2⟩ := Option.bind_eq_some_iff.1 h
  obtain ⟨r, hr, h3⟩ := Option.map_eq_some_iff.1 h2
  simp only [Prod.mk.injEq] at h3
  rw [← h3.1]
  exact skipHorz_bound rings _ _ r.1 _ r.2 hr

theorem insertMins_quiet (rings : List (Ring K)) (o : Outs K) (y : K) (ms : List (LocMin K)) (st st' : St K)
    (hq : Quiet o st) (h : insertMins rings y ms st = some st') : Quiet o st' := by
  induction ms generalizing st with
  | nil => simp only [insertMins, Option.some.injEq] at h; subst h; exact hq
  | cons m ms ih =>
    rw [insertMins] at h
    split at h
    · obtain ⟨st1, h1, h2⟩ := Option.bind_eq_some_iff.1 h
      refine ih st1 ?_ h2
      rw [insertMin] at h1
      obtain ⟨ra, hra, h3⟩ := Option.bind_eq_some_iff.1 h1
      obtain ⟨rb, hrb, h4⟩ := Option.map_eq_some_iff.1 h3
      subst h4
      refine ⟨hq.1, ?_⟩
      intro e he
      rw [(insertAfterPrev_perm _ _ _ _).mem_iff, List.mem_cons, (insertAel_perm _ _ _).mem_iff, List.mem_cons] at he
      rcases he with he | he | he
      · rw [he]; exact newEdge_bound rings m _ _ _ rb.2 rb.1 hrb
      · rw [he]; exact newEdge_bound rings m _ _ _ ra.2 ra.1 hra
      · exact hq.2 e he
    · simp only [Option.some.injEq] at h; subst h; exact hq

theorem detach_none (o : Outs K) (e : Edge K) (h : e.bound = none) : detach o e = o := by rw [detach, h]

theorem recalcWind_quiet (fr : FillRule) (o : Outs K) (st : St K) (hq : Quiet o st) : Quiet o (recalcWind fr st) := by
  refine ⟨?_, ?_⟩
  · rw [recalcWind]
    simp only
    rw [hq.1]
    have key : ∀ (l : List (Edge K × Edge K)), (∀ p ∈ l, p.1.bound = none) →
        l.foldl (fun o p => if p.2.bound.isNone then detach o p.1 else o) o = o := by
      intro l
      induction l with
      | nil => intro _; rfl
      | cons p l ih =>
        intro hl
        rw [List.foldl_cons, detach_none o p.1 (hl p List.mem_cons_self), ite_self]
        exact ih (fun q hq => hl q (List.mem_cons_of_mem _ hq))
    exact key _ (fun p hp => hq.2 p.1 (List.of_mem_zip hp).1)
  · refine mem_recalcGo fr _ [] st.ael (fun e => e.bound = none) ?_ (by simp) hq.2
    intro left e _
    unfold calcWind; split <;> rfl

theorem boundEdges_none (rings : List (Ring K)) (fr : FillRule) (ael : List (Edge K)) : boundEdges rings .none fr ael = [] := by
  have h : ∀ e : Edge K, isContributing .none fr e = false := by intro e; simp [isContributing]
  rw [boundEdges]
  simp only [h, Bool.false_eq_true, if_false]
  induction ael with
  | nil => rfl
  | cons e l ih => exact ih

theorem updateOutput_quiet (rings : List (Ring K)) (fr : FillRule) (o : Outs K) (ho : o.oblFirst = none) (y : K) (st : St K)
    (hq : Quiet o st) : ∃ st', updateOutput rings .none fr y st = some st' ∧ Quiet o st' ∧ st'.scan = st.scan := by
  rw [updateOutput]
  split
  · exact ⟨st, rfl, hq, rfl⟩
  · simp only [boundEdges_none, openPairs]
    have hw : oblWalk st.out.bounds st.out.bounds.length st.out.oblFirst = some [] := by
      rw [hq.1, ho]; cases o.bounds.length <;> rfl
    simp only [hw, Option.bind_some, List.map_nil, List.filterMap_nil, List.append_nil, sortItems, List.foldr_nil, pairItems,
      boundsOf]
    refine ⟨_, rfl, ⟨?_, hq.2⟩, rfl⟩
    simp only [rebuildObl, List.reverse_nil]
    rw [hq.1, ← ho]

theorem horzGo_bound (rings : List (Ring K)) (fuel : Nat) (e e' : Edge K) (ch ch' : List K)
    (h : horzGo rings fuel e ch = some (some e', ch')) : e'.bound = e.bound := by
  induction fuel generalizing e ch with
  | zero => simp [horzGo] at h
  | succ fuel ih =>
    rw [horzGo] at h
    split at h
    · obtain ⟨m, _, h2⟩ := Option.bind_eq_some_iff.1 h
      split at h2
      · simp at h2
      · obtain ⟨e1, h1, h3⟩ := Option.bind_eq_some_iff.1 h2
        obtain ⟨v, _, _, he⟩ := stepEdge_some h1
        rw [ih _ _ h3, he]
    · simp only [Option.some.injEq, Prod.mk.injEq] at h
      rw [h.1]

theorem topEdge_quiet (rings : List (Ring K)) (y : K) (st : St K) (last : K) (e0 : Edge K) (r : Option (Edge K) × St K × K)
    (he : e0.bound = none) (h : topEdge rings y st last e0 = some r) : r.2.1.out = st.out ∧ ∀ e ∈ r.1, e.bound = none := by
  rw [topEdge] at h
  split at h
  · simp only [appendSeg, he, Option.bind_some] at h
    obtain ⟨m, _, h2⟩ := Option.bind_eq_some_iff.1 h
    split at h2
    · simp only [Option.some.injEq] at h2
      subst h2
      exact ⟨by simp only [detach], by simp⟩
    · obtain ⟨e1, h3, h4⟩ := Option.bind_eq_some_iff.1 h2
      obtain ⟨v, _, _, h5⟩ := stepEdge_some h3
      obtain ⟨q, h6, h7⟩ := Option.map_eq_some_iff.1 h4
      obtain ⟨oe, ch⟩ := q
      cases oe with
      | none =>
        simp only at h7
        subst h7
        exact ⟨by simp only [detach], by simp⟩
      | some e2 =>
        simp only at h7
        subst h7
        refine ⟨rfl, ?_⟩
        intro e hee
        simp only [Option.mem_def, Option.some.injEq] at hee
        subst hee
        rw [horzGo_bound rings _ _ _ _ _ h6, h5]
  · obtain ⟨s, _, h2⟩ := Option.map_eq_some_iff.1 h
    subst h2
    refine ⟨by simp only [he], ?_⟩
    intro e hee
    simp only [Option.mem_def, Option.some.injEq] at hee
    subst hee
    exact he

theorem topGo_quiet (rings : List (Ring K)) (o : Outs K) (y : K) (st st' : St K) (last : K) (done rest : List (Edge K))
    (ho : st.out = o) (hd : ∀ e ∈ done, e.bound = none) (hr : ∀ e ∈ rest, e.bound = none)
    (h : topGo rings y st last done rest = some st') : Quiet o st' := by
  induction rest generalizing st last done with
  | nil => simp only [topGo, Option.some.injEq] at h; subst h; exact ⟨ho, hd⟩
  | cons e rest ih =>
    rw [topGo] at h
    obtain ⟨r, h1, h2⟩ := Option.bind_eq_some_iff.1 h
    obtain ⟨g1, g2⟩ := topEdge_quiet rings y st last e r (hr e List.mem_cons_self) h1
    refine ih r.2.1 r.2.2 (done ++ r.1.toList) (g1.trans ho) ?_ (fun a ha => hr a (List.mem_cons_of_mem _ ha)) h2
    intro a ha
    rcases List.mem_append.1 ha with h | h
    · exact hd a h
    · exact g2 a (by simpa using h)

theorem sweepB_quiet (rings : List (Ring K)) (o : Outs K) (ho : o.oblFirst = none) (y : K) (st st' : St K)
    (hq : Quiet o st) (h : sweepB rings y st = some st') : Quiet o st' := by
  rw [sweepB] at h
  obtain ⟨st1, h1, h2⟩ := Option.bind_eq_some_iff.1 h
  rw [doTop] at h1
  have hq1 : Quiet o st1 := topGo_quiet rings o y { st with changes := [] } st1 _ [] st.ael hq.1 (by simp) hq.2 h1
  obtain ⟨st2, h3, h4⟩ := Option.map_eq_some_iff.1 h2
  have e2 : st2 = st1 := by
    rw [closeOutput, hq1.1, ho] at h3
    simpa using h3.symm
  subst e2
  subst h4
  refine ⟨?_, ?_⟩
  · simp only [resortAel]
    rw [hq1.1]
    have key : ∀ l : List (Edge K), (∀ e ∈ l, e.bound = none) → l.foldl detach o = o := by
      intro l
      induction l with
      | nil => intro _; rfl
      | cons e l ih =>
        intro hl
        rw [List.foldl_cons, detach_none o e (hl e List.mem_cons_self)]
        exact ih (fun a ha => hl a (List.mem_cons_of_mem _ ha))
    exact key _ (fun e he => hq1.2 e ((takeAll_mem _ _ _).2 he))
  · intro e he
    simp only [resortAel] at he
    rw [mem_foldl_insert] at he
    rcases he with he | ⟨a, _, rfl⟩
    · exact hq1.2 e ((takeAll_mem _ _ _).1 he)
    · rfl

theorem sweep_quiet (rings : List (Ring K)) (fr : FillRule) (o : Outs K) (ho : o.oblFirst = none) (fuel : Nat) (y : K)
    (st st' : St K) (hq : Quiet o st) (h : sweep rings .none fr fuel y st = some (some st')) : st'.out = o := by
  induction fuel generalizing y st with
  | zero => simp [sweep] at h
  | succ fuel ih =>
    rw [sweep] at h
    obtain ⟨st1, h1, h2⟩ := Option.bind_eq_some_iff.1 h
    rw [sweepA] at h1
    obtain ⟨st0, h3, h4⟩ := Option.bind_eq_some_iff.1 h1
    have hq0 := recalcWind_quiet fr o st0 (insertMins_quiet rings o y _ _ _ hq h3)
    obtain ⟨st1', h5, hq1, _⟩ := updateOutput_quiet rings fr o ho y _ hq0
    rw [h5] at h4
    simp only [Option.some.injEq] at h4
    subst h4
    split at h2
    · simp only [Option.some.injEq] at h2
      subst h2
      exact hq1.1
    · next sc _ =>
        obtain ⟨st2, h6, h7⟩ := Option.bind_eq_some_iff.1 h2
        exact ih _ st2 (sweepB_quiet rings o ho _ { st1' with scan := sc } _ ⟨hq1.1, hq1.2⟩ h6) h7

/-- **C37**: with `clip_type::none` a new processor makes no callback, whatever paths it holds. -/
theorem process_none (env : Env K) (msort : List (LocMin K) → List (LocMin K)) (fuel : Nat) (c c' : Clipper K) (fr : FillRule)
    {σ : Type} (f : Funcs K σ) (u u' : σ) (hnew : c.out.polys = [])
    (h : c.process env msort fuel .none fr f u = some (some (c', u'))) : u' = u ∧ c'.out.polys = [] := by
  rw [Clipper.process] at h
  obtain ⟨rings, _, h1⟩ := Option.bind_eq_some_iff.1 h
  simp only at h1
  split at h1
  · simp only [Option.some.injEq, Prod.mk.injEq] at h1
    exact ⟨h1.2.symm, by rw [← h1.1]; exact hnew⟩
  · obtain ⟨r, h2, h3⟩ := Option.bind_eq_some_iff.1 h1
    cases r with
    | none => simp at h3
    | some st' =>
      have ho := sweep_quiet rings fr { c.out with oblFirst := none } rfl fuel _ _ st' ⟨rfl, by simp [resetSt]⟩ h2
      simp only [ho, hnew] at h3
      simp only [buildOutput, List.foldlM_nil, Option.pure_def, Option.map_some, Option.some.injEq, Prod.mk.injEq] at h3
      exact ⟨h3.2.symm, by rw [← h3.1]⟩

/-- **C37**: without any contour (in particular after adding only degenerate paths, `insertVertexList_none_iff`) `process`
ends at once without a callback. -/
theorem process_empty (env : Env K) (msort : List (LocMin K) → List (LocMin K))
    (hm : ∀ l, (msort l).Perm l) (fuel : Nat) (c : Clipper K)
    (ct : ClipType) (fr : FillRule) {σ : Type} (f : Funcs K σ) (u : σ) (hr : c.rings = []) (hs : c.scan = []) :
    ∃ c', c.process env msort fuel ct fr f u = some (some (c', u)) ∧ c'.rings = [] := by
  have h1 : processIntersect env ([] : List (Ring K)) = some [] := by
    have hc : collectBreaks env ([] : List (Vtx K)) = some [] := by
      rfl
    rw [processIntersect, show allNodes ([] : List (Ring K)) = [] from rfl, hc]
    rfl
  have h2 : msort (locMins ([] : List (Ring K))) = [] := List.perm_nil.1 (hm [])
  refine ⟨⟨[], { c.out with oblFirst := none }, c.changes, []⟩, ?_, rfl⟩
  rw [Clipper.process, hr, h1]
  simp only [Option.bind_some, resetSt, h2, hs, List.foldr_nil, popScan]

end quiet

end River
