import Verif.Model.Process
import Verif.Spec.Wind
import Mathlib.Data.List.Basic

/-! # What the steps of the sweep leave alone (any arithmetic) -/

namespace River
variable {K : Type}

theorem insertFrom_perm {α : Type} (valid : α → α → Bool) (n : α) (l : List α) : (insertFrom valid n l).Perm (n :: l) := by
  induction l with
  | nil => exact List.Perm.refl _
  | cons c q ih =>
    simp only [insertFrom]
    split
    · exact (List.Perm.cons c ih).trans (List.Perm.swap n c q)
    · exact List.Perm.refl _

theorem insertAel_perm {α : Type} (valid : α → α → Bool) (n : α) (l : List α) : (insertAel valid n l).Perm (n :: l) := by
  cases l with
  | nil => exact List.Perm.refl _
  | cons c q =>
    simp only [insertAel]
    split
    · exact (List.Perm.cons c (insertFrom_perm valid n q)).trans (List.Perm.swap n c q)
    · exact List.Perm.refl _

theorem insertAfterPrev_perm (valid : Edge K → Edge K → Bool) (aid : Nat) (b : Edge K) (l : List (Edge K)) :
    (insertAfterPrev valid aid b l).Perm (b :: l) := by
  unfold insertAfterPrev
  have h : l = (l.span (fun e => e.eid != aid)).1 ++ (l.span (fun e => e.eid != aid)).2 := by
    rw [List.span_eq_takeWhile_dropWhile]; exact (List.takeWhile_append_dropWhile).symm
  generalize l.span (fun e => e.eid != aid) = s at h
  obtain ⟨p, q⟩ := s
  cases p with
  | nil => exact insertAel_perm valid b l
  | cons x p =>
    rw [h]
    refine ((insertFrom_perm valid b q).append_left (x :: p)).trans ?_
    exact List.perm_middle

theorem mem_recalcX [FNum K] (fr : FillRule) (x : K) (done rest : List (Edge K)) (P : Edge K → Prop)
    (hP : ∀ left e, P e → P (calcWind fr left { e with bound := none }))
    (hd : ∀ e ∈ done, P e) (hr : ∀ e ∈ rest, P e) :
    (∀ e ∈ (recalcX fr x done rest).1, P e) ∧ ∀ e ∈ (recalcX fr x done rest).2, P e := by
  induction rest generalizing done with
  | nil => exact ⟨hd, hr⟩
  | cons e rest ih =>
    have he := hr e List.mem_cons_self
    have hr' : ∀ e ∈ rest, P e := fun a ha => hr a (List.mem_cons_of_mem _ ha)
    rw [recalcX]
    split
    · refine ih _ ?_ hr'
      intro a ha
      rcases List.mem_append.1 ha with h | h
      · exact hd a h
      · rw [List.mem_singleton.1 h]; exact he
    · split
      · exact ⟨hd, hr⟩
      · refine ih _ ?_ hr'
        intro a ha
        rcases List.mem_append.1 ha with h | h
        · exact hd a h
        · rw [List.mem_singleton.1 h]; exact hP _ _ he

theorem mem_recalcGo [FNum K] (fr : FillRule) (xs : List K) (done rest : List (Edge K)) (P : Edge K → Prop)
    (hP : ∀ left e, P e → P (calcWind fr left { e with bound := none }))
    (hd : ∀ e ∈ done, P e) (hr : ∀ e ∈ rest, P e) : ∀ e ∈ recalcGo fr xs done rest, P e := by
  induction xs generalizing done rest with
  | nil =>
    intro e he
    rcases List.mem_append.1 he with h | h
    · exact hd e h
    · exact hr e h
  | cons x xs ih =>
    obtain ⟨h1, h2⟩ := mem_recalcX fr x done rest P hP hd hr
    exact ih _ _ h1 h2

theorem takeAt_mem [FTrans K] (x : K) (l : List (Edge K)) (e : Edge K) :
    (e ∈ (takeAt x l).1 → e ∈ l) ∧ (e ∈ (takeAt x l).2.1 → e ∈ l) ∧ (e ∈ (takeAt x l).2.2 → e ∈ l) := by
  induction l with
  | nil => simp [takeAt]
  | cons a l ih =>
    rw [takeAt]
    split
    · refine ⟨fun h => List.mem_cons_of_mem _ (ih.1 h), fun h => ?_, fun h => List.mem_cons_of_mem _ (ih.2.2 h)⟩
      rcases List.mem_cons.1 h with h | h
      · exact h ▸ List.mem_cons_self
      · exact List.mem_cons_of_mem _ (ih.2.1 h)
    · split
      · exact ⟨by simp, by simp, id⟩
      · refine ⟨fun h => ?_, fun h => List.mem_cons_of_mem _ (ih.2.1 h), fun h => List.mem_cons_of_mem _ (ih.2.2 h)⟩
        rcases List.mem_cons.1 h with h | h
        · exact h ▸ List.mem_cons_self
        · exact List.mem_cons_of_mem _ (ih.1 h)

theorem takeAll_mem [FTrans K] (xs : List K) (l : List (Edge K)) (e : Edge K) :
    (e ∈ (takeAll xs l).1 → e ∈ l) ∧ (e ∈ (takeAll xs l).2 → e ∈ l) := by
  induction xs generalizing l with
  | nil => simp [takeAll]
  | cons x xs ih =>
    obtain ⟨h1, h2, h3⟩ := takeAt_mem x l e
    obtain ⟨g1, g2⟩ := ih (takeAt x l).2.2
    rw [takeAll]
    simp only [List.mem_append]
    exact ⟨fun h => h.elim h1 (fun h => h3 (g1 h)), fun h => h.elim h2 (fun h => h3 (g2 h))⟩

theorem mem_foldl_insert [FTrans K] (valid : Edge K → Edge K → Bool) (ins l : List (Edge K)) (e : Edge K) :
    e ∈ ins.foldl (fun l e => insertAel valid { e with bound := none } l) l ↔
      e ∈ l ∨ ∃ a ∈ ins, e = { a with bound := none } := by
  induction ins generalizing l with
  | nil => simp
  | cons a ins ih =>
    rw [List.foldl_cons, ih, (insertAel_perm valid _ l).mem_iff]
    simp only [List.mem_cons, exists_eq_or_imp]
    tauto

/-- `stepEdge` moves an edge along its ring. -/
theorem stepEdge_some {rings : List (Ring K)} {e e' : Edge K} (h : stepEdge rings e = some e') :
    ∃ v, nodeAt rings e.ring e'.vtop = some v ∧
      e'.vtop = (if e.isUp then nextIdx (ringSize rings e.ring) e.vtop else prevIdx (ringSize rings e.ring) e.vtop) ∧
      e' = { e with vtop := e'.vtop, bot := e.top, top := v.pt, currX := e.top.x } := by
  rw [stepEdge] at h
  obtain ⟨v, hv, rfl⟩ := Option.map_eq_some_iff.1 h
  exact ⟨v, hv, rfl, rfl⟩

/-! ## the steps concerning the output leave the active edges alone -/

/-- `st'` differs from `st` at most in the output, the recorded abscissas, and the counts and bounds of the edges. -/
structure Same (st st' : St K) : Prop where
  ael : st'.ael.map Edge.plain = st.ael.map Edge.plain
  scan : st'.scan = st.scan
  mins : st'.mins = st.mins
  nextId : st'.nextId = st.nextId

theorem Same.refl (st : St K) : Same st st := ⟨rfl, rfl, rfl, rfl⟩

theorem Same.trans {a b c : St K} (h : Same a b) (g : Same b c) : Same a c :=
  ⟨g.ael.trans h.ael, g.scan.trans h.scan, g.mins.trans h.mins, g.nextId.trans h.nextId⟩

theorem setBound_plain (ael : List (Edge K)) (i : Nat) (b : Option Nat) :
    (setBound ael i b).map Edge.plain = ael.map Edge.plain := by
  rw [setBound, List.map_map]
  apply List.map_congr_left
  intro e _
  simp only [Function.comp]
  split <;> rfl

theorem clearEdge_plain (st : St K) (i : Nat) : (clearEdge st i).map Edge.plain = st.ael.map Edge.plain := by
  unfold clearEdge
  split
  · exact setBound_plain _ _ _
  · rfl

theorem recalcX_plain [FNum K] (fr : FillRule) (x : K) (done rest : List (Edge K)) :
    ((recalcX fr x done rest).1 ++ (recalcX fr x done rest).2).map Edge.plain = (done ++ rest).map Edge.plain := by
  induction rest generalizing done with
  | nil => rw [recalcX]
  | cons e rest ih =>
    rw [recalcX]
    split
    · rw [ih]; simp
    · split
      · rfl
      · rw [ih]
        have : (calcWind fr done { e with bound := none }).plain = e.plain := by
          unfold calcWind; split <;> rfl
        simp [this]

theorem recalcGo_plain [FNum K] (fr : FillRule) (xs : List K) (done rest : List (Edge K)) :
    (recalcGo fr xs done rest).map Edge.plain = (done ++ rest).map Edge.plain := by
  induction xs generalizing done rest with
  | nil => rw [recalcGo]
  | cons x xs ih => rw [recalcGo, ih, recalcX_plain]

section
variable [FTrans K]

theorem recalcWind_same (fr : FillRule) (st : St K) : Same st (recalcWind fr st) :=
  ⟨by simpa [recalcWind] using recalcGo_plain fr _ [] st.ael, rfl, rfl, rfl⟩

theorem newOutput_same (st : St K) (a b : Edge K) : Same st (st.newOutput a b) :=
  ⟨by simp [St.newOutput, setBound_plain], rfl, rfl, rfl⟩

theorem updateBound_same (st st' : St K) (i : Nat) (e : Edge K) (h : st.updateBound i e = some st') : Same st st' := by
  rw [St.updateBound] at h
  obtain ⟨o, _, rfl⟩ := Option.map_eq_some_iff.1 h
  exact ⟨setBound_plain _ _ _, rfl, rfl, rfl⟩

theorem join_same (st st' : St K) (i j : Nat) (y : K) (h : st.join i j y = some st') : Same st st' := by
  rw [St.join] at h
  obtain ⟨o, _, rfl⟩ := Option.map_eq_some_iff.1 h
  exact ⟨by simp [clearEdge_plain], rfl, rfl, rfl⟩

theorem openPairs_same (l : List (Edge K)) (st : St K) : Same st (openPairs st l).1 := by
  induction l using List.twoStepInduction generalizing st with
  | nil => exact Same.refl _
  | singleton a => exact Same.refl _
  | cons_cons a b l ih _ =>
    rw [openPairs]
    split
    · exact (newOutput_same st a b).trans (ih _)
    · exact ih st

theorem connect_same (y : K) (st st' : St K) (a b : Item K) (h : connect y st a b = some st') : Same st st' := by
  cases a with
  | edge e =>
    cases b with
    | edge f =>
      simp only [connect, Option.some.injEq] at h
      subst h; exact newOutput_same _ _ _
    | bound j x => exact updateBound_same _ _ _ _ h
  | bound i x =>
    cases b with
    | edge f => exact updateBound_same _ _ _ _ h
    | bound j x' => exact join_same _ _ _ _ _ h

theorem pairItems_same (y : K) (fuel : Nat) (st st' : St K) (l : List (Item K)) (h : pairItems y fuel st l = some st') :
    Same st st' := by
  induction fuel generalizing st l with
  | zero =>
    cases l with
    | nil => simp only [pairItems, Option.some.injEq] at h; subst h; exact Same.refl _
    | cons a l => simp [pairItems] at h
  | succ fuel ih =>
    cases l with
    | nil => simp only [pairItems, Option.some.injEq] at h; subst h; exact Same.refl _
    | cons a l =>
      unfold pairItems at h
      dsimp only at h
      have key : ∀ m l', (connect y st a m).bind (fun st' => pairItems y fuel st' l') = some st' → Same st st' := by
        intro m l' h
        obtain ⟨st1, h1, h2⟩ := Option.bind_eq_some_iff.1 h
        exact (connect_same _ _ _ _ _ h1).trans (ih _ _ h2)
      split at h
      · split at h
        · exact key _ _ h
        · split at h
          · exact key _ _ h
          · cases h
      · split at h
        · exact key _ _ h
        · cases h

theorem updateOutput_same (rings : List (Ring K)) (ct : ClipType) (fr : FillRule) (y : K) (st st' : St K)
    (h : updateOutput rings ct fr y st = some st') : Same st st' := by
  rw [updateOutput] at h
  split at h
  · simp only [Option.some.injEq] at h; subst h; exact Same.refl _
  · simp only at h
    obtain ⟨obl, _, h2⟩ := Option.bind_eq_some_iff.1 h
    obtain ⟨st1, h3, h4⟩ := Option.bind_eq_some_iff.1 h2
    obtain ⟨l, _, rfl⟩ := Option.map_eq_some_iff.1 h4
    have h5 := (openPairs_same (boundEdges rings ct fr st.ael) { st with changes := [] }).trans (pairItems_same _ _ _ _ _ h3)
    exact ⟨h5.ael, h5.scan, h5.mins, h5.nextId⟩

theorem closeGo_same (y : K) (fuel : Nat) (st st' : St K) (c : Nat) (h : closeGo y fuel st c = some st') : Same st st' := by
  induction fuel generalizing st c with
  | zero => simp [closeGo] at h
  | succ fuel ih =>
    rw [closeGo] at h
    obtain ⟨b, _, h2⟩ := Option.bind_eq_some_iff.1 h
    split at h2
    · simp only [Option.some.injEq] at h2; subst h2; exact Same.refl _
    · obtain ⟨bn, _, h3⟩ := Option.bind_eq_some_iff.1 h2
      obtain ⟨st1, h4, h5⟩ := Option.bind_eq_some_iff.1 h3
      have h6 : Same st st1 := by
        split at h4
        · exact join_same _ _ _ _ _ h4
        · simp only [Option.some.injEq] at h4; subst h4; exact Same.refl _
      split at h5
      · simp only [Option.some.injEq] at h5; subst h5; exact h6
      · exact h6.trans (ih _ _ h5)

theorem closeOutput_same (y : K) (st st' : St K) (h : closeOutput y st = some st') : Same st st' := by
  rw [closeOutput] at h
  split at h
  · simp only [Option.some.injEq] at h; subst h; exact Same.refl _
  · exact closeGo_same _ _ _ _ _ h

theorem takeAt_perm (x : K) (l : List (Edge K)) : ((takeAt x l).1 ++ (takeAt x l).2.1 ++ (takeAt x l).2.2).Perm l := by
  induction l with
  | nil => simp [takeAt]
  | cons e l ih =>
    rw [takeAt]
    split
    · refine List.Perm.trans ?_ (List.Perm.cons e ih)
      simp only [List.append_assoc, List.cons_append]
      exact List.perm_middle
    · split
      · simp
      · simpa using ih

theorem takeAll_perm (xs : List K) (l : List (Edge K)) : ((takeAll xs l).1 ++ (takeAll xs l).2).Perm l := by
  induction xs generalizing l with
  | nil => simp [takeAll]
  | cons x xs ih =>
    rw [takeAll]
    refine List.Perm.trans ?_ (takeAt_perm x l)
    have h := ih (takeAt x l).2.2
    simp only [List.append_assoc]
    refine List.Perm.append_left _ ?_
    refine List.Perm.trans ?_ (List.Perm.append_left _ h)
    rw [← List.append_assoc, ← List.append_assoc]
    exact List.Perm.append_right _ List.perm_append_comm

omit [FTrans K] in
theorem foldl_insert_perm (valid : Edge K → Edge K → Bool) (ins l : List (Edge K)) :
    ((ins.foldl (fun l e => insertAel valid { e with bound := none } l) l).map Edge.plain).Perm ((l ++ ins).map Edge.plain) := by
  induction ins generalizing l with
  | nil => simp
  | cons a ins ih =>
    rw [List.foldl_cons]
    refine (ih _).trans ?_
    rw [List.map_append, List.map_append, List.map_cons]
    refine ((insertAel_perm valid _ l).map Edge.plain |>.append_right _).trans ?_
    rw [List.map_cons, List.cons_append]
    exact List.perm_middle.symm

theorem resortAel_perm (rings : List (Ring K)) (st : St K) :
    ((resortAel rings st).ael.map Edge.plain).Perm (st.ael.map Edge.plain) := by
  simp only [resortAel]
  exact (foldl_insert_perm _ _ _).trans ((takeAll_perm _ _).map _)

end

end River
