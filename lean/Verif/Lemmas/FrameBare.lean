import Verif.Lemmas.Frame

/-! # The output operations change nothing of the active edges but their bounds (any arithmetic) -/

namespace River
variable {K : Type}

/-- An edge without its output bound. -/
def Edge.bare (e : Edge K) : Edge K := { e with bound := none }

structure SameBare (st st' : St K) : Prop where
  ael : st'.ael.map Edge.bare = st.ael.map Edge.bare
  scan : st'.scan = st.scan
  mins : st'.mins = st.mins
  nextId : st'.nextId = st.nextId

theorem SameBare.refl (st : St K) : SameBare st st := ⟨rfl, rfl, rfl, rfl⟩

theorem SameBare.trans {a b c : St K} (h : SameBare a b) (g : SameBare b c) : SameBare a c :=
  ⟨g.ael.trans h.ael, g.scan.trans h.scan, g.mins.trans h.mins, g.nextId.trans h.nextId⟩

theorem setBound_bare (ael : List (Edge K)) (i : Nat) (b : Option Nat) :
    (setBound ael i b).map Edge.bare = ael.map Edge.bare := by
  rw [setBound, List.map_map]
  apply List.map_congr_left
  intro e _
  simp only [Function.comp]
  split <;> rfl

theorem clearEdge_bare (st : St K) (i : Nat) : (clearEdge st i).map Edge.bare = st.ael.map Edge.bare := by
  unfold clearEdge
  split
  · exact setBound_bare _ _ _
  · rfl

variable [FTrans K]

theorem newOutput_bare (st : St K) (a b : Edge K) : SameBare st (st.newOutput a b) :=
  ⟨by simp [St.newOutput, setBound_bare], rfl, rfl, rfl⟩

theorem updateBound_bare (st st' : St K) (i : Nat) (e : Edge K) (h : st.updateBound i e = some st') : SameBare st st' := by
  rw [St.updateBound] at h
  obtain ⟨o, _, rfl⟩ := Option.map_eq_some_iff.1 h
  exact ⟨setBound_bare _ _ _, rfl, rfl, rfl⟩

theorem join_bare (st st' : St K) (i j : Nat) (y : K) (h : st.join i j y = some st') : SameBare st st' := by
  rw [St.join] at h
  obtain ⟨o, _, rfl⟩ := Option.map_eq_some_iff.1 h
  exact ⟨by simp [clearEdge_bare], rfl, rfl, rfl⟩

theorem openPairs_bare (l : List (Edge K)) (st : St K) : SameBare st (openPairs st l).1 := by
  induction l using List.twoStepInduction generalizing st with
  | nil => exact SameBare.refl _
  | singleton a => exact SameBare.refl _
  | cons_cons a b l ih _ =>
    rw [openPairs]
    split
    · exact (newOutput_bare st a b).trans (ih _)
    · exact ih st

theorem connect_bare (y : K) (st st' : St K) (a b : Item K) (h : connect y st a b = some st') : SameBare st st' := by
  cases a with
  | edge e =>
    cases b with
    | edge f =>
      simp only [connect, Option.some.injEq] at h
      subst h; exact newOutput_bare _ _ _
    | bound j x => exact updateBound_bare _ _ _ _ h
  | bound i x =>
    cases b with
    | edge f => exact updateBound_bare _ _ _ _ h
    | bound j x' => exact join_bare _ _ _ _ _ h

theorem pairItems_bare (y : K) (fuel : Nat) (st st' : St K) (l : List (Item K)) (h : pairItems y fuel st l = some st') :
    SameBare st st' := by
  induction fuel generalizing st l with
  | zero =>
    cases l with
    | nil => simp only [pairItems, Option.some.injEq] at h; subst h; exact SameBare.refl _
    | cons a l => simp [pairItems] at h
  | succ fuel ih =>
    cases l with
    | nil => simp only [pairItems, Option.some.injEq] at h; subst h; exact SameBare.refl _
    | cons a l =>
      unfold pairItems at h
      dsimp only at h
      have key : ∀ m l', (connect y st a m).bind (fun st' => pairItems y fuel st' l') = some st' → SameBare st st' := by
        intro m l' h
        obtain ⟨st1, h1, h2⟩ := Option.bind_eq_some_iff.1 h
        exact (connect_bare _ _ _ _ _ h1).trans (ih _ _ h2)
      split at h
      · split at h
        · exact key _ _ h
        · split at h
          · exact key _ _ h
          · cases h
      · split at h
        · exact key _ _ h
        · cases h

theorem updateOutput_bare (rings : List (Ring K)) (ct : ClipType) (fr : FillRule) (y : K) (st st' : St K)
    (h : updateOutput rings ct fr y st = some st') : SameBare st st' := by
  rw [updateOutput] at h
  split at h
  · simp only [Option.some.injEq] at h; subst h; exact SameBare.refl _
  · simp only at h
    obtain ⟨obl, _, h2⟩ := Option.bind_eq_some_iff.1 h
    obtain ⟨st1, h3, h4⟩ := Option.bind_eq_some_iff.1 h2
    obtain ⟨l, _, rfl⟩ := Option.map_eq_some_iff.1 h4
    have h5 := (openPairs_bare (boundEdges rings ct fr st.ael) { st with changes := [] }).trans (pairItems_bare _ _ _ _ _ h3)
    exact ⟨h5.ael, h5.scan, h5.mins, h5.nextId⟩

theorem closeGo_bare (y : K) (fuel : Nat) (st st' : St K) (c : Nat) (h : closeGo y fuel st c = some st') : SameBare st st' := by
  induction fuel generalizing st c with
  | zero => simp [closeGo] at h
  | succ fuel ih =>
    rw [closeGo] at h
    obtain ⟨b, _, h2⟩ := Option.bind_eq_some_iff.1 h
    split at h2
    · simp only [Option.some.injEq] at h2; subst h2; exact SameBare.refl _
    · obtain ⟨bn, _, h3⟩ := Option.bind_eq_some_iff.1 h2
      obtain ⟨st1, h4, h5⟩ := Option.bind_eq_some_iff.1 h3
      have h6 : SameBare st st1 := by
        split at h4
        · exact join_bare _ _ _ _ _ h4
        · simp only [Option.some.injEq] at h4; subst h4; exact SameBare.refl _
      split at h5
      · simp only [Option.some.injEq] at h5; subst h5; exact h6
      · exact h6.trans (ih _ _ h5)

theorem closeOutput_bare (y : K) (st st' : St K) (h : closeOutput y st = some st') : SameBare st st' := by
  rw [closeOutput] at h
  split at h
  · simp only [Option.some.injEq] at h; subst h; exact SameBare.refl _
  · exact closeGo_bare _ _ _ _ _ h

theorem join_changes (st st' : St K) (i j : Nat) (y : K) (h : st.join i j y = some st') : st'.changes = st.changes := by
  rw [St.join] at h
  obtain ⟨o, _, rfl⟩ := Option.map_eq_some_iff.1 h
  rfl

theorem closeGo_changes (y : K) (fuel : Nat) (st st' : St K) (c : Nat) (h : closeGo y fuel st c = some st') :
    st'.changes = st.changes := by
  induction fuel generalizing st c with
  | zero => simp [closeGo] at h
  | succ fuel ih =>
    rw [closeGo] at h
    obtain ⟨b, _, h2⟩ := Option.bind_eq_some_iff.1 h
    split at h2
    · simp only [Option.some.injEq] at h2; subst h2; rfl
    · obtain ⟨bn, _, h3⟩ := Option.bind_eq_some_iff.1 h2
      obtain ⟨st1, h4, h5⟩ := Option.bind_eq_some_iff.1 h3
      have h6 : st1.changes = st.changes := by
        split at h4
        · exact join_changes _ _ _ _ _ h4
        · simp only [Option.some.injEq] at h4; subst h4; rfl
      split at h5
      · simp only [Option.some.injEq] at h5; subst h5; exact h6
      · exact (ih _ _ h5).trans h6

theorem closeOutput_changes (y : K) (st st' : St K) (h : closeOutput y st = some st') : st'.changes = st.changes := by
  rw [closeOutput] at h
  split at h
  · simp only [Option.some.injEq] at h; subst h; rfl
  · exact closeGo_changes _ _ _ _ _ h

end River
