import Verif.Props.DcelAgain
import Verif.Props.Planar

/-! # Break points between calls of `process` -/

namespace River
variable {K : Type}

/-- No half edge has break points. -/
def Dcel.Clean (d : Dcel K) : Prop := ∀ i, d.breaksOf i = []

theorem breaksOf_congr {d d' : Dcel K} {i : Nat} (h : d'.edges[i]? = d.edges[i]?) : d'.breaksOf i = d.breaksOf i := by
  unfold Dcel.breaksOf; rw [h]

theorem breaksOf_dead {d : Dcel K} {i : Nat} (h : d.edges[i]? = some none) : d.breaksOf i = [] := by
  unfold Dcel.breaksOf; rw [h]; rfl

theorem live_of_breaks {d : Dcel K} {i : Nat} (h : d.breaksOf i ≠ []) : i ∈ d.live := by
  rw [mem_live]
  unfold Dcel.breaksOf at h
  cases he : d.edges[i]? with
  | none => rw [he] at h; exact absurd rfl h
  | some x =>
    cases x with
    | none => rw [he] at h; exact absurd rfl h
    | some e => exact ⟨e, rfl⟩

theorem breaksOf_append {d d' : Dcel K} {new : List (Option (HEdge K))} (h : d'.edges = d.edges ++ new)
    (hn : ∀ x ∈ new, ∃ y : HEdge K, x = some y ∧ y.breaks = []) {i : Nat} (hi : d.edges.length ≤ i) : d'.breaksOf i = [] := by
  unfold Dcel.breaksOf
  rw [h, List.getElem?_append_right hi]
  cases hx : new[i - d.edges.length]? with
  | none => rfl
  | some x =>
    obtain ⟨y, rfl, hy⟩ := hn x (List.mem_of_getElem? hx)
    exact hy

theorem clean_append {d d' : Dcel K} (hc : d.Clean) {new : List (Option (HEdge K))} (h : d'.edges = d.edges ++ new)
    (hn : ∀ x ∈ new, ∃ y : HEdge K, x = some y ∧ y.breaks = []) : d'.Clean := by
  intro i
  rcases Nat.lt_or_ge i d.edges.length with hi | hi
  · rw [breaksOf_congr (d := d) (by rw [h, List.getElem?_append_left hi]), hc i]
  · exact breaksOf_append h hn hi

theorem clean_newLine {d : Dcel K} (h : d.Clean) (s e : Nat) : (d.newLine s e).1.Clean :=
  clean_append h (new := [some ⟨s, e, none, d.cur, []⟩]) rfl (by
    intro x hx
    rw [List.mem_singleton] at hx
    exact ⟨_, hx, rfl⟩)

theorem clean_run [FNum K] {d : Dcel K} (h : d.Clean) (c : DCall K) : (c.run d).Clean := by
  cases c with
  | type t => exact h
  | line x1 y1 x2 y2 =>
    change (d.addLine x1 y1 x2 y2).Clean
    unfold Dcel.addLine
    split
    · exact h
    · dsimp only
      apply clean_newLine
      intro i
      have := h i
      unfold Dcel.breaksOf at this ⊢
      rw [findOrAdd_edges, findOrAdd_edges]
      exact this

theorem chain_new [FNum K] (bp : List (Vec2 K)) : ∀ (d : Dcel K) (cur fin : Nat), ∃ new, (d.chain cur fin bp).1.edges = d.edges ++ new ∧
    (∀ x ∈ new, ∃ y : HEdge K, x = some y ∧ y.breaks = []) ∧ (d.chain cur fin bp).2 ≠ [] := by
  induction bp with
  | nil =>
    intro d cur fin
    refine ⟨[some _], rfl, ?_, by simp [Dcel.chain]⟩
    intro x hx
    rw [List.mem_singleton] at hx
    exact ⟨_, hx, rfl⟩
  | cons p ps ih =>
    intro d cur fin
    obtain ⟨new, h1, h2, _⟩ := ih ((d.findOrAdd p).1.newLine cur (d.findOrAdd p).2).1 (d.findOrAdd p).2 fin
    refine ⟨some ⟨cur, (d.findOrAdd p).2, none, (d.findOrAdd p).1.cur, []⟩ :: new, ?_, ?_, by simp [Dcel.chain]⟩
    · have : (d.chain cur fin (p :: ps)).1.edges =
          (((d.findOrAdd p).1.newLine cur (d.findOrAdd p).2).1.chain (d.findOrAdd p).2 fin ps).1.edges := rfl
      rw [this, h1]
      unfold Dcel.newLine
      dsimp only
      rw [findOrAdd_edges]
      simp
    · intro x hx
      rcases List.mem_cons.1 hx with rfl | hx
      · exact ⟨_, rfl, rfl⟩
      · exact h2 x hx

theorem breakOne_fate [FNum K] {sort : Vec2 K → Vec2 K → List (Vec2 K) → List (Vec2 K)} (hs : ∀ s e l, (sort s e l).Perm l) {d d' : Dcel K}
    {id : Nat} (hb : d.breakOne sort id = some d') : d.edges.length ≤ d'.edges.length ∧
      (∀ i, i < d.edges.length → d'.edges[i]? = if i = id ∧ d.breaksOf i ≠ [] then some none else d.edges[i]?) ∧
      (∀ i, d.edges.length ≤ i → d'.breaksOf i = []) ∧ (d.breaksOf id = [] → d' = d) := by
  unfold Dcel.breakOne at hb
  obtain ⟨o, ho, hb⟩ := Option.bind_eq_some_iff.1 hb
  obtain ⟨e, he, hb⟩ := Option.bind_eq_some_iff.1 hb
  obtain ⟨ps, hps, hb⟩ := Option.bind_eq_some_iff.1 hb
  obtain ⟨pe, hpe, hc⟩ := Option.bind_eq_some_iff.1 hb
  subst he
  clear hb
  rename' hc => hb
  dsimp only at hb
  have hbr := breaksOf_eq ho
  have hsort := hs ps.p pe.p e.breaks
  unfold Dcel.breakEdge at hb
  split at hb
  · rename_i hem
    have hnil : e.breaks = [] := by
      rw [List.isEmpty_iff] at hem
      rw [hem] at hsort
      exact hsort.symm.eq_nil
    simp only [List.isEmpty_nil, if_true, Option.some.injEq] at hb
    subst hb
    refine ⟨le_refl _, ?_, ?_, fun _ => rfl⟩
    · intro i _
      rw [if_neg]
      rintro ⟨rfl, h⟩
      exact h (hbr.trans hnil)
    · intro i hi
      unfold Dcel.breaksOf
      rw [List.getElem?_eq_none hi]
      rfl
  · rename_i hem
    have hnn : e.breaks ≠ [] := by
      intro h
      rw [h] at hsort hem
      rw [hsort.eq_nil] at hem
      exact hem rfl
    obtain ⟨new, h1, h2, h3⟩ := chain_new (sort ps.p pe.p e.breaks) d e.start e.fin
    rw [if_neg (by rw [List.isEmpty_iff]; exact h3)] at hb
    injection hb with hb
    subst hb
    have hlt : id < d.edges.length := (List.getElem?_eq_some_iff.1 ho).1
    refine ⟨by simp [h1], ?_, ?_, fun h => absurd (hbr.symm.trans h) hnn⟩
    · intro i hi
      dsimp only
      rw [h1, List.getElem?_set]
      by_cases hii : id = i
      · subst hii
        rw [if_pos rfl, if_pos (by simp; omega), if_pos ⟨rfl, by rw [hbr]; exact hnn⟩]
      · rw [if_neg hii, if_neg (fun h => hii h.1.symm), List.getElem?_append_left hi]
    · intro i hi
      refine breaksOf_append (d := { d with edges := d.edges.set id none }) (new := new) ?_ h2 (by simpa using hi)
      dsimp only
      rw [h1, List.set_append_left _ _ hlt]

theorem breakAll_fate [FNum K] {sort : Vec2 K → Vec2 K → List (Vec2 K) → List (Vec2 K)} (hs : ∀ s e l, (sort s e l).Perm l) (ids : List Nat) :
    ∀ {d d' : Dcel K}, d.breakAll sort ids = some d' →
      (∀ i, i < d.edges.length → d'.edges[i]? = if i ∈ ids ∧ d.breaksOf i ≠ [] then some none else d.edges[i]?) ∧
      (∀ i, d.edges.length ≤ i → d'.breaksOf i = []) ∧ (d.Clean → d' = d) := by
  induction ids with
  | nil =>
    intro d d' hb
    rw [Dcel.breakAll] at hb
    injection hb with hb
    subst hb
    refine ⟨by simp, ?_, fun _ => rfl⟩
    intro i hi
    unfold Dcel.breaksOf
    rw [List.getElem?_eq_none hi]
    rfl
  | cons id ids ih =>
    intro d d' hb
    rw [Dcel.breakAll] at hb
    obtain ⟨d1, h1, hb⟩ := Option.bind_eq_some_iff.1 hb
    obtain ⟨a1, a2, a3, a4⟩ := breakOne_fate hs h1
    obtain ⟨b1, b2, b3⟩ := ih hb
    refine ⟨?_, ?_, ?_⟩
    · intro i hi
      rw [b1 i (by omega)]
      by_cases hc : i = id ∧ d.breaksOf i ≠ []
      · have e1 := a2 i hi
        rw [if_pos hc] at e1
        rw [if_neg (fun h => h.2 (breaksOf_dead e1)), e1, if_pos ⟨by rw [hc.1]; simp, hc.2⟩]
      · have e1 := a2 i hi
        rw [if_neg hc] at e1
        rw [breaksOf_congr e1, e1]
        refine if_congr ?_ rfl rfl
        simp only [List.mem_cons]
        tauto
    · intro i hi
      rcases Nat.lt_or_ge i d1.edges.length with hi' | hi'
      · have e1 := b1 i hi'
        have e0 := a3 i hi
        rw [if_neg (fun h => h.2 e0)] at e1
        rw [breaksOf_congr e1, e0]
      · exact b2 i hi'
    · intro hc
      have e1 := a4 (hc id)
      subst e1
      exact b3 hc

theorem clean_processBreak [FNum K] {o : DOrder K} (ho : o.Ok) {d d2 : Dcel K} (hb : d.processBreak o = some d2) : d2.Clean := by
  unfold Dcel.processBreak at hb
  obtain ⟨d1, _, k2⟩ := Option.bind_eq_some_iff.1 hb
  obtain ⟨a, b, _⟩ := breakAll_fate ho.sortB _ k2
  intro i
  rcases Nat.lt_or_ge i d1.edges.length with hi | hi
  · have e1 := a i hi
    split at e1
    · exact breaksOf_dead e1
    · rename_i hn
      rw [breaksOf_congr e1]
      by_contra hc
      exact hn ⟨(ho.iter _).mem_iff.2 (live_of_breaks hc), hc⟩
  · exact b i hi

theorem clean_buildTwins (ids : List Nat) : ∀ {d d' : Dcel K}, d.Clean → d.buildTwins ids = some d' → d'.Clean := by
  induction ids with
  | nil => intro d d' h hb; rw [Dcel.buildTwins] at hb; injection hb with hb; rw [← hb]; exact h
  | cons id ids ih =>
    intro d d' h hb
    rw [Dcel.buildTwins] at hb
    obtain ⟨d1, h1, hb⟩ := Option.bind_eq_some_iff.1 hb
    refine ih ?_ hb
    unfold Dcel.buildTwin at h1
    obtain ⟨o, ho, h1⟩ := Option.bind_eq_some_iff.1 h1
    obtain ⟨e, he, h1⟩ := Option.bind_eq_some_iff.1 h1
    injection h1 with h1
    have hal : ∀ (l : List (Option (HEdge K))) (j t : Nat), (∀ i : Nat, ((l[i]?.join).map HEdge.breaks).getD [] = []) →
        ∀ i : Nat, (((l.modify j (Option.map fun x => { x with twin := some t }))[i]?.join).map HEdge.breaks).getD [] = [] := by
      intro l j t hD i
      have := hD i
      rw [List.getElem?_modify]
      split
      · cases hx : l[i]? with
        | none => rfl
        | some x =>
          rw [hx] at this
          cases x with
          | none => rfl
          | some y => exact this
      · rw [show ((fun a => a) <$> l[i]?) = l[i]? from by cases l[i]? <;> rfl]; exact this
    rw [← h1]
    exact hal _ _ _ (hal _ _ _ (clean_newLine h e.fin e.start))

theorem clean_history [FNum K] {o : DOrder K} (ho : o.Ok) (steps : List (DStep K)) : ∀ {r r' : Dcel K × WalkSt}, r.1.Clean →
    steps.foldlM (DStep.run o) r = some r' → r'.1.Clean := by
  induction steps with
  | nil => intro r r' h hr; rw [List.foldlM_nil] at hr; injection hr with hr; rw [← hr]; exact h
  | cons c steps ih =>
    intro r r' h hr
    rw [List.foldlM_cons] at hr
    obtain ⟨m, h1, h2⟩ := Option.bind_eq_some_iff.1 hr
    refine ih ?_ h2
    cases c with
    | call c =>
      simp only [DStep.run, Option.some.injEq] at h1
      rw [← h1]
      exact clean_run h c
    | process =>
      simp only [DStep.run] at h1
      unfold Dcel.processAgain at h1
      obtain ⟨d2, h3, h1⟩ := Option.bind_eq_some_iff.1 h1
      obtain ⟨d3, h4, h1⟩ := Option.bind_eq_some_iff.1 h1
      obtain ⟨_, _, h1⟩ := Option.map_eq_some_iff.1 h1
      rw [← h1]
      exact clean_buildTwins _ (clean_processBreak ho h3) h4

theorem clean_empty : (⟨.subject, [], []⟩ : Dcel K).Clean := by intro i; simp [Dcel.breaksOf]

theorem clean_calls [FNum K] (calls : List (DCall K)) : ∀ {d : Dcel K}, d.Clean → (calls.foldl DCall.run d).Clean := by
  induction calls with
  | nil => intro d h; exact h
  | cons c calls ih => intro d h; exact ih (clean_run h c)

end River
