import Verif.Lemmas.Walk
import Verif.Props.Dcel

/-! # The lists of the points name exactly the half edges that exist -/

namespace River
variable {K : Type}

/-- The end of half edge `e` an entry with this flag stands at. -/
def HEdge.at (e : HEdge K) (b : Bool) : Nat := if b then e.start else e.fin

/-- Every point's list holds exactly the half edges that begin or end there; half edges join existing points. -/
structure Dcel.Wf (d : Dcel K) : Prop where
  ends : ∀ (i : Nat) (e : HEdge K), d.edges[i]? = some (some e) → e.start < d.points.length ∧ e.fin < d.points.length
  entry : ∀ (p : Nat) (q : DPoint K), d.points[p]? = some q → ∀ x b, (⟨x, b⟩ : PEdge) ∈ q.edges ↔
    ∃ e, d.edges[x]? = some (some e) ∧ e.at b = p

theorem Dcel.Wf.empty (t : PathType) : (Dcel.empty t : Dcel K).Wf := ⟨by simp [Dcel.empty], by simp [Dcel.empty]⟩

theorem Dcel.Wf.cur {d : Dcel K} (h : d.Wf) (t : PathType) : ({ d with cur := t } : Dcel K).Wf := ⟨h.ends, h.entry⟩

theorem Dcel.Wf.findOrAdd [FNum K] {d : Dcel K} (h : d.Wf) (q : Vec2 K) : (d.findOrAdd q).1.Wf ∧
    (d.findOrAdd q).2 < (d.findOrAdd q).1.points.length ∧ d.points.length ≤ (d.findOrAdd q).1.points.length ∧
    (d.findOrAdd q).1.edges = d.edges := by
  unfold Dcel.findOrAdd
  cases hf : d.points.findIdx? (fun p => vec2Equiv p.p q) with
  | some i =>
    refine ⟨h, ?_, le_refl _, rfl⟩
    exact (List.findIdx?_eq_some_iff_findIdx_eq.1 hf).1
  | none =>
    refine ⟨⟨?_, ?_⟩, by simp, by simp, rfl⟩
    · intro i e he
      obtain ⟨h1, h2⟩ := h.ends i e he
      simp only [List.length_append, List.length_singleton]
      omega
    · intro p r hp x b
      by_cases hlt : p < d.points.length
      · have : d.points[p]? = some r := by
          dsimp only at hp
          rwa [List.getElem?_append_left hlt] at hp
        exact h.entry p r this x b
      · dsimp only at hp
        rw [List.getElem?_append_right (by omega)] at hp
        have hr : r = ⟨q, []⟩ := by
          cases hk : p - d.points.length with
          | zero => rw [hk] at hp; simpa using hp.symm
          | succ k => rw [hk] at hp; simp at hp
        subst hr
        simp only [List.not_mem_nil, false_iff, not_exists, not_and]
        intro e he hat
        obtain ⟨h1, h2⟩ := h.ends x e he
        unfold HEdge.at at hat
        split at hat <;> omega

theorem addPEdge_get (pts : List (DPoint K)) (i : Nat) (pe : PEdge) (p : Nat) :
    (addPEdge pts i pe)[p]? = (pts[p]?).map (fun q => if i = p then { q with edges := q.edges ++ [pe] } else q) := by
  unfold addPEdge
  rw [List.getElem?_modify]
  cases pts[p]? <;> simp

theorem removePEdge_get (pts : List (DPoint K)) (i id p : Nat) : (removePEdge pts i id)[p]? =
    (pts[p]?).map (fun q => if i = p then { q with edges := q.edges.filter (fun pe => pe.edge != id) } else q) := by
  unfold removePEdge
  rw [List.getElem?_modify]
  cases pts[p]? <;> simp

theorem addPEdge_length (pts : List (DPoint K)) (i : Nat) (pe : PEdge) : (addPEdge pts i pe).length = pts.length := by
  unfold addPEdge; simp

theorem removePEdge_length (pts : List (DPoint K)) (i id : Nat) : (removePEdge pts i id).length = pts.length := by
  unfold removePEdge; simp

theorem Dcel.Wf.newLine {d : Dcel K} (h : d.Wf) (s e : Nat) (hs : s < d.points.length) (he : e < d.points.length) :
    (d.newLine s e).1.Wf ∧ (d.newLine s e).1.points.length = d.points.length := by
  unfold Dcel.newLine
  dsimp only
  refine ⟨⟨?_, ?_⟩, by rw [addPEdge_length, addPEdge_length]⟩
  · intro i x hx
    dsimp only at hx ⊢
    rw [addPEdge_length, addPEdge_length]
    by_cases hi : i < d.edges.length
    · rw [List.getElem?_append_left hi] at hx
      exact h.ends i x hx
    · rw [List.getElem?_append_right (by omega)] at hx
      cases hk : i - d.edges.length with
      | zero =>
        rw [hk] at hx
        simp at hx
        subst hx
        exact ⟨hs, he⟩
      | succ k => rw [hk] at hx; simp at hx
  · intro p q hq x b
    dsimp only at hq ⊢
    rw [addPEdge_get, addPEdge_get, Option.map_map] at hq
    obtain ⟨r, hr, hqr⟩ := Option.map_eq_some_iff.1 hq
    have hold := h.entry p r hr x b
    have hq' : (⟨x, b⟩ : PEdge) ∈ q.edges ↔ (⟨x, b⟩ : PEdge) ∈ r.edges ∨ (x = d.edges.length ∧ (if b then s else e) = p) := by
      rw [← hqr]
      simp only [Function.comp]
      by_cases h1 : s = p <;> by_cases h2 : e = p <;> cases b <;> simp [h1, h2]
    rw [hq', hold]
    have hkey : ∀ y : HEdge K, (d.edges ++ [some ⟨s, e, none, d.cur, []⟩])[x]? = some (some y) ↔
        d.edges[x]? = some (some y) ∨ (x = d.edges.length ∧ y = ⟨s, e, none, d.cur, []⟩) := by
      intro y
      by_cases hx : x < d.edges.length
      · rw [List.getElem?_append_left hx]
        constructor
        · exact Or.inl
        · rintro (h | ⟨h, _⟩)
          · exact h
          · omega
      · rw [List.getElem?_append_right (by omega), List.getElem?_eq_none (by omega : d.edges.length ≤ x)]
        cases hk : x - d.edges.length with
        | zero =>
          have : x = d.edges.length := by omega
          simp [this, eq_comm]
        | succ k =>
          have : x ≠ d.edges.length := by omega
          simp [this]
    constructor
    · rintro (⟨y, hy, hat⟩ | ⟨hx, hp⟩)
      · exact ⟨y, (hkey y).2 (Or.inl hy), hat⟩
      · exact ⟨_, (hkey _).2 (Or.inr ⟨hx, rfl⟩), hp⟩
    · rintro ⟨y, hy, hat⟩
      rcases (hkey y).1 hy with hy | ⟨hx, rfl⟩
      · exact Or.inl ⟨y, hy, hat⟩
      · exact Or.inr ⟨hx, hat⟩

theorem Dcel.Wf.addLine [FNum K] {d : Dcel K} (h : d.Wf) (x1 y1 x2 y2 : K) : (d.addLine x1 y1 x2 y2).Wf := by
  unfold Dcel.addLine
  split
  · exact h
  · obtain ⟨a1, a2, a3, _⟩ := h.findOrAdd ⟨x1, y1⟩
    obtain ⟨b1, b2, b3, _⟩ := a1.findOrAdd ⟨x2, y2⟩
    exact (b1.newLine _ _ (lt_of_lt_of_le a2 b3) b2).1

/-- Changing fields of half edges other than the ends keeps the structure. -/
theorem Dcel.Wf.modify {d : Dcel K} (h : d.Wf) (i : Nat) (f : HEdge K → HEdge K) (hf : ∀ e, (f e).start = e.start ∧ (f e).fin = e.fin) :
    ({ d with edges := d.edges.modify i (Option.map f) } : Dcel K).Wf := by
  have hat : ∀ e b, (f e).at b = e.at b := by
    intro e b
    unfold HEdge.at
    rw [(hf e).1, (hf e).2]
  refine ⟨?_, ?_⟩
  · intro j e he
    dsimp only at he ⊢
    rw [getElem?_modify_map] at he
    split at he
    · obtain ⟨o, ho, hoe⟩ := Option.map_eq_some_iff.1 he
      obtain ⟨e', rfl, rfl⟩ := Option.map_eq_some_iff.1 hoe
      have := h.ends j e' ho
      rw [(hf e').1, (hf e').2]
      exact this
    · exact h.ends j e he
  · intro p q hq x b
    rw [h.entry p q hq x b]
    dsimp only
    rw [getElem?_modify_map]
    split
    · constructor
      · rintro ⟨e, he, hb⟩
        exact ⟨f e, by rw [he]; rfl, by rw [hat]; exact hb⟩
      · rintro ⟨e, he, hb⟩
        obtain ⟨o, ho, hoe⟩ := Option.map_eq_some_iff.1 he
        obtain ⟨e', rfl, rfl⟩ := Option.map_eq_some_iff.1 hoe
        exact ⟨e', ho, by rw [← hat]; exact hb⟩
    · exact Iff.rfl

theorem Dcel.Wf.addBreaks [FNum K] {d : Dcel K} (h : d.Wf) (i : Nat) (bs : List (Vec2 K)) : (d.addBreaks i bs).Wf :=
  h.modify i _ (fun _ => ⟨rfl, rfl⟩)

theorem Dcel.Wf.meet [FNum K] {d d' : Dcel K} (h : d.Wf) (l r : Nat) (hm : d.meet l r = some d') : d'.Wf := by
  unfold Dcel.meet at hm
  obtain ⟨_, _, hm⟩ := Option.bind_eq_some_iff.1 hm
  obtain ⟨_, _, hm⟩ := Option.bind_eq_some_iff.1 hm
  obtain ⟨_, _, hm⟩ := Option.bind_eq_some_iff.1 hm
  injection hm with hm
  rw [← hm]
  exact (h.addBreaks _ _).addBreaks _ _

theorem Dcel.Wf.meetAll [FNum K] (cs : List (Nat × Nat)) : ∀ {d d' : Dcel K}, d.Wf → d.meetAll cs = some d' → d'.Wf := by
  induction cs with
  | nil =>
    intro d d' h hm
    rw [Dcel.meetAll] at hm
    injection hm with hm
    rw [← hm]; exact h
  | cons c cs ih =>
    intro d d' h hm
    rw [Dcel.meetAll] at hm
    obtain ⟨d1, h1, hm⟩ := Option.bind_eq_some_iff.1 hm
    exact ih (h.meet _ _ h1) hm

theorem Dcel.Wf.chain [FNum K] (bp : List (Vec2 K)) : ∀ {d : Dcel K}, d.Wf → ∀ cur fin, cur < d.points.length → fin < d.points.length →
    (d.chain cur fin bp).1.Wf ∧ d.points.length ≤ (d.chain cur fin bp).1.points.length ∧ d.edges <+: (d.chain cur fin bp).1.edges := by
  induction bp with
  | nil =>
    intro d h cur fin hc hf
    obtain ⟨h1, h2⟩ := h.newLine cur fin hc hf
    exact ⟨h1, le_of_eq h2.symm, List.prefix_append _ _⟩
  | cons p ps ih =>
    intro d h cur fin hc hf
    obtain ⟨a1, a2, a3, a4⟩ := h.findOrAdd p
    obtain ⟨b1, b2⟩ := a1.newLine cur (d.findOrAdd p).2 (by omega) a2
    obtain ⟨c1, c2, c3⟩ := ih b1 (d.findOrAdd p).2 fin (by omega) (by omega)
    refine ⟨c1, by show d.points.length ≤ _; rw [b2] at c2; exact le_trans a3 c2, ?_⟩
    show d.edges <+: _
    have : d.edges <+: ((d.findOrAdd p).1.newLine cur (d.findOrAdd p).2).1.edges := by
      rw [← a4]
      exact List.prefix_append _ _
    exact this.trans c3

theorem Dcel.Wf.remove {d : Dcel K} (h : d.Wf) (id : Nat) (e : HEdge K) (he : d.edges[id]? = some (some e)) :
    ({ d with edges := d.edges.set id none, points := removePEdge (removePEdge d.points e.start id) e.fin id } : Dcel K).Wf := by
  have hset : ∀ (x : Nat) (y : HEdge K), (d.edges.set id none)[x]? = some (some y) ↔ d.edges[x]? = some (some y) ∧ x ≠ id := by
    intro x y
    rw [List.getElem?_set]
    split
    · rename_i hx
      subst hx
      split <;> simp
    · rename_i hx
      have : x ≠ id := fun h => hx h.symm
      simp [this]
  refine ⟨?_, ?_⟩
  · intro i y hy
    dsimp only at hy ⊢
    rw [removePEdge_length, removePEdge_length]
    exact h.ends i y ((hset i y).1 hy).1
  · intro p q hq x b
    dsimp only at hq ⊢
    rw [removePEdge_get, removePEdge_get, Option.map_map] at hq
    obtain ⟨r, hr, hqr⟩ := Option.map_eq_some_iff.1 hq
    have hold := h.entry p r hr x b
    have hq' : (⟨x, b⟩ : PEdge) ∈ q.edges ↔ (⟨x, b⟩ : PEdge) ∈ r.edges ∧ ¬ ((e.start = p ∨ e.fin = p) ∧ x = id) := by
      rw [← hqr]
      simp only [Function.comp]
      by_cases h1 : e.start = p <;> by_cases h2 : e.fin = p <;> simp [h1, h2]
    rw [hq', hold]
    constructor
    · rintro ⟨⟨y, hy, hat⟩, hno⟩
      refine ⟨y, (hset x y).2 ⟨hy, ?_⟩, hat⟩
      rintro rfl
      rw [he] at hy
      simp at hy
      subst hy
      apply hno
      refine ⟨?_, rfl⟩
      unfold HEdge.at at hat
      split at hat
      · exact Or.inl hat
      · exact Or.inr hat
    · rintro ⟨y, hy, hat⟩
      obtain ⟨h1, h2⟩ := (hset x y).1 hy
      exact ⟨⟨y, h1, hat⟩, fun hh => h2 hh.2⟩

theorem Dcel.Wf.breakOne [FNum K] {sort : Vec2 K → Vec2 K → List (Vec2 K) → List (Vec2 K)} {d d' : Dcel K} (h : d.Wf) (id : Nat)
    (hb : d.breakOne sort id = some d') : d'.Wf := by
  unfold Dcel.breakOne at hb
  obtain ⟨o, ho, hb⟩ := Option.bind_eq_some_iff.1 hb
  obtain ⟨e, he, hb⟩ := Option.bind_eq_some_iff.1 hb
  obtain ⟨ps, hps, hb⟩ := Option.bind_eq_some_iff.1 hb
  obtain ⟨pe, hpe, hc⟩ := Option.bind_eq_some_iff.1 hb
  subst he
  clear hb
  rename' hc => hb
  dsimp only at hb
  unfold Dcel.breakEdge at hb
  split at hb
  · simp only [List.isEmpty_nil, if_true, Option.some.injEq] at hb
    rw [← hb]; exact h
  · obtain ⟨h1, h2⟩ := h.ends id e ho
    obtain ⟨c1, c2, c3⟩ := Dcel.Wf.chain (sort ps.p pe.p e.breaks) h e.start e.fin h1 h2
    split at hb
    · injection hb with hb
      rw [← hb]; exact c1
    · injection hb with hb
      rw [← hb]
      apply c1.remove id e
      obtain ⟨t, ht⟩ := c3
      obtain ⟨hi, _⟩ := List.getElem?_eq_some_iff.1 ho
      rw [← ht, List.getElem?_append_left hi]
      exact ho

theorem Dcel.Wf.breakAll [FNum K] {sort : Vec2 K → Vec2 K → List (Vec2 K) → List (Vec2 K)} (ids : List Nat) : ∀ {d d' : Dcel K}, d.Wf →
    d.breakAll sort ids = some d' → d'.Wf := by
  induction ids with
  | nil =>
    intro d d' h hb
    rw [Dcel.breakAll] at hb
    injection hb with hb
    rw [← hb]; exact h
  | cons id ids ih =>
    intro d d' h hb
    rw [Dcel.breakAll] at hb
    obtain ⟨d1, h1, hb⟩ := Option.bind_eq_some_iff.1 hb
    exact ih (h.breakOne id h1) hb

theorem Dcel.Wf.buildTwin {d d' : Dcel K} (h : d.Wf) (id : Nat) (hb : d.buildTwin id = some d') : d'.Wf := by
  unfold Dcel.buildTwin at hb
  obtain ⟨o, ho, hb⟩ := Option.bind_eq_some_iff.1 hb
  obtain ⟨e, he, hb⟩ := Option.bind_eq_some_iff.1 hb
  subst he
  injection hb with hb
  rw [← hb]
  obtain ⟨h1, h2⟩ := h.ends id e ho
  have hn := (h.newLine e.fin e.start h2 h1).1
  have hm := hn.modify (d.newLine e.fin e.start).2 (fun x => { x with twin := some id }) (fun _ => ⟨rfl, rfl⟩)
  exact hm.modify id (fun x => { x with twin := some (d.newLine e.fin e.start).2 }) (fun _ => ⟨rfl, rfl⟩)

theorem Dcel.Wf.buildTwins (ids : List Nat) : ∀ {d d' : Dcel K}, d.Wf → d.buildTwins ids = some d' → d'.Wf := by
  induction ids with
  | nil =>
    intro d d' h hb
    rw [Dcel.buildTwins] at hb
    injection hb with hb
    rw [← hb]; exact h
  | cons id ids ih =>
    intro d d' h hb
    rw [Dcel.buildTwins] at hb
    obtain ⟨d1, h1, hb⟩ := Option.bind_eq_some_iff.1 hb
    exact ih (h.buildTwin id h1) hb

end River
