import Verif.Props.Walk
import Verif.Spec.Planar

/-! # The half edges of a structure before and after breaking, by their end points -/

namespace River
variable {K : Type}

/-- Neighbours of a list. -/
def neighbours {α : Type} : List α → List (α × α)
  | a :: b :: l => (a, b) :: neighbours (b :: l)
  | _ => []

/-- The coordinates of point number `i`. -/
def Dcel.pos (d : Dcel K) (i : Nat) : Option (Vec2 K) := (d.points.map (·.p))[i]?

theorem pos_eq (d : Dcel K) (i : Nat) : d.pos i = (d.points[i]?).map (·.p) := by
  unfold Dcel.pos; rw [List.getElem?_map]

theorem ends_iff (d : Dcel K) (i : Nat) (a b : Vec2 K) : d.ends i = some (a, b) ↔
    ∃ e, d.edges[i]? = some (some e) ∧ d.pos e.start = some a ∧ d.pos e.fin = some b := by
  unfold Dcel.ends
  simp only [pos_eq]
  constructor
  · intro h
    obtain ⟨o, h1, h⟩ := Option.bind_eq_some_iff.1 h
    obtain ⟨e, h2, h⟩ := Option.bind_eq_some_iff.1 h
    obtain ⟨s, h3, h⟩ := Option.bind_eq_some_iff.1 h
    obtain ⟨f, h4, h5⟩ := Option.bind_eq_some_iff.1 h
    rw [Option.some.injEq, Prod.mk.injEq] at h5
    exact ⟨e, by rw [h1, h2], by rw [h3, ← h5.1]; rfl, by rw [h4, ← h5.2]; rfl⟩
  · rintro ⟨e, h1, h2, h3⟩
    obtain ⟨s, h4, rfl⟩ := Option.map_eq_some_iff.1 h2
    obtain ⟨f, h5, rfl⟩ := Option.map_eq_some_iff.1 h3
    rw [h1]
    simp [h4, h5]

theorem leads_iff (d : Dcel K) (i : Nat) (a b : Vec2 K) : d.Leads i a b ↔ d.ends i = some (a, b) := by
  rw [ends_iff]
  simp only [pos_eq]
  constructor
  · rintro ⟨m, n, p, q, ⟨e, he, rfl, rfl⟩, hm, hn, rfl, rfl⟩
    exact ⟨e, he, by rw [hm]; rfl, by rw [hn]; rfl⟩
  · rintro ⟨e, he, h2, h3⟩
    obtain ⟨p, h4, rfl⟩ := Option.map_eq_some_iff.1 h2
    obtain ⟨q, h5, rfl⟩ := Option.map_eq_some_iff.1 h3
    exact ⟨e.start, e.fin, p, q, ⟨e, he, rfl, rfl⟩, h4, h5, rfl, rfl⟩

/-- The break points recorded at half edge number `i`. -/
def Dcel.breaksOf (d : Dcel K) (i : Nat) : List (Vec2 K) := ((d.edges[i]?.join).map HEdge.breaks).getD []

theorem breaksOf_eq {d : Dcel K} {i : Nat} {e : HEdge K} (h : d.edges[i]? = some (some e)) : d.breaksOf i = e.breaks := by
  unfold Dcel.breaksOf; rw [h]; rfl

/-! ## What has been added -/

section added
variable [FNum K] [LinearOrder K] [LawfulOrd K]

/-- The half edges are the lines of `L`, in order, and have no break points; no two points have the same coordinates. -/
structure Dcel.Holds (d : Dcel K) (L : List (Vec2 K × Vec2 K)) : Prop where
  nodup : (d.points.map (·.p)).Nodup
  len : d.edges.length = L.length
  ends : ∀ i, d.ends i = L[i]?
  fresh : ∀ i, d.breaksOf i = []

omit [FNum K] [LinearOrder K] [LawfulOrd K] in
theorem Dcel.Grows.ends {d d' : Dcel K} (h : d.Grows d') {i : Nat} {a b : Vec2 K} (he : d.ends i = some (a, b)) : d'.ends i = some (a, b) := by
  rw [ends_iff] at he ⊢
  obtain ⟨e, h1, h2, h3⟩ := he
  exact ⟨e, h.edge _ _ h1, h.point _ _ h2, h.point _ _ h3⟩

theorem holds_addLine {d : Dcel K} {L : List (Vec2 K × Vec2 K)} (h : d.Holds L) (x1 y1 x2 y2 : K) (hne : ¬ (x1 = x2 ∧ y1 = y2)) :
    (d.addLine x1 y1 x2 y2).Holds (L ++ [(⟨x1, y1⟩, ⟨x2, y2⟩)]) := by
  have hc : ((x1 ==. x2) && (y1 ==. y2)) = false := by
    rw [Bool.eq_false_iff]
    simp only [eq_eq_decide, ne_eq, Bool.and_eq_true, decide_eq_true_eq]
    exact hne
  have g1 := findOrAdd_grows d ⟨x1, y1⟩ h.nodup
  have s1 := findOrAdd_spec d ⟨x1, y1⟩ h.nodup
  have heq : d.addLine x1 y1 x2 y2 = (((d.findOrAdd ⟨x1, y1⟩).1.findOrAdd ⟨x2, y2⟩).1.newLine (d.findOrAdd ⟨x1, y1⟩).2
      ((d.findOrAdd ⟨x1, y1⟩).1.findOrAdd ⟨x2, y2⟩).2).1 := by
    unfold Dcel.addLine; rw [hc]; rfl
  rw [heq]
  obtain ⟨d1, hd1⟩ : ∃ d1, d1 = (d.findOrAdd ⟨x1, y1⟩).1 := ⟨_, rfl⟩
  rw [← hd1] at g1 s1 ⊢
  have g2 := findOrAdd_grows d1 ⟨x2, y2⟩ g1.nodup
  have s2 := findOrAdd_spec d1 ⟨x2, y2⟩ g1.nodup
  obtain ⟨d2, hd2⟩ : ∃ d2, d2 = (d1.findOrAdd ⟨x2, y2⟩).1 := ⟨_, rfl⟩
  rw [← hd2] at g2 s2 ⊢
  obtain ⟨m, hm⟩ : ∃ m, m = (d.findOrAdd ⟨x1, y1⟩).2 := ⟨_, rfl⟩
  obtain ⟨n, hn⟩ : ∃ n, n = (d1.findOrAdd ⟨x2, y2⟩).2 := ⟨_, rfl⟩
  rw [← hm] at s1 ⊢
  rw [← hn] at s2 ⊢
  have g3 := newLine_grows d2 m n g2.nodup
  have e3 := newLine_edge d2 m n
  have hE : (d2.newLine m n).1.edges = d.edges ++ [some ⟨m, n, none, d2.cur, []⟩] := by
    show d2.edges ++ _ = _
    rw [s2.2.2.1, s1.2.2.1]
  have hid : (d2.newLine m n).2 = d.edges.length := by
    show d2.edges.length = _
    rw [s2.2.2.1, s1.2.2.1]
  rw [hid] at e3
  refine ⟨g3.nodup, by rw [hE, List.length_append, List.length_append, h.len]; rfl, ?_, ?_⟩
  · intro i
    rcases lt_trichotomy i L.length with hi | hi | hi
    · rw [List.getElem?_append_left hi]
      have := h.ends i
      rw [List.getElem?_eq_getElem hi] at this ⊢
      exact g3.ends (g2.ends (g1.ends this))
    · subst hi
      rw [List.getElem?_append_right (le_refl _)]
      simp only [Nat.sub_self, List.getElem?_cons_zero]
      rw [ends_iff]
      rw [h.len] at e3
      refine ⟨_, e3, ?_, ?_⟩
      · exact g3.point _ _ (g2.point _ _ s1.2.1)
      · exact g3.point _ _ s2.2.1
    · rw [List.getElem?_eq_none (by simp; omega)]
      unfold Dcel.ends
      rw [List.getElem?_eq_none (by rw [hE, List.length_append, h.len]; simp; omega)]
      rfl
  · intro i
    by_cases hi : i < d.edges.length
    · have := h.fresh i
      unfold Dcel.breaksOf at this ⊢
      rw [hE, List.getElem?_append_left hi]
      exact this
    · by_cases hi' : i = d.edges.length
      · subst hi'
        rw [breaksOf_eq e3]
      · unfold Dcel.breaksOf
        rw [List.getElem?_eq_none (by rw [hE, List.length_append]; simp; omega)]
        rfl

theorem holds_after (calls : List (DCall K)) : (Dcel.after calls).Holds (linesOf calls) := by
  unfold Dcel.after
  suffices ∀ (d : Dcel K) (L), d.Holds L → (calls.foldl DCall.run d).Holds (L ++ linesOf calls) by
    simpa using this ⟨.subject, [], []⟩ [] ⟨by simp, rfl, fun i => by simp [Dcel.ends], fun i => by simp [Dcel.breaksOf]⟩
  induction calls with
  | nil => intro d L h; simpa [linesOf] using h
  | cons c cs ih =>
    intro d L h
    rw [List.foldl_cons]
    cases c with
    | type t => exact ih _ L ⟨h.nodup, h.len, h.ends, h.fresh⟩
    | line x1 y1 x2 y2 =>
      by_cases hc : x1 = x2 ∧ y1 = y2
      · have e1 : DCall.run d (.line x1 y1 x2 y2) = d := by
          show d.addLine x1 y1 x2 y2 = d
          unfold Dcel.addLine
          rw [if_pos (by simp [eq_eq_decide, hc])]
        have e2 : linesOf (.line x1 y1 x2 y2 :: cs) = linesOf cs := by simp [linesOf, hc]
        rw [e1, e2]
        exact ih d L h
      · have e2 : linesOf (.line x1 y1 x2 y2 :: cs) = (⟨x1, y1⟩, ⟨x2, y2⟩) :: linesOf cs := by
          unfold linesOf
          rw [List.filterMap_cons_some]
          simp [hc]
        rw [e2]
        have := ih _ _ (holds_addLine h x1 y1 x2 y2 hc)
        rwa [List.append_assoc] at this

end added

/-! ## Recorded break points -/

section recorded
variable [FNum K] [LinearOrder K] [LawfulOrd K]

theorem foldl_insertBreak (bs : List (Vec2 K)) : ∀ l : List (Vec2 K), l.Pairwise (fun a b => vec2Less a b = true) →
    (bs.foldl (fun l b => insertBreak b l) l).Pairwise (fun a b => vec2Less a b = true) ∧
      ∀ z, z ∈ bs.foldl (fun l b => insertBreak b l) l ↔ z ∈ l ∨ z ∈ bs := by
  induction bs with
  | nil => intro l h; simpa using h
  | cons b bs ih =>
    intro l h
    obtain ⟨h1, h2⟩ := insertBreak_spec b l h
    obtain ⟨k1, k2⟩ := ih _ h1
    refine ⟨k1, fun z => ?_⟩
    rw [List.foldl_cons, k2, h2, List.mem_cons]
    tauto

/-- The break points of every half edge are strictly ascending. -/
def Dcel.Ascending (d : Dcel K) : Prop := ∀ i, (d.breaksOf i).Pairwise (fun a b => vec2Less a b = true)

omit [LinearOrder K] [LawfulOrd K] in
theorem addBreaks_breaksOf (d : Dcel K) (k : Nat) (bs : List (Vec2 K)) (i : Nat) :
    (d.addBreaks k bs).breaksOf i = if i = k ∧ i ∈ d.live then bs.foldl (fun l b => insertBreak b l) (d.breaksOf i) else d.breaksOf i := by
  unfold Dcel.breaksOf Dcel.addBreaks
  dsimp only
  rw [getElem?_modify_map]
  by_cases h : k = i
  · subst h
    rw [if_pos rfl]
    cases he : d.edges[k]? with
    | none =>
      rw [if_neg]
      · simp
      · rintro ⟨_, h2⟩
        rw [mem_live, he] at h2
        simp at h2
    | some o =>
      cases o with
      | none =>
        rw [if_neg]
        · simp
        · rintro ⟨_, h2⟩
          rw [mem_live, he] at h2
          simp at h2
      | some e =>
        rw [if_pos ⟨rfl, (mem_live _ _).2 ⟨e, he⟩⟩]
        rfl
  · rw [if_neg h, if_neg (fun hh => h hh.1.symm)]

/-- Recording the intersections of pairs of half edges: afterwards a half edge has its old break points and those that `intersect`
reports for it in one of the pairs. -/
theorem meetAll_breaks (cs : List (Nat × Nat)) : ∀ (d d' : Dcel K), d.Ascending → d.meetAll cs = some d' →
    d'.Ascending ∧ d'.live = d.live ∧ (∀ i, d'.ends i = d.ends i) ∧ d'.points = d.points ∧
    ∀ i ∈ d.live, ∀ z, z ∈ d'.breaksOf i ↔ z ∈ d.breaksOf i ∨ ∃ c ∈ cs, ∃ p0 p1 p2 p3 bl br, d.ends c.1 = some (p0, p1) ∧
      d.ends c.2 = some (p2, p3) ∧ dcelIntersect p0 p1 p2 p3 = some (bl, br) ∧ ((i = c.1 ∧ z ∈ bl) ∨ (i = c.2 ∧ z ∈ br)) := by
  induction cs with
  | nil =>
    intro d d' ha h
    simp only [Dcel.meetAll, Option.some.injEq] at h
    subst h
    exact ⟨ha, rfl, fun _ => rfl, rfl, fun i _ z => by simp⟩
  | cons c cs ih =>
    intro d d' ha h
    rw [Dcel.meetAll] at h
    obtain ⟨d1, h1, h2⟩ := Option.bind_eq_some_iff.1 h
    unfold Dcel.meet at h1
    obtain ⟨⟨p0, p1⟩, e1, h1⟩ := Option.bind_eq_some_iff.1 h1
    obtain ⟨⟨p2, p3⟩, e2, h1⟩ := Option.bind_eq_some_iff.1 h1
    obtain ⟨⟨bl, br⟩, e3, h1⟩ := Option.bind_eq_some_iff.1 h1
    rw [Option.some.injEq] at h1
    have hl1 : d1.live = d.live := by rw [← h1, addBreaks_live, addBreaks_live]
    have he1 : ∀ i, d1.ends i = d.ends i := by intro i; rw [← h1, addBreaks_ends, addBreaks_ends]
    have step : ∀ (x : Dcel K) k bs, x.Ascending → (x.addBreaks k bs).Ascending ∧
        ∀ i ∈ x.live, ∀ z, z ∈ (x.addBreaks k bs).breaksOf i ↔ z ∈ x.breaksOf i ∨ (i = k ∧ z ∈ bs) := by
      intro x k bs hx
      constructor
      · intro i
        rw [addBreaks_breaksOf]
        split
        · exact (foldl_insertBreak bs _ (hx i)).1
        · exact hx i
      · intro i hi z
        rw [addBreaks_breaksOf]
        by_cases hk : i = k
        · rw [if_pos ⟨hk, hi⟩, (foldl_insertBreak bs _ (hx i)).2]
          tauto
        · rw [if_neg (fun hh => hk hh.1)]
          tauto
    obtain ⟨a1, b1⟩ := step d c.2 br ha
    obtain ⟨a2, b2⟩ := step _ c.1 bl a1
    rw [h1] at a2 b2
    obtain ⟨k1, k2, k3, k4, k5⟩ := ih d1 d' a2 h2
    refine ⟨k1, k2.trans hl1, fun i => (k3 i).trans (he1 i), k4.trans (by rw [← h1]; rfl), ?_⟩
    intro i hi z
    rw [k5 i (by rw [hl1]; exact hi), b2 i (by rw [addBreaks_live]; exact hi), b1 i hi]
    simp only [he1]
    constructor
    · rintro (((h | h) | h) | ⟨c', hc', h⟩)
      · exact .inl h
      · exact .inr ⟨c, List.mem_cons_self, p0, p1, p2, p3, bl, br, e1, e2, e3, .inr h⟩
      · exact .inr ⟨c, List.mem_cons_self, p0, p1, p2, p3, bl, br, e1, e2, e3, .inl h⟩
      · exact .inr ⟨c', List.mem_cons_of_mem _ hc', h⟩
    · rintro (h | ⟨c', hc', q0, q1, q2, q3, cl, cr, f1, f2, f3, h⟩)
      · exact .inl (.inl (.inl h))
      · rcases List.mem_cons.1 hc' with rfl | hc'
        · rw [e1] at f1; rw [e2] at f2
          obtain ⟨rfl, rfl⟩ := Prod.mk.inj (Option.some.inj f1)
          obtain ⟨rfl, rfl⟩ := Prod.mk.inj (Option.some.inj f2)
          rw [e3] at f3
          obtain ⟨rfl, rfl⟩ := Prod.mk.inj (Option.some.inj f3)
          rcases h with h | h
          · exact .inl (.inr h)
          · exact .inl (.inl (.inr h))
        · exact .inr ⟨c', hc', q0, q1, q2, q3, cl, cr, f1, f2, f3, h⟩

end recorded

/-! ## Breaking -/

section breaking
variable [FNum K] [LinearOrder K] [LawfulOrd K]

/-- Breaking one line: the new half edges have the next free numbers and lead from point to point. -/
theorem chain_ends (bp : List (Vec2 K)) : ∀ (d : Dcel K) (cur fin : Nat) (p q : Vec2 K), (d.points.map (·.p)).Nodup →
    d.pos cur = some p → d.pos fin = some q →
    (d.chain cur fin bp).2 = List.range' d.edges.length (bp.length + 1) ∧
    (d.chain cur fin bp).1.edges.length = d.edges.length + (bp.length + 1) ∧
    (d.chain cur fin bp).2.map (d.chain cur fin bp).1.ends = (neighbours (p :: bp ++ [q])).map some := by
  induction bp with
  | nil =>
    intro d cur fin p q hn hp hq
    have he := newLine_edge d cur fin
    have hid : (d.newLine cur fin).2 = d.edges.length := rfl
    rw [hid] at he
    refine ⟨rfl, by simp [Dcel.chain, Dcel.newLine], ?_⟩
    show [(d.newLine cur fin).1.ends d.edges.length] = _
    have : (d.newLine cur fin).1.ends d.edges.length = some (p, q) := by
      rw [ends_iff]
      refine ⟨_, he, ?_, ?_⟩
      · unfold Dcel.pos; rw [newLine_points]; exact hp
      · unfold Dcel.pos; rw [newLine_points]; exact hq
    rw [this]; rfl
  | cons b bs ih =>
    intro d cur fin p q hn hp hq
    have g1 := findOrAdd_grows d b hn
    have s1 := findOrAdd_spec d b hn
    obtain ⟨d1, i, hd1⟩ : ∃ d1 i, d.findOrAdd b = (d1, i) := ⟨_, _, rfl⟩
    rw [hd1] at g1 s1
    have g2 := newLine_grows d1 cur i g1.nodup
    have he := newLine_edge d1 cur i
    obtain ⟨d2, id, hd2⟩ : ∃ d2 id, d1.newLine cur i = (d2, id) := ⟨_, _, rfl⟩
    have hid : id = d.edges.length := by
      have := congrArg Prod.snd hd2
      have h2 : d1.edges = d.edges := s1.2.2.1
      rw [← h2]; exact this.symm
    have hl2 : d2.edges.length = d.edges.length + 1 := by
      have := congrArg (fun x => x.1.edges.length) hd2
      have h2 : d1.edges = d.edges := s1.2.2.1
      rw [← h2, ← this]
      simp [Dcel.newLine]
    rw [hd2] at g2 he
    have g12 := g1.trans g2
    obtain ⟨k1, k2, k3⟩ := ih d2 i fin b q g2.nodup (g2.point _ _ s1.2.1) (g12.point _ _ hq)
    have g3 := (chain_spec bs d2 i fin q g2.nodup (g12.point _ _ hq)).1
    have hc : d.chain cur fin (b :: bs) = ((d2.chain i fin bs).1, id :: (d2.chain i fin bs).2) := by
      rw [Dcel.chain, hd1]
      dsimp only
      rw [hd2]
    rw [hc]
    refine ⟨?_, ?_, ?_⟩
    · rw [k1, hl2, hid, List.length_cons, ← List.range'_succ]
    · rw [k2, hl2, List.length_cons]; omega
    · rw [List.map_cons, k3]
      have : (d2.chain i fin bs).1.ends id = some (p, b) := by
        rw [ends_iff]
        exact ⟨_, g3.edge _ _ he, (g12.trans g3).point _ _ hp, (g2.trans g3).point _ _ s1.2.1⟩
      rw [this]
      rfl

omit [FNum K] [LinearOrder K] [LawfulOrd K] in
theorem removePEdge_p (pts : List (DPoint K)) (i id : Nat) : (removePEdge pts i id).map (·.p) = pts.map (·.p) := by
  unfold removePEdge
  apply List.ext_getElem?
  intro n
  simp only [List.getElem?_map, List.getElem?_modify]
  cases pts[n]? <;> simp
  split <;> rfl

/-- The pieces of half edge number `i`: between its start, its sorted break points and its end. -/
def Dcel.pieces (sort : Vec2 K → Vec2 K → List (Vec2 K) → List (Vec2 K)) (d : Dcel K) (i : Nat) : List (Vec2 K × Vec2 K) :=
  match d.ends i with
  | some (s, e) => neighbours (s :: sort s e (d.breaksOf i) ++ [e])
  | none => []

theorem breakOne_pieces {sort : Vec2 K → Vec2 K → List (Vec2 K) → List (Vec2 K)} {d d' : Dcel K} {id : Nat} (w : d.Wf) (hn : (d.points.map (·.p)).Nodup)
    (h : d.breakOne sort id = some d') : (d'.points.map (·.p)).Nodup ∧ (∀ j ∈ d.live, j ≠ id → j ∈ d'.live ∧ d'.ends j = d.ends j ∧
      d'.breaksOf j = d.breaksOf j) ∧ ∃ new : List Nat, d'.live.Perm (d.live.erase id ++ new) ∧ new.map d'.ends = (d.pieces sort id).map some ∧
        ∀ j ∈ new, j = id ∨ d.edges.length ≤ j := by
  unfold Dcel.breakOne at h
  obtain ⟨o, h1, h⟩ := Option.bind_eq_some_iff.1 h
  obtain ⟨e, h2, h⟩ := Option.bind_eq_some_iff.1 h
  obtain ⟨s, h3, h⟩ := Option.bind_eq_some_iff.1 h
  obtain ⟨f, h4, hc⟩ := Option.bind_eq_some_iff.1 h
  subst h2
  clear h
  rename' hc => h
  have hs : d.pos e.start = some s.p := by rw [pos_eq, h3]; rfl
  have hf : d.pos e.fin = some f.p := by rw [pos_eq, h4]; rfl
  have hend : d.ends id = some (s.p, f.p) := (ends_iff _ _ _ _).2 ⟨e, h1, hs, hf⟩
  have hp : d.pieces sort id = neighbours (s.p :: sort s.p f.p e.breaks ++ [f.p]) := by
    unfold Dcel.pieces; rw [hend]; dsimp only; rw [breaksOf_eq h1]
  have hid : id ∈ d.live := (mem_live _ _).2 ⟨e, h1⟩
  obtain ⟨bp, hbp⟩ : ∃ bp, bp = sort s.p f.p e.breaks := ⟨_, rfl⟩
  rw [← hbp] at hp h
  rw [hp]
  unfold Dcel.breakEdge at h
  cases bp with
  | nil =>
    simp only [List.isEmpty_nil, if_true, Option.some.injEq] at h
    subst h
    refine ⟨hn, fun j hj _ => ⟨hj, rfl, rfl⟩, [id], ?_, ?_, fun j hj => Or.inl (List.mem_singleton.1 hj)⟩
    · exact (List.perm_cons_erase hid).trans (List.perm_append_comm (l₁ := [id]))
    · simp [hend, neighbours]
  | cons b bs =>
    simp only [List.isEmpty_cons, Bool.false_eq_true, if_false] at h
    obtain ⟨c1, c2, c3⟩ := chain_ends (b :: bs) d e.start e.fin s.p f.p hn hs hf
    have g := (chain_spec (b :: bs) d e.start e.fin f.p hn hf).1
    obtain ⟨r, hr⟩ : ∃ r, r = d.chain e.start e.fin (b :: bs) := ⟨_, rfl⟩
    rw [← hr] at c1 c2 c3 g h
    have hne : r.2.isEmpty = false := by
      rw [c1]; rfl
    rw [hne] at h
    simp only [Bool.false_eq_true, if_false, Option.some.injEq] at h
    have hpts : d'.points.map (·.p) = r.1.points.map (·.p) := by
      rw [← h]; dsimp only; rw [removePEdge_p, removePEdge_p]
    have hedge : d'.edges = r.1.edges.set id none := by rw [← h]
    have hidlt : id < d.edges.length := (List.getElem?_eq_some_iff.1 h1).1
    have hsame : ∀ j, j ≠ id → d'.edges[j]? = r.1.edges[j]? := fun j hj => by
      rw [hedge, List.getElem?_set_ne (Ne.symm hj)]
    have hpos : ∀ i, d'.pos i = r.1.pos i := fun i => by unfold Dcel.pos; rw [hpts]
    have hends : ∀ j, j ≠ id → d'.ends j = r.1.ends j := by
      intro j hj
      apply Option.ext
      rintro ⟨a, b'⟩
      simp only [ends_iff, hpos, hsame j hj]
    refine ⟨by rw [hpts]; exact g.nodup, ?_, r.2, ?_, ?_, ?_⟩
    · intro j hj hjid
      obtain ⟨ej, hej⟩ := (mem_live _ _).1 hj
      have hej' := g.edge _ _ hej
      refine ⟨(mem_live _ _).2 ⟨ej, by rw [hsame j hjid]; exact hej'⟩, ?_, ?_⟩
      · rw [hends j hjid]
        obtain ⟨a, b', hab⟩ := ends_of_live w hj
        rw [hab]; exact g.ends hab
      · rw [breaksOf_eq (by rw [hsame j hjid]; exact hej'), breaksOf_eq hej]
    · apply (List.perm_ext_iff_of_nodup (live_nodup d') _).2
      · intro j
        rw [mem_live, List.mem_append, (live_nodup d).mem_erase_iff, mem_live, c1, List.mem_range'_1]
        by_cases hj : j = id
        · subst hj
          rw [hedge, List.getElem?_set_self (by rw [c2]; omega)]
          simp only [Option.some.injEq, reduceCtorEq, exists_false, ne_eq, not_true_eq_false, false_and, false_or, false_iff, not_and, not_lt]
          omega
        · rw [hsame j hj]
          simp only [ne_eq, hj, not_false_eq_true, true_and]
          constructor
          · rintro ⟨ej, hej⟩
            by_cases hlt : j < d.edges.length
            · left
              obtain ⟨t, ht⟩ := g.edges
              rw [← ht, List.getElem?_append_left hlt] at hej
              exact ⟨ej, hej⟩
            · right
              have := (List.getElem?_eq_some_iff.1 hej).1
              rw [c2] at this
              exact ⟨by omega, by simpa using this⟩
          · rintro (⟨ej, hej⟩ | ⟨k1, k2⟩)
            · exact ⟨ej, g.edge _ _ hej⟩
            · have hjr : j ∈ r.2 := by rw [c1, List.mem_range'_1]; exact ⟨k1, k2⟩
              have hm : r.1.ends j ∈ r.2.map r.1.ends := List.mem_map_of_mem hjr
              rw [c3] at hm
              obtain ⟨⟨a, b'⟩, _, hab⟩ := List.mem_map.1 hm
              obtain ⟨ej, hej, _⟩ := (ends_iff _ _ _ _).1 hab.symm
              exact ⟨ej, hej⟩
      · rw [List.nodup_append]
        refine ⟨(live_nodup d).erase _, by rw [c1]; exact List.nodup_range', ?_⟩
        intro x hx y hy
        have hx := List.mem_of_mem_erase hx
        obtain ⟨ex, hex⟩ := (mem_live _ _).1 hx
        have := (List.getElem?_eq_some_iff.1 hex).1
        rw [c1, List.mem_range'_1] at hy
        omega
    · rw [← c3]
      apply List.map_congr_left
      intro j hj
      rw [c1, List.mem_range'_1] at hj
      exact hends j (by omega)
    · intro j hj
      rw [c1, List.mem_range'_1] at hj
      exact .inr hj.1

/-- Breaking all half edges of `ids`: what is left of the structure are the other half edges and the pieces. -/
theorem breakAll_pieces {sort : Vec2 K → Vec2 K → List (Vec2 K) → List (Vec2 K)} (ids : List Nat) : ∀ {d d' : Dcel K}, d.Wf →
    (d.points.map (·.p)).Nodup → ids.Nodup → (∀ i ∈ ids, i ∈ d.live) → d.breakAll sort ids = some d' → (d'.points.map (·.p)).Nodup ∧
      (∀ j ∈ d.live, j ∉ ids → j ∈ d'.live ∧ d'.ends j = d.ends j) ∧
      ∃ new : List Nat, d'.live.Perm (d.live.filter (fun j => decide (j ∉ ids)) ++ new) ∧
        new.map d'.ends = (ids.flatMap (d.pieces sort)).map some := by
  induction ids with
  | nil =>
    intro d d' w hn _ _ h
    simp only [Dcel.breakAll, Option.some.injEq] at h
    subst h
    exact ⟨hn, fun j hj _ => ⟨hj, rfl⟩, [], by simp, rfl⟩
  | cons id ids ih =>
    intro d d' w hn hnd hl h
    obtain ⟨d1, h1, h2⟩ := Option.bind_eq_some_iff.1 h
    obtain ⟨n1, n2⟩ := List.nodup_cons.1 hnd
    obtain ⟨a1, a2, new1, a3, a4, a5⟩ := breakOne_pieces w hn h1
    have hl' : ∀ i ∈ ids, i ∈ d.live ∧ i ≠ id := fun i hi => ⟨hl i (List.mem_cons_of_mem _ hi), fun hh => n1 (hh ▸ hi)⟩
    obtain ⟨b1, b2, new2, b3, b4⟩ := ih (w.breakOne id h1) a1 n2 (fun i hi => (a2 i (hl' i hi).1 (hl' i hi).2).1) h2
    have hnew : ∀ j ∈ new1, j ∈ d1.live ∧ j ∉ ids := by
      intro j hj
      refine ⟨a3.mem_iff.2 (List.mem_append_right _ hj), fun hji => ?_⟩
      rcases a5 j hj with rfl | h5
      · exact n1 hji
      · obtain ⟨ej, hej⟩ := (mem_live _ _).1 (hl' j hji).1
        have := (List.getElem?_eq_some_iff.1 hej).1
        omega
    refine ⟨b1, ?_, new1 ++ new2, ?_, ?_⟩
    · intro j hj hji
      rw [List.mem_cons, not_or] at hji
      obtain ⟨c1, c2, _⟩ := a2 j hj hji.1
      obtain ⟨e1, e2⟩ := b2 j c1 hji.2
      exact ⟨e1, e2.trans c2⟩
    · refine b3.trans ?_
      rw [← List.append_assoc]
      apply List.Perm.append_right
      refine (a3.filter _).trans ?_
      rw [List.filter_append, List.filter_eq_self.2 (fun j hj => decide_eq_true (hnew j hj).2)]
      apply List.Perm.append_right
      rw [(live_nodup d).erase_eq_filter, List.filter_filter]
      apply List.Perm.of_eq
      apply List.filter_congr
      intro j _
      by_cases h : j = id <;> by_cases h' : j ∈ ids <;> simp [h, h']
    · rw [List.map_append, b4, List.flatMap_cons, List.map_append, ← a4]
      congr 1
      · apply List.map_congr_left
        intro j hj
        exact (b2 j (hnew j hj).1 (hnew j hj).2).2
      · congr 1
        apply List.flatMap_congr
        intro i hi
        obtain ⟨_, c2, c3⟩ := a2 i (hl' i hi).1 (hl' i hi).2
        unfold Dcel.pieces
        rw [c2, c3]

end breaking

/-! ## Twins -/

theorem buildTwins_pos (ids : List Nat) : ∀ {d d' : Dcel K}, d.buildTwins ids = some d' → ∀ i, d'.pos i = d.pos i := by
  induction ids with
  | nil =>
    intro d d' h i
    simp only [Dcel.buildTwins, Option.some.injEq] at h
    rw [h]
  | cons id ids ih =>
    intro d d' h i
    obtain ⟨d1, h1, h2⟩ := Option.bind_eq_some_iff.1 h
    rw [ih h2]
    unfold Dcel.buildTwin at h1
    obtain ⟨o, _, h1⟩ := Option.bind_eq_some_iff.1 h1
    obtain ⟨e, _, h1⟩ := Option.bind_eq_some_iff.1 h1
    simp only [Option.some.injEq] at h1
    rw [← h1]
    unfold Dcel.pos
    dsimp only
    rw [newLine_points]

theorem buildTwins_kept (ids : List Nat) : ∀ {d d' : Dcel K}, d.buildTwins ids = some d' → ∀ (j : Nat) (e : HEdge K),
    d.edges[j]? = some (some e) → ∃ e', d'.edges[j]? = some (some e') ∧ e'.start = e.start ∧ e'.fin = e.fin := by
  induction ids with
  | nil =>
    intro d d' h j e he
    simp only [Dcel.buildTwins, Option.some.injEq] at h
    subst h
    exact ⟨e, he, rfl, rfl⟩
  | cons id ids ih =>
    intro d d' h j e he
    obtain ⟨d1, h1, h2⟩ := Option.bind_eq_some_iff.1 h
    obtain ⟨_, _, k3, _, f, f', k4, k5, k6, k7, _⟩ := buildTwin_spec d d1 id h1
    by_cases hj : j = id
    · subst hj
      rw [k4] at he
      have : f = e := by simpa using he
      subst this
      obtain ⟨e', r1, r2, r3⟩ := ih h2 j f' k5
      exact ⟨e', r1, r2.trans k6, r3.trans k7⟩
    · exact ih h2 j e (by rw [k3 j (List.getElem?_eq_some_iff.1 he).1 hj]; exact he)

/-- Every half edge after `build_twin` is an old one or the twin of an old one. -/
theorem buildTwins_ends {d d' : Dcel K} {ids : List Nat} (hp : ids.Perm d.live) (h : d.buildTwins ids = some d') :
    (∀ i ∈ d.live, i ∈ d'.live ∧ d'.ends i = d.ends i) ∧
    ∀ i a b, d'.ends i = some (a, b) → ∃ k ∈ d.live, (i = k ∧ d.ends k = some (a, b)) ∨ (Twins d'.edges k i ∧ d.ends k = some (b, a)) := by
  have hlt : ∀ id ∈ ids, id < d.edges.length := by
    intro id hid
    obtain ⟨e, he⟩ := (mem_live d id).1 (hp.mem_iff.1 hid)
    exact (List.getElem?_eq_some_iff.1 he).1
  obtain ⟨t1, t2, t3⟩ := buildTwins_spec ids d d' h (hp.nodup_iff.2 (live_nodup d)) hlt
  have hpos := buildTwins_pos ids h
  have keep : ∀ i ∈ d.live, i ∈ d'.live ∧ d'.ends i = d.ends i := by
    intro i hi
    obtain ⟨e, he⟩ := (mem_live _ _).1 hi
    obtain ⟨e', h1, h2, h3⟩ := buildTwins_kept ids h i e he
    refine ⟨(mem_live _ _).2 ⟨e', h1⟩, ?_⟩
    apply Option.ext
    rintro ⟨a, b⟩
    rw [ends_iff, ends_iff]
    simp only [hpos, h1, he, Option.some.injEq, exists_eq_left', h2, h3]
  refine ⟨keep, ?_⟩
  intro i a b hab
  obtain ⟨e, he, ha, hb⟩ := (ends_iff _ _ _ _).1 hab
  by_cases hi : i < d.edges.length
  · have hil : i ∈ d.live := by
      by_contra hc
      have : i ∉ ids := fun hh => hc (hp.mem_iff.1 hh)
      rw [t3 i hi this] at he
      exact hc ((mem_live _ _).2 ⟨e, he⟩)
    exact ⟨i, hil, .inl ⟨rfl, by rw [← (keep i hil).2]; exact hab⟩⟩
  · have hi' := (List.getElem?_eq_some_iff.1 he).1
    have hk : i - d.edges.length < ids.length := by omega
    have ht := t2 _ hk
    rw [show d.edges.length + (i - d.edges.length) = i by omega] at ht
    have hkl : ids[i - d.edges.length] ∈ d.live := hp.mem_iff.1 (List.getElem_mem hk)
    refine ⟨_, hkl, .inr ⟨ht, ?_⟩⟩
    rw [← (keep _ hkl).2, ends_iff]
    obtain ⟨x, y, hx, hy, _, _, h5, h6⟩ := ht
    rw [he] at hy
    have : e = y := by simpa using hy
    subst this
    exact ⟨x, hx, by rw [h5]; exact hb, by rw [h6]; exact ha⟩

end River
