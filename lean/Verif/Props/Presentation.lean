import Verif.Props.PolygonsDemo

/-! # C70: how the polygons are presented does not matter -/

namespace River
variable {K : Type}

/-- The same polygons in another order, each starting at any of its corners. -/
def SamePolygons (Ps Qs : List (List (Vec2 K))) : Prop := ∃ Rs, Ps.Perm Rs ∧ List.Forall₂ (fun P Q : List (Vec2 K) => P ~r Q) Rs Qs

theorem SamePolygons.refl (Ps : List (List (Vec2 K))) : SamePolygons Ps Ps :=
  ⟨Ps, List.Perm.refl _, List.forall₂_same.2 (fun P _ => List.IsRotated.refl P)⟩

theorem SamePolygons.of_perm {Ps Qs : List (List (Vec2 K))} (h : Ps.Perm Qs) : SamePolygons Ps Qs :=
  ⟨Qs, h, List.forall₂_same.2 (fun P _ => List.IsRotated.refl P)⟩

theorem SamePolygons.append {Ps Qs Ps' Qs' : List (List (Vec2 K))} (h : SamePolygons Ps Qs) (h' : SamePolygons Ps' Qs') :
    SamePolygons (Ps ++ Ps') (Qs ++ Qs') := by
  obtain ⟨R, h1, h2⟩ := h
  obtain ⟨R', h1', h2'⟩ := h'
  exact ⟨R ++ R', h1.append h1', List.rel_append h2 h2'⟩

theorem polySides_rotate (P : List (Vec2 K)) (n : Nat) : polySides (P.rotate n) = (polySides P).rotate n := by
  unfold polySides
  rw [List.rotate_rotate, Nat.add_comm, ← List.rotate_rotate]
  have := List.zipWith_rotate_distrib Prod.mk P (P.rotate 1) n (by simp)
  simpa [List.zip] using this.symm

theorem polySides_rotated {P Q : List (Vec2 K)} (h : P ~r Q) : (polySides P).Perm (polySides Q) := by
  obtain ⟨n, rfl⟩ := h
  rw [polySides_rotate]
  exact (List.rotate_perm _ _).symm

theorem SamePolygons.sides {Ps Qs : List (List (Vec2 K))} (h : SamePolygons Ps Qs) : (Ps.flatMap polySides).Perm (Qs.flatMap polySides) := by
  obtain ⟨Rs, h1, h2⟩ := h
  refine (h1.flatMap_right _).trans ?_
  clear h1
  induction h2 with
  | nil => exact List.Perm.refl _
  | cons h _ ih => rw [List.flatMap_cons, List.flatMap_cons]; exact (polySides_rotated h).append ih

theorem SamePolygons.mem {Ps Qs : List (List (Vec2 K))} (h : SamePolygons Ps Qs) {Q : List (Vec2 K)} (hQ : Q ∈ Qs) : ∃ P ∈ Ps, P ~r Q := by
  obtain ⟨Rs, h1, h2⟩ := h
  obtain ⟨i, hi⟩ := List.getElem?_of_mem hQ
  obtain ⟨e, h3⟩ := List.forall₂_iff_get.1 h2
  obtain ⟨hl, rfl⟩ := List.getElem?_eq_some_iff.1 hi
  exact ⟨_, h1.mem_iff.2 (List.getElem_mem (e ▸ hl)), h3 i (e ▸ hl) hl⟩

/-- A symmetric relation that does not depend on the first corner. -/
theorem SamePolygons.pairwise {R : List (Vec2 K) → List (Vec2 K) → Prop} (hs : ∀ {P P'}, R P P' → R P' P)
    (hr : ∀ {P P' Q Q'}, P ~r Q → P' ~r Q' → R P P' → R Q Q') {Ps Qs : List (List (Vec2 K))} (h : SamePolygons Ps Qs) (hp : Ps.Pairwise R) : Qs.Pairwise R := by
  obtain ⟨Rs, h1, h2⟩ := h
  have hp := (h1.pairwise_iff hs).1 hp
  obtain ⟨e, h3⟩ := List.forall₂_iff_get.1 h2
  rw [List.pairwise_iff_getElem] at hp ⊢
  intro i j hi hj hij
  exact hr (h3 i (e ▸ hi) hi) (h3 j (e ▸ hj) hj) (hp i j (e ▸ hi) (e ▸ hj) hij)

theorem index_pairs {α : Type} {R : α → α → Prop} (hs : ∀ {P P'}, R P P' → R P' P) (Ps : List α) :
    (∀ (k k' : Nat) (P P' : α), Ps[k]? = some P → Ps[k']? = some P' → k ≠ k' → R P P') ↔ Ps.Pairwise R := by
  rw [List.pairwise_iff_getElem]
  constructor
  · intro h i j hi hj hij
    exact h i j _ _ (List.getElem?_eq_getElem hi) (List.getElem?_eq_getElem hj) hij.ne
  · intro h k k' P P' hk hk' hne
    obtain ⟨hl, rfl⟩ := List.getElem?_eq_some_iff.1 hk
    obtain ⟨hl', rfl⟩ := List.getElem?_eq_some_iff.1 hk'
    rcases lt_or_gt_of_ne hne with h1 | h1
    · exact h k k' hl hl' h1
    · exact hs (h k' k hl' hl h1)

variable [Field K] [LinearOrder K]

theorem cornerAt_rotate (P : List (Vec2 K)) (m i : Nat) : cornerAt (P.rotate m) i = cornerAt P (i + m) := by
  unfold cornerAt
  rw [List.length_rotate]
  rcases Nat.eq_zero_or_pos P.length with h | h
  · rw [List.eq_nil_of_length_eq_zero h]; simp
  · have h1 : i % P.length < (P.rotate m).length := by rw [List.length_rotate]; exact Nat.mod_lt _ h
    rw [List.getD_eq_getElem?_getD, List.getD_eq_getElem?_getD, List.getElem?_eq_getElem h1, List.getElem?_eq_getElem (Nat.mod_lt _ h), List.getElem_rotate]
    simp only [Nat.mod_add_mod]

theorem ledge_rotate {P : List (Vec2 K)} {m i n : Nat} (h : Ledge (P.rotate m) i n) : Ledge P (i + m) n := by
  obtain ⟨h1, h2, h3⟩ := h
  simp only [cornerAt_rotate, List.length_rotate] at h2 h3
  refine ⟨h1, fun j hj => ?_, ?_⟩
  · have := h2 j hj
    rwa [Nat.add_right_comm] at this
  · rwa [Nat.add_right_comm i (P.length - 1) m, show i + n + 1 + m = i + m + n + 1 by omega] at h3

theorem ledgeStart_rotate (P : List (Vec2 K)) (m i n : Nat) : ledgeStart (P.rotate m) i n = ledgeStart P (i + m) n := by
  unfold ledgeStart
  simp only [cornerAt_rotate, List.length_rotate]
  rw [Nat.add_right_comm i (P.length - 1) m, Nat.add_right_comm i n m]

/-- The ledges of two polygons begin at different points. -/
def StartApart (P P' : List (Vec2 K)) : Prop := ∀ i i' n n', Ledge P i n → Ledge P' i' n' → ledgeStart P i n ≠ ledgeStart P' i' n'

/-- The ledges of two polygons do not overlap. -/
def LedgesApart (P P' : List (Vec2 K)) : Prop := ∀ i i' n n', Ledge P i n → Ledge P' i' n' → ∀ j j', j < n → j' < n' → (cornerAt P i).y = (cornerAt P' i').y →
  max (cornerAt P (i + j)).x (cornerAt P (i + j + 1)).x ≤ min (cornerAt P' (i' + j')).x (cornerAt P' (i' + j' + 1)).x ∨
    max (cornerAt P' (i' + j')).x (cornerAt P' (i' + j' + 1)).x ≤ min (cornerAt P (i + j)).x (cornerAt P (i + j + 1)).x

theorem StartApart.symm {P P' : List (Vec2 K)} (h : StartApart P P') : StartApart P' P := fun i i' n n' h1 h2 => (h i' i n' n h2 h1).symm

theorem LedgesApart.symm {P P' : List (Vec2 K)} (h : LedgesApart P P') : LedgesApart P' P :=
  fun i i' n n' h1 h2 j j' hj hj' hy => (h i' i n' n h2 h1 j' j hj' hj hy.symm).symm

theorem StartApart.rotated {P P' Q Q' : List (Vec2 K)} (hP : P ~r Q) (hP' : P' ~r Q') (h : StartApart P P') : StartApart Q Q' := by
  obtain ⟨m, rfl⟩ := hP
  obtain ⟨m', rfl⟩ := hP'
  intro i i' n n' h1 h2
  rw [ledgeStart_rotate, ledgeStart_rotate]
  exact h _ _ _ _ (ledge_rotate h1) (ledge_rotate h2)

theorem LedgesApart.rotated {P P' Q Q' : List (Vec2 K)} (hP : P ~r Q) (hP' : P' ~r Q') (h : LedgesApart P P') : LedgesApart Q Q' := by
  obtain ⟨m, rfl⟩ := hP
  obtain ⟨m', rfl⟩ := hP'
  intro i i' n n' h1 h2 j j' hj hj' hy
  simp only [cornerAt_rotate] at hy ⊢
  rw [Nat.add_right_comm i j m, Nat.add_right_comm i' j' m', show i + j + 1 + m = i + m + j + 1 by omega, show i' + j' + 1 + m' = i' + m' + j' + 1 by omega]
  exact h _ _ _ _ (ledge_rotate h1) (ledge_rotate h2) j j' hj hj' hy

theorem mod_rotate {L i i' m : Nat} (h : ¬ i % L = i' % L) : ¬ (i + m) % L = (i' + m) % L := by
  intro e
  exact h (Nat.ModEq.add_right_cancel' m e)

theorem OnSeg.sym' [IsStrictOrderedRing K] {p a b : Vec2 K} (h : OnSeg p a b) : OnSeg p b a := OnSeg.symm h

omit [LinearOrder K] in
theorem Parallel.symm' {a b c d : Vec2 K} (h : Parallel a b c d) : Parallel c d a b := by
  unfold Parallel at h ⊢; linear_combination -h

theorem MeetOk.symm' {a b c d : Vec2 K} (h : MeetOk a b c d) : MeetOk c d a b := by
  intro hp s t s0 s1 t0 t1 e
  exact (h (fun q => hp q.symm') t s t0 t1 s0 s1 e.symm).symm

/-- General position does not depend on the order of the polygons and on their first corners. -/
theorem GeneralPolygons.same {Ps Qs : List (List (Vec2 K))} (G : GeneralPolygons Ps) (h : SamePolygons Ps Qs) : GeneralPolygons Qs := by
  have hp := h.sides
  refine ⟨?_, ?_, ?_, ?_, ?_, ?_, ?_, ?_, ?_⟩
  · intro s hs
    exact G.proper s (hp.mem_iff.2 hs)
  · intro Q hQ
    obtain ⟨P, hP, hr⟩ := h.mem hQ
    obtain ⟨p, p1, q, q1, e⟩ := G.turn P hP
    exact ⟨p, hr.mem_iff.1 p1, q, hr.mem_iff.1 q1, e⟩
  · intro Q hQ p hp'
    obtain ⟨P, hP, hr⟩ := h.mem hQ
    exact G.range P hP p (hr.mem_iff.2 hp')
  · exact (hp.pairwise_iff (fun h => MeetOk.symm' h)).1 G.meet
  · intro s hs t ht hy hpar p he hi
    obtain ⟨u, hu, h1, h2⟩ := G.along s (hp.mem_iff.2 hs) t (hp.mem_iff.2 ht) hy hpar p he hi
    exact ⟨u, hp.mem_iff.1 hu, h1, h2⟩
  · intro Q hQ i n hL j hj p hon
    obtain ⟨P, hP, m, rfl⟩ := h.mem hQ
    simp only [cornerAt_rotate] at hon
    rw [Nat.add_right_comm i j m, show i + j + 1 + m = i + m + j + 1 by omega] at hon
    exact (hp.pairwise_iff (fun h a b c d => (h b a d c).symm')).1 (G.corner P hP (i + m) n (ledge_rotate hL) j hj p hon)
  · have h1 : Ps.Pairwise StartApart := (index_pairs StartApart.symm Ps).1
      (fun k k' P P' hk hk' hne i i' n n' l1 l2 => G.start k k' P P' hk hk' i i' n n' l1 l2 (fun e => hne e.1))
    have h2 := (index_pairs StartApart.symm Qs).2 (h.pairwise StartApart.symm StartApart.rotated h1)
    intro k k' Q Q' hk hk' i i' n n' l1 l2 hne
    by_cases hkk : k = k'
    · subst hkk
      rw [hk] at hk'
      cases Option.some.inj hk'
      obtain ⟨P, hP, m, rfl⟩ := h.mem (List.mem_of_getElem? hk)
      obtain ⟨k0, hk0⟩ := List.getElem?_of_mem hP
      rw [ledgeStart_rotate, ledgeStart_rotate]
      refine G.start k0 k0 P P hk0 hk0 _ _ n n' (ledge_rotate l1) (ledge_rotate l2) (fun e => ?_)
      rw [List.length_rotate] at hne
      exact mod_rotate (fun e => hne ⟨rfl, e⟩) e.2
    · exact h2 k k' Q Q' hk hk' hkk i i' n n' l1 l2
  · have h1 : Ps.Pairwise LedgesApart := (index_pairs LedgesApart.symm Ps).1
      (fun k k' P P' hk hk' hne i i' n n' l1 l2 j j' hj hj' => G.overlap k k' P P' hk hk' i i' n n' l1 l2 j j' hj hj' (fun e => hne e.1))
    have h2 := (index_pairs LedgesApart.symm Qs).2 (h.pairwise LedgesApart.symm LedgesApart.rotated h1)
    intro k k' Q Q' hk hk' i i' n n' l1 l2 j j' hj hj' hne
    by_cases hkk : k = k'
    · subst hkk
      rw [hk] at hk'
      cases Option.some.inj hk'
      obtain ⟨P, hP, m, rfl⟩ := h.mem (List.mem_of_getElem? hk)
      obtain ⟨k0, hk0⟩ := List.getElem?_of_mem hP
      rw [List.length_rotate] at hne
      simp only [cornerAt_rotate]
      rw [Nat.add_right_comm i j m, Nat.add_right_comm i' j' m, show i + j + 1 + m = i + m + j + 1 by omega,
        show i' + j' + 1 + m = i' + m + j' + 1 by omega]
      refine G.overlap k0 k0 P P hk0 hk0 _ _ n n' (ledge_rotate l1) (ledge_rotate l2) j j' hj hj' (fun e => ?_)
      have := e.2
      rw [Nat.add_right_comm i m j, Nat.add_right_comm i' m j'] at this
      exact mod_rotate (fun e => hne ⟨rfl, e⟩) this
    · exact h2 k k' Q Q' hk hk' hkk i i' n n' l1 l2 j j' hj hj'
  · intro Q hQ a b l hl hsuc y hy ha hb
    obtain ⟨P, hP, m, rfl⟩ := h.mem hQ
    obtain ⟨n, hn⟩ := hsuc
    rw [List.rotate_rotate] at hn
    exact (hp.pairwise_iff (fun h q => h q.symm)).1 (G.minima P hP a b l hl ⟨_, hn⟩ y hy ha hb)

theorem SamePolygons.winding {Ps Qs : List (List (Vec2 K))} (h : SamePolygons Ps Qs) (X y : K) : polyWinding Ps X y = polyWinding Qs X y :=
  (h.sides.map _).sum_eq

theorem SidesApart.same [IsStrictOrderedRing K] {Ps Qs : List (List (Vec2 K))} (hA : SidesApart Ps) (h : SamePolygons Ps Qs) : SidesApart Qs := by
  refine (h.sides.pairwise_iff ?_).1 hA
  intro s t h ht ho
  obtain ⟨p, q, hne, h1, h2, h3, h4⟩ := ho
  by_cases hs : s.1.y = s.2.y
  · apply ht
    obtain ⟨a, _, _, rfl⟩ := h1
    obtain ⟨b, _, _, rfl⟩ := h2
    obtain ⟨c, _, _, ec⟩ := h3
    obtain ⟨d, _, _, ed⟩ := h4
    have e1 := congrArg Vec2.y ec
    have e2 := congrArg Vec2.y ed
    simp only [lerp] at e1 e2
    by_contra hn
    -- the heights of the two points on `s` are equal, so all points are
    have f1 : c * (s.2.y - s.1.y) = 0 := by rw [hs]; ring
    have f2 : d * (s.2.y - s.1.y) = 0 := by rw [hs]; ring
    have : (a - b) * (t.2.y - t.1.y) = 0 := by linear_combination e1 - e2 + f1 - f2
    rcases mul_eq_zero.1 this with h0 | h0
    · apply hne
      rw [sub_eq_zero.1 h0]
    · exact hn (sub_eq_zero.1 h0).symm
  · exact h hs ⟨p, q, hne, h3, h4, h1, h2⟩

theorem Signed.rotated [IsStrictOrderedRing K] {ε : Int} {P Q : List (Vec2 K)} (h : Signed ε P) (hr : P ~r Q) : Signed ε Q := by
  have hs : SamePolygons [P] [Q] := ⟨[P], List.Perm.refl _, List.Forall₂.cons hr .nil⟩
  rcases h with h | ⟨h1, h2⟩
  · exact Or.inl h
  · exact Or.inr ⟨h1.same hs, fun X y => by rw [← hs.winding]; exact h2 X y⟩

theorem Consistent.same [IsStrictOrderedRing K] {subject clip subject' clip' : List (List (Vec2 K))} {ct : ClipType} {fr : FillRule} {σ : Int}
    (hC : Consistent subject clip ct fr σ) (h1 : SamePolygons subject subject') (h2 : SamePolygons clip clip') : Consistent subject' clip' ct fr σ := by
  rcases hC with ⟨ha, ho⟩ | ⟨εs, εc, s1, s2, hm⟩
  · refine Or.inl ⟨ha.same (h1.append h2), fun X y X' y' h => ?_⟩
    have := ho X y X' y'
    unfold InResult at this ⊢
    rw [h1.winding, h1.winding, h2.winding, h2.winding] at this
    exact this h
  · refine Or.inr ⟨εs, εc, fun Q hQ => ?_, fun Q hQ => ?_, hm⟩
    · obtain ⟨P, hP, hr⟩ := h1.mem hQ
      exact (s1 P hP).rotated hr
    · obtain ⟨P, hP, hr⟩ := h2.mem hQ
      exact (s2 P hP).rotated hr

/-- For operations that treat subject and clip alike. -/
theorem Consistent.swap [IsStrictOrderedRing K] {subject clip : List (List (Vec2 K))} {ct : ClipType} {fr : FillRule} {σ : Int}
    (hct : ∀ a b, ct.op a b ↔ ct.op b a) (hC : Consistent subject clip ct fr σ) : Consistent clip subject ct fr σ := by
  rcases hC with ⟨ha, ho⟩ | ⟨εs, εc, s1, s2, hm⟩
  · refine Or.inl ⟨ha.same (SamePolygons.of_perm List.perm_append_comm), fun X y X' y' h => ?_⟩
    have := ho X y X' y' (h.symm.imp And.symm And.symm)
    unfold InResult at this ⊢
    rwa [hct (fr.inside (polyWinding clip X y)), hct (fr.inside (polyWinding clip X' y'))]
  · refine Or.inr ⟨εc, εs, s2, s1, fun a b a' b' ha hb ha' hb' h => ?_⟩
    have := hm b a b' a' hb ha hb' ha' (h.symm.imp And.symm And.symm)
    rwa [hct (fr.inside a), hct (fr.inside a')]

attribute [local instance 10000] FTrans.toFNum
variable [IsStrictOrderedRing K] [FTrans K] [LawfulOrd K] [Exact K]

/-- **C70.** Whether polygons in general position are added in one order or another, and at which corner each of them begins, and
also which of the two sets is the subject if the operation treats both alike: both calls succeed, and the delivered polygons enclose
the same points, the same number of times. -/
theorem presentation_irrelevant (env env' : Env K) (hok : env.Ok) (hok' : env'.Ok) (msort msort' : List (LocMin K) → List (LocMin K))
    (hm : MinSort msort) (hm' : MinSort msort') (subject clip subject' clip' : List (List (Vec2 K))) (G : GeneralPolygons (subject ++ clip))
    (ct : ClipType) (fr : FillRule) (σ : Int) (hσ : σ = 1 ∨ σ = -1) (hO : Consistent subject clip ct fr σ)
    (hsame : (SamePolygons subject subject' ∧ SamePolygons clip clip') ∨
      (SamePolygons subject clip' ∧ SamePolygons clip subject' ∧ (ct = .union ∨ ct = .intersection ∨ ct = .xor))) :
    ∃ n, ∀ fuel, n ≤ fuel → ∃ c1 c2 c3 c4 c' c'' : Clipper K, ∃ out out' : List (List (Vec2 K)),
      (Clipper.new (K := K)).addPath (subject.map (fun P => Path.build (polyCmds P))) .subject = some c1 ∧
      c1.addPath (clip.map (fun P => Path.build (polyCmds P))) .clip = some c2 ∧
      (Clipper.new (K := K)).addPath (subject'.map (fun P => Path.build (polyCmds P))) .subject = some c3 ∧
      c3.addPath (clip'.map (fun P => Path.build (polyCmds P))) .clip = some c4 ∧
      c2.process env msort fuel ct fr Path.recorder [] = some (some (c', out.flatMap (fun Q => eventsFrom zeroPt (closedCmds Q)))) ∧
      c4.process env' msort' fuel ct fr Path.recorder [] = some (some (c'', out'.flatMap (fun Q => eventsFrom zeroPt (closedCmds Q)))) ∧
      ∀ X y, polyWinding out X y = polyWinding out' X y := by
  classical
  have key : GeneralPolygons (subject' ++ clip') ∧ Consistent subject' clip' ct fr σ ∧
      ∀ X y, InResult subject clip ct fr X y ↔ InResult subject' clip' ct fr X y := by
    rcases hsame with ⟨h1, h2⟩ | ⟨h1, h2, h3⟩
    · refine ⟨G.same (h1.append h2), hO.same h1 h2, fun X y => ?_⟩
      unfold InResult
      rw [h1.winding, h2.winding]
    · have hct : ∀ a b, ct.op a b ↔ ct.op b a := by
        intro a b
        rcases h3 with rfl | rfl | rfl <;> simp only [ClipType.op] <;> tauto
      refine ⟨(G.same (SamePolygons.of_perm List.perm_append_comm)).same (h2.append h1), (hO.swap hct).same h2 h1, fun X y => ?_⟩
      unfold InResult
      rw [hct, h1.winding, h2.winding]
  obtain ⟨G', hO', hin⟩ := key
  obtain ⟨c1, c2, e1, e2, n, hn⟩ := process_polygons env hok msort hm subject clip G ct fr σ hσ hO
  obtain ⟨c3, c4, e3, e4, n', hn'⟩ := process_polygons env' hok' msort' hm' subject' clip' G' ct fr σ hσ hO'
  refine ⟨max n n', fun fuel hf => ?_⟩
  obtain ⟨c', out, p1, p2⟩ := hn fuel ((le_max_left _ _).trans hf)
  obtain ⟨c'', out', q1, q2⟩ := hn' fuel ((le_max_right _ _).trans hf)
  refine ⟨c1, c2, c3, c4, c', c'', out, out', e1, e2, e3, e4, p1, q1, fun X y => ?_⟩
  rw [p2, q2]
  simp only [hin]

/-- C70, a case: three tiles and a bar, the tiles in reverse order and beginning at their second corner; the operation may also
exchange tiles and bar. -/
theorem presentation_demo : GeneralPolygons (tiles ++ [bar]) ∧ Consistent tiles [bar] .union .nonZero 1 ∧
    SamePolygons tiles (tiles.reverse.map (fun P => P.rotate 1)) ∧ tiles.reverse.map (fun P => P.rotate 1) ≠ tiles ∧
    polyWinding tiles 1 1 = 1 ∧ polyWinding [bar] 1 1 = 0 ∧ polyWinding [bar] 3 3 = 1 ∧ polyWinding tiles 9 7 = 0 := by
  refine ⟨tiles_general, consistent_nonzero _ _ _ (Or.inl rfl) tiles_signed, ⟨tiles.reverse, (List.reverse_perm _).symm, ?_⟩, by decide +kernel, by decide +kernel⟩
  rw [List.forall₂_map_right_iff, List.forall₂_same]
  exact fun P _ => ⟨1, rfl⟩

end River
