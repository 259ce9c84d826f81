import Verif.Props.Terminate
import Verif.Props.IeeeDemo

/-! # C50 and C37 in any arithmetic, doubles in particular -/

namespace River
variable {K : Type}

/-- The ring has a local maximum. -/
def HasMax (rings : List (Ring K)) (r : Nat) : Prop := ∃ j w, nodeAt rings r j = some w ∧ w.lmax = true

/-- The edge's upper vertex exists and its ring has a local maximum. -/
def Live (rings : List (Ring K)) (e : Edge K) : Prop := Nav rings e ∧ HasMax rings e.ring

/-- The vertex of a local minimum exists and its ring has a local maximum. -/
structure LiveMin (rings : List (Ring K)) (m : LocMin K) : Prop where
  node : ∃ v, nodeAt rings m.ring m.node = some v ∧ v.pt = m.pt
  hasMax : HasMax rings m.ring

/-- All edges and minima. -/
def LiveAll (rings : List (Ring K)) (st : St K) : Prop := (∀ e ∈ st.ael, Live rings e) ∧ ∀ m ∈ st.mins, LiveMin rings m

theorem live_of_perm {rings : List (Ring K)} {a b : List (Edge K)} (h : (a.map Edge.plain).Perm (b.map Edge.plain))
    (hb : ∀ e ∈ b, Live rings e) : ∀ e ∈ a, Live rings e := by
  intro e he
  have : e.plain ∈ b.map Edge.plain := h.mem_iff.1 (List.mem_map_of_mem he)
  obtain ⟨f, hf, e1⟩ := List.mem_map.1 this
  have h2 : Live rings f.plain := hb f hf
  rw [e1] at h2
  exact h2

theorem Same.live {rings : List (Ring K)} {a b : St K} (h : Same a b) (ha : LiveAll rings a) : LiveAll rings b :=
  ⟨live_of_perm (List.Perm.of_eq h.ael) ha.1, by rw [h.mins]; exact ha.2⟩

theorem stepEdge_live {rings : List (Ring K)} {e e' : Edge K} (h : stepEdge rings e = some e') (hn : Live rings e) : Live rings e' := by
  obtain ⟨h1, h2, _⟩ := stepEdge_nav h
  exact ⟨h1, by rw [h2]; exact hn.2⟩

theorem toMax_le_any (rings : List (Ring K)) (up : Bool) (r i : Nat) (v : Vtx K) (hM : HasMax rings r)
    (h : nodeAt rings r i = some v) : toMax rings up r i ≤ ringSize rings r ∧
      ∃ w, nodeAt rings r ((advance (ringSize rings r) up)^[toMax rings up r i] i) = some w ∧ w.lmax = true := by
  obtain ⟨x, hx, _, h2, h3⟩ := nodeAt_ring h
  obtain ⟨j, w, hw, hwm⟩ := hM
  rw [h3] at hw
  obtain ⟨hj, rfl⟩ := List.getElem?_eq_some_iff.1 hw
  obtain ⟨k, hk, e⟩ := advance_reaches (ringSize rings r) up i j (nodeAt_lt h) (by omega)
  have hmem : k ∈ {k | ∃ v, nodeAt rings r ((advance (ringSize rings r) up)^[k] i) = some v ∧ v.lmax = true} :=
    ⟨x.nodes[j], by rw [e, h3, List.getElem?_eq_getElem hj], hwm⟩
  exact ⟨(Nat.sInf_le hmem).trans hk.le, Nat.sInf_mem ⟨k, hmem⟩⟩

theorem toMax_step_any (rings : List (Ring K)) (up : Bool) (r i : Nat) (v : Vtx K) (hM : HasMax rings r)
    (h : nodeAt rings r i = some v) (hm : v.lmax = false) :
    toMax rings up r (advance (ringSize rings r) up i) + 1 ≤ toMax rings up r i := by
  obtain ⟨_, w, hw, hwm⟩ := toMax_le_any rings up r i v hM h
  generalize hk : toMax rings up r i = k at hw
  cases k with
  | zero =>
    simp only [Function.iterate_zero, id] at hw
    rw [hw] at h
    simp only [Option.some.injEq] at h
    rw [h, hm] at hwm; cases hwm
  | succ k =>
    rw [Function.iterate_succ_apply] at hw
    have : toMax rings up r (advance (ringSize rings r) up i) ≤ k := Nat.sInf_le ⟨w, hw, hwm⟩
    omega

/-- A step away from a vertex that is not a local maximum. -/
theorem weight_step_any {rings : List (Ring K)} {e e' : Edge K} (hn : Live rings e)
    (hm : isMaxima rings e = some false) (h : stepEdge rings e = some e') : weight rings e' + 1 ≤ weight rings e := by
  obtain ⟨_, h1, h2, h3⟩ := stepEdge_nav h
  obtain ⟨⟨v, hv⟩, hM⟩ := hn
  rw [isMaxima, hv] at hm
  simp only [Option.map_some, Option.some.injEq] at hm
  rw [weight, weight, h1, h2, h3]
  exact toMax_step_any rings e.isUp e.ring e.vtop v hM hv hm

theorem weight_le_any {rings : List (Ring K)} {e : Edge K} (hn : Live rings e) :
    weight rings e ≤ ringSize rings e.ring := by
  obtain ⟨⟨v, hv⟩, hM⟩ := hn
  exact (toMax_le_any rings e.isUp e.ring e.vtop v hM hv).1

section
variable [FTrans K]

theorem newEdge_live (rings : List (Ring K)) (m : LocMin K) (i : Nat) (dx : Int) (ch ch' : List K) (e : Edge K) (hM : HasMax rings m.ring)
    (h : newEdge rings m i dx ch = some (e, ch')) : Live rings e ∧ e.ring = m.ring := by
  obtain ⟨h1, h2⟩ := newEdge_nav rings m i dx ch ch' e h
  exact ⟨⟨h1, by rw [h2]; exact hM⟩, h2⟩

theorem insertMins_potential_any (rings : List (Ring K)) (y : K) (ms : List (LocMin K)) (st st' : St K)
    (hn : LiveAll rings { st with mins := ms }) (h : insertMins rings y ms st = some st') :
    LiveAll rings st' ∧ potential rings st' ≤ potential rings { st with mins := ms } := by
  induction ms generalizing st with
  | nil => simp only [insertMins, Option.some.injEq] at h; subst h; exact ⟨hn, le_refl _⟩
  | cons m ms ih =>
    rw [insertMins] at h
    split at h
    · obtain ⟨st1, h1, h2⟩ := Option.bind_eq_some_iff.1 h
      rw [insertMin] at h1
      obtain ⟨ra, hra, h3⟩ := Option.bind_eq_some_iff.1 h1
      obtain ⟨rb, hrb, h4⟩ := Option.map_eq_some_iff.1 h3
      obtain ⟨a1, a2⟩ := newEdge_live rings m _ _ _ ra.2 ra.1 (hn.2 m List.mem_cons_self).hasMax hra
      obtain ⟨b1, b2⟩ := newEdge_live rings m _ _ _ rb.2 rb.1 (hn.2 m List.mem_cons_self).hasMax hrb
      have hp : st1.ael.Perm (rb.1 :: ra.1 :: st.ael) := by
        rw [← h4]
        exact (insertAfterPrev_perm _ _ _ _).trans (List.Perm.cons _ (insertAel_perm _ _ _))
      have hsc : st1.scan.length = st.scan.length + 2 := by
        rw [← h4]; simp [insertNum_length]
      have hwa := weight_le_any a1
      have hwb := weight_le_any b1
      obtain ⟨k1, k2⟩ := ih st1 ⟨fun e he => by
          rcases List.mem_cons.1 (hp.mem_iff.1 he) with h | h
          · rw [h]; exact b1
          · rcases List.mem_cons.1 h with h | h
            · rw [h]; exact a1
            · exact hn.1 e h, fun m hm => hn.2 m (List.mem_cons_of_mem _ hm)⟩ h2
      refine ⟨k1, k2.trans ?_⟩
      unfold potential
      simp only [List.map_cons, List.sum_cons, hsc, (hp.map (weight rings)).sum_eq, minWeight]
      rw [a2] at hwa
      rw [b2] at hwb
      omega
    · simp only [Option.some.injEq] at h; subst h; exact ⟨hn, le_refl _⟩

theorem horzGo_potential_any (rings : List (Ring K)) (fuel : Nat) (e : Edge K) (ch ch' : List K)
    (oe : Option (Edge K)) (hn : Live rings e) (h : horzGo rings fuel e ch = some (oe, ch')) :
    ∀ e' ∈ oe, Live rings e' ∧ weight rings e' ≤ weight rings e := by
  induction fuel generalizing e ch with
  | zero => simp [horzGo] at h
  | succ fuel ih =>
    rw [horzGo] at h
    split at h
    · obtain ⟨m, hm, h2⟩ := Option.bind_eq_some_iff.1 h
      split at h2
      · simp only [Option.some.injEq, Prod.mk.injEq] at h2
        rw [← h2.1]; simp
      · next hmf =>
        obtain ⟨e1, h1, h3⟩ := Option.bind_eq_some_iff.1 h2
        have hw := weight_step_any hn (by rw [hm]; simpa using hmf) h1
        intro e' he'
        obtain ⟨g1, g2⟩ := ih e1 _ (stepEdge_live h1 hn) h3 e' he'
        exact ⟨g1, by omega⟩
    · simp only [Option.some.injEq, Prod.mk.injEq] at h
      rw [← h.1]
      intro e' he'
      simp only [Option.mem_def, Option.some.injEq] at he'
      subst he'
      exact ⟨hn, le_refl _⟩

theorem topEdge_potential_any (rings : List (Ring K)) (y : K) (st : St K) (last : K) (e0 : Edge K)
    (r : Option (Edge K) × St K × K) (hn : Live rings e0) (h : topEdge rings y st last e0 = some r) :
    r.2.1.mins = st.mins ∧ (∀ e ∈ r.1, Live rings e) ∧
      r.2.1.scan.length + (r.1.toList.map (weight rings)).sum ≤ st.scan.length + weight rings e0 := by
  rw [topEdge] at h
  split at h
  · simp only at h
    obtain ⟨o, _, h2⟩ := Option.bind_eq_some_iff.1 h
    obtain ⟨m, hm, h3⟩ := Option.bind_eq_some_iff.1 h2
    split at h3
    · simp only [Option.some.injEq] at h3
      subst h3
      exact ⟨rfl, by simp, by simp⟩
    · next hmf =>
      obtain ⟨e1, h4, h5⟩ := Option.bind_eq_some_iff.1 h3
      obtain ⟨⟨oe, ch⟩, h6, h7⟩ := Option.map_eq_some_iff.1 h5
      have hn' : Live rings ({ e0 with currX := e0.top.x } : Edge K) := hn
      have hw : weight rings e1 + 1 ≤ weight rings e0 := weight_step_any (e := { e0 with currX := e0.top.x }) hn' (by rw [hm]; simpa using hmf) h4
      have hg := horzGo_potential_any rings _ e1 _ ch oe (stepEdge_live h4 hn') h6
      cases oe with
      | none =>
        simp only at h7
        subst h7
        exact ⟨rfl, by simp, by simp⟩
      | some e2 =>
        simp only at h7
        subst h7
        obtain ⟨g1, g2⟩ := hg e2 rfl
        refine ⟨rfl, by simpa using g1, ?_⟩
        simp only [insertNum_length, Option.toList_some, List.map_cons, List.map_nil, List.sum_cons, List.sum_nil]
        omega
  · obtain ⟨s, _, h2⟩ := Option.map_eq_some_iff.1 h
    subst h2
    refine ⟨rfl, ?_, ?_⟩
    · intro e he
      simp only [Option.mem_def, Option.some.injEq] at he
      subst he
      exact hn
    · simp [weight, Edge.isUp]

theorem topGo_potential_any (rings : List (Ring K)) (y : K) (st st' : St K) (last : K)
    (done rest : List (Edge K)) (hm : ∀ m ∈ st.mins, LiveMin rings m)
    (hd : ∀ e ∈ done, Live rings e) (hrest : ∀ e ∈ rest, Live rings e) (h : topGo rings y st last done rest = some st') :
    LiveAll rings st' ∧ potential rings st' ≤ potential rings { st with ael := done ++ rest } := by
  induction rest generalizing st last done with
  | nil => simp only [topGo, Option.some.injEq] at h; subst h; exact ⟨⟨hd, hm⟩, by simp⟩
  | cons e rest ih =>
    rw [topGo] at h
    obtain ⟨r, h1, h2⟩ := Option.bind_eq_some_iff.1 h
    obtain ⟨g1, g2, g3⟩ := topEdge_potential_any rings y st last e r (hrest e List.mem_cons_self) h1
    obtain ⟨k1, k2⟩ := ih r.2.1 r.2.2 (done ++ r.1.toList) (by rw [g1]; exact hm) (by
      intro a ha
      rcases List.mem_append.1 ha with h | h
      · exact hd a h
      · exact g2 a (by simpa using h)) (fun a ha => hrest a (List.mem_cons_of_mem _ ha)) h2
    refine ⟨k1, k2.trans ?_⟩
    unfold potential
    simp only [g1, List.map_append, List.sum_append, List.map_cons, List.sum_cons]
    omega

theorem sweepB_potential_any (rings : List (Ring K)) (y : K) (st st' : St K) (hn : LiveAll rings st)
    (h : sweepB rings y st = some st') : LiveAll rings st' ∧ potential rings st' ≤ potential rings st := by
  rw [sweepB] at h
  obtain ⟨st1, h1, h2⟩ := Option.bind_eq_some_iff.1 h
  obtain ⟨st2, h3, h4⟩ := Option.map_eq_some_iff.1 h2
  rw [doTop] at h1
  obtain ⟨g1, g2⟩ := topGo_potential_any rings y { st with changes := [] } st1 _ [] st.ael hn.2 (by simp) hn.1 h1
  have hs := closeOutput_same y st1 st2 h3
  have hp := resortAel_perm rings st2
  rw [← h4]
  refine ⟨⟨live_of_perm hp (hs.live g1).1, (hs.live g1).2⟩, ?_⟩
  have e1 : potential rings (resortAel rings st2) = potential rings st2 := by
    unfold potential
    rw [weight_of_perm hp]
    rfl
  rw [e1, hs.potential]
  exact g2

theorem sweepA_potential_any (rings : List (Ring K)) (ct : ClipType) (fr : FillRule) (y : K)
    (st st' : St K) (hn : LiveAll rings st) (h : sweepA rings ct fr y st = some st') :
    LiveAll rings st' ∧ potential rings st' ≤ potential rings st := by
  rw [sweepA] at h
  obtain ⟨st1, h1, h2⟩ := Option.bind_eq_some_iff.1 h
  obtain ⟨g1, g2⟩ := insertMins_potential_any rings y st.mins st st1 hn h1
  have hs := (recalcWind_same fr st1).trans (updateOutput_same rings ct fr y _ _ h2)
  exact ⟨hs.live g1, by rw [hs.potential]; exact g2⟩

/-- The main loop makes at most `potential + 1` rounds. -/
theorem sweep_terminates_any (rings : List (Ring K)) (ct : ClipType) (fr : FillRule) (fuel : Nat)
    (y : K) (st : St K) (hn : LiveAll rings st) (hf : potential rings st < fuel) : sweep rings ct fr fuel y st ≠ some none := by
  induction fuel generalizing y st with
  | zero => omega
  | succ fuel ih =>
    rw [sweep]
    cases h1 : sweepA rings ct fr y st with
    | none => simp
    | some st1 =>
      obtain ⟨g1, g2⟩ := sweepA_potential_any rings ct fr y st st1 hn h1
      simp only [Option.bind_some]
      cases h2 : popScan y st1.scan with
      | none => simp
      | some q =>
        obtain ⟨y', scan'⟩ := q
        have hlt := popScan_shorter _ _ _ _ h2
        simp only
        cases h3 : sweepB rings y' { st1 with scan := scan' } with
        | none => simp
        | some st2 =>
          obtain ⟨k1, k2⟩ := sweepB_potential_any rings y' { st1 with scan := scan' } st2 ⟨g1.1, g1.2⟩ h3
          simp only [Option.bind_some]
          refine ih y' st2 k1 ?_
          have : potential rings { st1 with scan := scan' } + 1 ≤ potential rings st1 := by
            unfold potential; simp only; omega
          omega

/-! ## contours stored by the API -/

/-- A stored contour in any arithmetic: with a local minimum it has a local maximum, and two of its vertices compare as different in
height. -/
structure RingLive [FNum K] (r : Ring K) : Prop where
  hasMax : (∃ v ∈ r.nodes, v.lmin = true) → ∃ v ∈ r.nodes, v.lmax = true
  heights : ∃ v ∈ r.nodes, ∃ w ∈ r.nodes, (v.pt.y ==. w.pt.y) = false

theorem resetSt_live (msort : List (LocMin K) → List (LocMin K)) (hm : ∀ l, (msort l).Perm l) (rings : List (Ring K))
    (hr : ∀ r ∈ rings, RingLive r) (out : Outs K) (changes scan : List K) : LiveAll rings (resetSt msort rings out changes scan) := by
  refine ⟨by simp [resetSt], ?_⟩
  intro m h
  obtain ⟨v, r, h1, h2, h3, h4, _⟩ := (locMins_spec rings m).1 ((hm _).mem_iff.1 h)
  refine ⟨⟨v, h1, h4⟩, ?_⟩
  have hv : v ∈ r.nodes := by
    rw [nodeAt, h2, Option.bind_some] at h1
    exact List.mem_of_getElem? h1
  obtain ⟨w, hw, hwm⟩ := (hr r (List.mem_of_getElem? h2)).hasMax ⟨v, hv, h3⟩
  obtain ⟨j, hj, rfl⟩ := List.getElem_of_mem hw
  exact ⟨j, r.nodes[j], by rw [nodeAt, h2, Option.bind_some, List.getElem?_eq_getElem hj], hwm⟩

theorem process_rounds_of_live (env : Env K) (msort : List (LocMin K) → List (LocMin K)) (hm : ∀ l, (msort l).Perm l) (fuel : Nat)
    (c : Clipper K) (rings : List (Ring K)) (hp : processIntersect env c.rings = some rings) (hr : ∀ r ∈ rings, RingLive r)
    (ct : ClipType) (fr : FillRule) {σ : Type} (f : Funcs K σ) (u : σ) (hf : c.scan.length + roundBound rings ≤ fuel) :
    c.process env msort fuel ct fr f u ≠ some none := by
  rw [Clipper.process, hp]
  simp only [Option.bind_some]
  cases hq : popScan (FNum.neg FNum.maxNum) (resetSt msort rings c.out c.changes c.scan).scan with
  | none => simp
  | some ys =>
    simp only
    have hlt := popScan_shorter _ _ _ _ hq
    have hpot := resetSt_potential msort hm rings c.out c.changes c.scan
    have hnav := resetSt_live msort hm rings hr c.out c.changes c.scan
    have ht := sweep_terminates_any rings ct fr fuel ys.1 { resetSt msort rings c.out c.changes c.scan with scan := ys.2 }
      ⟨hnav.1, hnav.2⟩ (by
        have : potential rings { resetSt msort rings c.out c.changes c.scan with scan := ys.2 } + 1 ≤
            potential rings (resetSt msort rings c.out c.changes c.scan) := by
          unfold potential; simp only; omega
        omega)
    cases hs : sweep rings ct fr fuel ys.1 { resetSt msort rings c.out c.changes c.scan with scan := ys.2 } with
    | none => simp
    | some r =>
      cases r with
      | none => exact absurd hs ht
      | some st' =>
        simp only [Option.bind_some]
        cases buildOutput f st'.out.polys u <;> simp

omit [FTrans K] in
/-- Walking around a contour, minima and maxima alternate. -/
theorem flagLoop_both [FNum K] (g0 g : Bool) (l : List (Vtx K)) (hne : l ≠ []) (hfresh : ∀ v ∈ l, v.lmin = false ∧ v.lmax = false) :
    (g = g0 → ((∃ v ∈ flagLoop g0 g l, v.lmin = true) ↔ ∃ v ∈ flagLoop g0 g l, v.lmax = true)) ∧
    (g ≠ g0 → if g0 then ∃ v ∈ flagLoop g0 g l, v.lmax = true else ∃ v ∈ flagLoop g0 g l, v.lmin = true) := by
  induction l generalizing g with
  | nil => exact absurd rfl hne
  | cons v vs ih =>
    obtain ⟨f1, f2⟩ := hfresh v List.mem_cons_self
    cases vs with
    | nil => cases g <;> cases g0 <;> simp [flagLoop, f1, f2]
    | cons w vs =>
      have ih := fun g => ih g (List.cons_ne_nil _ _) (fun u hu => hfresh u (List.mem_cons_of_mem _ hu))
      rw [flagLoop]
      split
      · next h =>
        rw [Bool.and_eq_true] at h
        obtain ⟨_, rfl⟩ := h
        obtain ⟨i1, i2⟩ := ih false
        cases g0 with
        | true => simpa [f2] using i2 (by simp)
        | false => simp
      · split
        · next h =>
          simp only [Bool.and_eq_true, Bool.not_eq_true'] at h
          obtain ⟨_, rfl⟩ := h
          obtain ⟨i1, i2⟩ := ih true
          cases g0 with
          | true => simp
          | false => simpa [f1] using i2 (by simp)
        · obtain ⟨i1, i2⟩ := ih g
          simpa [f1, f2] using And.intro i1 i2

omit [FTrans K] in
theorem walkBack_some [FNum K] (l : List K) (g : Bool) (h : walkBack l = some g) : ∃ a ∈ l, ∃ b ∈ l, (a ==. b) = false := by
  induction l with
  | nil => simp [walkBack] at h
  | cons a l ih =>
    cases l with
    | nil => simp [walkBack] at h
    | cons b l =>
      rw [walkBack] at h
      split at h
      · obtain ⟨x, hx, y, hy, e⟩ := ih h
        exact ⟨x, List.mem_cons_of_mem _ hx, y, List.mem_cons_of_mem _ hy, e⟩
      · next hne => exact ⟨a, by simp, b, by simp, by simpa using hne⟩

theorem insertVertexList_live (c : Contour K) (pt : PathType) (r : Ring K) (h : insertVertexList c pt = some r) : RingLive r := by
  unfold insertVertexList at h
  cases hc : closeContour c with
  | none => rw [hc] at h; cases h
  | some nodes =>
    rw [hc] at h; dsimp only at h
    cases hg : goingDown0 nodes with
    | none => rw [hg] at h; cases h
    | some g0 =>
      rw [hg] at h; simp only [Option.some.injEq] at h
      subst h
      obtain ⟨hlen, hfresh⟩ := closeContour_fresh c nodes hc
      have hne : nodes ≠ [] := by intro e; rw [e] at hlen; simp at hlen
      refine ⟨((flagLoop_both g0 g0 nodes hne hfresh).1 rfl).1, ?_⟩
      have key : ∀ y ∈ nodes.map Vtx.y, ∃ v ∈ flagLoop g0 g0 nodes, v.y = y := by
        intro y hy
        rw [← flagLoop_map_y g0 g0] at hy
        exact List.mem_map.1 hy
      unfold goingDown0 at hg
      cases nodes with
      | nil => exact absurd rfl hne
      | cons v vs =>
        simp only at hg
        obtain ⟨a, ha, b, hb, e⟩ := walkBack_some _ _ hg
        have hin : ∀ x ∈ v.y :: ((v :: vs).map Vtx.y).reverse, x ∈ (v :: vs).map Vtx.y := by
          intro x hx
          rcases List.mem_cons.1 hx with h | h
          · rw [h]; simp
          · exact List.mem_reverse.1 h
        obtain ⟨va, hva, ea⟩ := key a (hin a ha)
        obtain ⟨vb, hvb, eb⟩ := key b (hin b hb)
        refine ⟨va, hva, vb, hvb, ?_⟩
        have h1 : va.pt.y = a := ea
        have h2 : vb.pt.y = b := eb
        rw [h1, h2]; exact e

theorem intake_all (P : Ring K → Prop) (hP : ∀ c pt r, insertVertexList c pt = some r → P r) (pt : PathType) (es : List (Event K)) (d d' : Intake K) (hd : ∀ r ∈ d.rings, P r)
    (h : es.foldl (Path.deliver (intakeFuncs pt)) (some d) = some d') : ∀ r ∈ d'.rings, P r := by
  have happ : ∀ (d d' : Intake K) (s : Seg K), Intake.append d s = some d' → d'.rings = d.rings := by
    intro d d' s h
    unfold Intake.append at h
    split at h
    · cases h
    · simp only [Option.some.injEq] at h; rw [← h]
  have happs : ∀ (l : List (Seg K)) (d d' : Intake K), l.foldlM Intake.append d = some d' → d'.rings = d.rings := by
    intro l
    induction l with
    | nil => intro d d' h; simp at h; rw [h]
    | cons s l ih =>
      intro d d' h
      rw [List.foldlM_cons] at h
      obtain ⟨d1, h1, h2⟩ := Option.bind_eq_some_iff.1 h
      rw [ih d1 d' h2, happ d d1 s h1]
  have hline : ∀ (d d' : Intake K) (a b : Vec2 K), readLineto d a b = some d' → d'.rings = d.rings := by
    intro d d' a b h
    unfold readLineto at h
    split at h
    · exact happ _ _ _ h
    · simp only [Option.some.injEq] at h; rw [h]
  induction es generalizing d with
  | nil => simp only [List.foldl_nil, Option.some.injEq] at h; subst h; exact hd
  | cons e es ih =>
    rw [List.foldl_cons] at h
    cases hs : Path.deliver (intakeFuncs pt) (some d) e with
    | none => rw [hs, deliver_none] at h; cases h
    | some d1 =>
      rw [hs] at h
      refine ih d1 ?_ h
      obtain ⟨a, c⟩ := e
      cases c with
      | moveto q =>
        simp only [Path.deliver, intakeFuncs, Option.map_some, Option.some.injEq, readMoveto] at hs
        subst hs
        simp only [Intake.finish]
        split
        · exact hd
        · split
          · exact hd
          · next r hr =>
            intro r' hr'
            rcases List.mem_append.1 hr' with h | h
            · exact hd r' h
            · rw [List.mem_singleton.1 h]; exact hP _ _ _ hr
      | lineto q =>
        simp only [Path.deliver, intakeFuncs, Option.bind_some] at hs
        rw [hline _ _ _ _ hs]; exact hd
      | cubicto c1 c2 q =>
        simp only [Path.deliver, intakeFuncs, Option.bind_some, readCubicto] at hs
        split at hs
        · rw [hline _ _ _ _ hs]; exact hd
        · rw [happs _ _ _ hs]; exact hd

theorem finish_all (P : Ring K → Prop) (hP : ∀ c pt r, insertVertexList c pt = some r → P r) (d : Intake K) (pt : PathType) (hd : ∀ r ∈ d.rings, P r) : ∀ r ∈ (d.finish pt).rings, P r := by
  simp only [Intake.finish]
  split
  · exact hd
  · split
    · exact hd
    · next r hr =>
      intro r' hr'
      rcases List.mem_append.1 hr' with h | h
      · exact hd r' h
      · rw [List.mem_singleton.1 h]; exact hP _ _ _ hr

theorem addReader_all (P : Ring K → Prop) (hP : ∀ c pt r, insertVertexList c pt = some r → P r) (pt : PathType) (calls : List (ReadCall K)) (c c' : Clipper K) (hd : ∀ r ∈ c.rings, P r)
    (h : c.addReader calls pt = some c') : (∀ r ∈ c'.rings, P r) ∧ c'.scan = c.scan := by
  obtain ⟨d, h1, rfl⟩ := Option.map_eq_some_iff.1 h
  refine ⟨finish_all P hP d pt ?_, rfl⟩
  have ha : ReadCall.arc ∉ calls := fun ha => by rw [arc_undefined pt calls ha] at h1; cases h1
  have he : ∃ es : List (Event K), calls = es.map Event.call := by
    clear h1 h
    induction calls with
    | nil => exact ⟨[], rfl⟩
    | cons x l ih =>
      obtain ⟨es, rfl⟩ := ih (fun h => ha (List.mem_cons_of_mem _ h))
      cases x with
      | move a b => exact ⟨⟨a, .moveto b⟩ :: es, rfl⟩
      | line a b => exact ⟨⟨a, .lineto b⟩ :: es, rfl⟩
      | cubic a c1 c2 b => exact ⟨⟨a, .cubicto c1 c2 b⟩ :: es, rfl⟩
      | arc => exact absurd List.mem_cons_self ha
  obtain ⟨es, rfl⟩ := he
  rw [foldlM_event] at h1
  exact intake_all P hP pt es ⟨c.rings, none⟩ d hd h1

theorem addPaths_all (P : Ring K → Prop) (hP : ∀ c pt r, insertVertexList c pt = some r → P r) (pt : PathType) (css : List (List (Cmd K))) (rings rings' : List (Ring K)) (hd : ∀ r ∈ rings, P r)
    (h : addPaths pt rings (css.map Path.build) = some rings') : ∀ r ∈ rings', P r := by
  induction css generalizing rings with
  | nil => simp only [List.map_nil, addPaths, Option.some.injEq] at h; subst h; exact hd
  | cons cs css ih =>
    rw [List.map_cons, addPaths] at h
    split at h
    · obtain ⟨r1, h1, h2⟩ := Option.bind_eq_some_iff.1 h
      refine ih r1 ?_ h2
      rw [addPath1, Path.traverse, Path.traverse_build] at h1
      simp only [Option.map_some] at h1
      split at h1
      · cases h1
      · cases h1
      · next d hd' =>
        simp only [Option.some.injEq] at hd' h1
        have hok := intake_all P hP pt _ ⟨rings, none⟩ d hd hd'
        subst h1
        simp only [Intake.finish]
        split
        · exact hok
        · split
          · exact hok
          · next r hr =>
            intro r' hr'
            rcases List.mem_append.1 hr' with h | h
            · exact hok r' h
            · rw [List.mem_singleton.1 h]; exact hP _ _ _ hr
    · exact ih rings hd h

/-! ## breaking keeps the old vertices -/

omit [FTrans K] in
theorem breakNode_mark [FNum K] (tsort : List (Brk K) → List (Brk K)) (v : Vtx K) (q : Vec2 K) (bs : List (Brk K)) :
    ∃ a l, breakNode tsort v q bs = a :: l ∧ a.mark = v.mark ∧ ∀ w ∈ l, w.lmin = false := by
  unfold breakNode
  split
  · simp only
    split
    · exact ⟨v, [], rfl, rfl, by simp⟩
    · refine ⟨_, _, rfl, rfl, ?_⟩
      intro w hw
      obtain ⟨p, _, rfl⟩ := List.mem_map.1 hw
      rfl
  · simp only
    split
    · exact ⟨v, [], rfl, rfl, by simp⟩
    · refine ⟨_, _, rfl, rfl, ?_⟩
      intro w hw
      obtain ⟨p, _, rfl⟩ := List.mem_map.1 hw
      rfl

omit [FTrans K] in
theorem breakRing_live [FNum K] (tsort : List (Brk K) → List (Brk K)) (groups : List (Nat × List (Brk K))) (off : Nat) (r : Ring K)
    (h : RingLive r) : RingLive (breakRing tsort groups off r) := by
  have hch : ∀ vi : Vtx K × Nat, ∃ a l, (match groups.lookup (off + vi.2), r.nodes[(vi.2 + 1) % r.nodes.length]? with
      | some bs, some w => breakNode tsort vi.1 w.pt bs
      | _, _ => [vi.1]) = a :: l ∧ a.mark = vi.1.mark ∧ ∀ w ∈ l, w.lmin = false := by
    intro vi
    split
    · exact breakNode_mark _ _ _ _
    · exact ⟨vi.1, [], rfl, rfl, by simp⟩
  have keep : ∀ v ∈ r.nodes, ∃ w ∈ (breakRing tsort groups off r).nodes, w.mark = v.mark := by
    intro v hv
    obtain ⟨i, hi, rfl⟩ := List.getElem_of_mem hv
    obtain ⟨a, l, h1, h2, _⟩ := hch (r.nodes[i], i)
    refine ⟨a, ?_, h2⟩
    rw [breakRing, List.mem_flatMap]
    exact ⟨(r.nodes[i], i), List.mk_mem_zipIdx_iff_getElem?.2 (List.getElem?_eq_getElem hi), (congrArg (a ∈ ·) h1).mpr (by simp)⟩
  have back : ∀ w ∈ (breakRing tsort groups off r).nodes, w.lmin = true → ∃ v ∈ r.nodes, v.lmin = true := by
    intro w hw hm
    rw [breakRing, List.mem_flatMap] at hw
    obtain ⟨⟨v, i⟩, hv, hw⟩ := hw
    obtain ⟨a, l, h1, h2, h3⟩ := hch (v, i)
    have hw' : w ∈ a :: l := (congrArg (w ∈ ·) h1).mp hw
    rcases List.mem_cons.1 hw' with e | e
    · subst e
      simp only [Vtx.mark, Prod.mk.injEq] at h2
      exact ⟨v, List.mem_of_getElem? (List.mk_mem_zipIdx_iff_getElem?.1 hv), by rw [← h2.2.1, hm]⟩
    · rw [h3 w e] at hm; cases hm
  refine ⟨?_, ?_⟩
  · rintro ⟨w, hw, hm⟩
    obtain ⟨v, hv, hx⟩ := h.hasMax (back w hw hm)
    obtain ⟨u, hu, e⟩ := keep v hv
    simp only [Vtx.mark, Prod.mk.injEq] at e
    exact ⟨u, hu, by rw [e.2.2, hx]⟩
  · obtain ⟨v, hv, w, hw, hne⟩ := h.heights
    obtain ⟨v', hv', e⟩ := keep v hv
    obtain ⟨w', hw', e'⟩ := keep w hw
    simp only [Vtx.mark, Prod.mk.injEq] at e e'
    exact ⟨v', hv', w', hw', by rw [e.1, e'.1]; exact hne⟩

omit [FTrans K] in
theorem breakRings_live [FNum K] (tsort : List (Brk K) → List (Brk K)) (groups : List (Nat × List (Brk K))) (off : Nat) (rings : List (Ring K))
    (hr : ∀ r ∈ rings, RingLive r) : ∀ r ∈ breakRings tsort groups off rings, RingLive r := by
  induction rings generalizing off with
  | nil => simp [breakRings]
  | cons a l ih =>
    rw [breakRings]
    intro r hr'
    rcases List.mem_cons.1 hr' with h | h
    · rw [h]; exact breakRing_live _ _ _ _ (hr a List.mem_cons_self)
    · exact ih _ (fun x hx => hr x (List.mem_cons_of_mem _ hx)) r h

theorem processIntersect_live (env : Env K) (rings rings' : List (Ring K)) (hr : ∀ r ∈ rings, RingLive r)
    (h : processIntersect env rings = some rings') : ∀ r ∈ rings', RingLive r := by
  unfold processIntersect at h
  obtain ⟨brks, _, rfl⟩ := Option.map_eq_some_iff.1 h
  exact breakRings_live _ _ _ _ hr

/-- In every reachable state, in any arithmetic: where a stored contour has a local minimum it has a local maximum, its vertices are not all
at one height, and the scan line queue is empty. -/
theorem reach_live (env : Env K) (c : Clipper K) (h : c.Reach env) : (∀ r ∈ c.rings, RingLive r) ∧ c.scan = [] := by
  induction h with
  | new => exact ⟨by simp [Clipper.new], rfl⟩
  | addPath css pt _ h ih =>
    obtain ⟨r, h1, rfl⟩ := Option.map_eq_some_iff.1 h
    exact ⟨addPaths_all _ insertVertexList_live pt css _ _ ih.1 h1, ih.2⟩
  | addReader calls pt _ h ih =>
    obtain ⟨h1, h2⟩ := addReader_all _ insertVertexList_live pt calls _ _ ih.1 h
    exact ⟨h1, h2.trans ih.2⟩
  | process msort hm fuel ct fr f u u' _ h ih =>
    rw [Clipper.process] at h
    obtain ⟨rings, h1, h2⟩ := Option.bind_eq_some_iff.1 h
    have hr := processIntersect_live env _ _ ih.1 h1
    simp only at h2
    split at h2
    · simp only [Option.some.injEq, Prod.mk.injEq] at h2
      rw [← h2.1]; exact ⟨hr, rfl⟩
    · obtain ⟨r, h3, h4⟩ := Option.bind_eq_some_iff.1 h2
      cases r with
      | none => simp at h4
      | some st' =>
        obtain ⟨u1, _, h5⟩ := Option.map_eq_some_iff.1 h4
        simp only [Option.some.injEq, Prod.mk.injEq] at h5
        rw [← h5.1]
        exact ⟨hr, sweep_scan _ _ _ _ _ _ _ h3⟩

/-- **C50** in any arithmetic (no law is assumed of `+`, `<`, `==`, so all IEEE doubles, infinities and NaN included) and whatever the
sorts return: after any history of calls the main loop of `process` visits at most `roundBound` scan lines. -/
theorem process_terminates_any (env : Env K) (msort : List (LocMin K) → List (LocMin K)) (hm : ∀ l, (msort l).Perm l)
    (c : Clipper K) (hc : c.Reach env) (ct : ClipType) (fr : FillRule) {σ : Type} (f : Funcs K σ) (u : σ) :
    ∃ n, ∀ fuel, n ≤ fuel → c.process env msort fuel ct fr f u ≠ some none := by
  obtain ⟨h1, h2⟩ := reach_live env c hc
  cases hp : processIntersect env c.rings with
  | none => exact ⟨0, fun fuel _ => by rw [Clipper.process, hp]; simp⟩
  | some rings =>
    refine ⟨roundBound rings, fun fuel hf => ?_⟩
    exact process_rounds_of_live env msort hm fuel c rings hp (processIntersect_live env _ _ h1 hp) ct fr f u (by simp [h2, hf])

/-! ## the inner loops over horizontal edges -/

/-- The loop over horizontal successors at the top of a scan beam ends at the next local maximum, in any arithmetic. -/
theorem horzGo_defined_any (rings : List (Ring K)) (fuel : Nat) (e : Edge K) (ch : List K) (hn : Live rings e) (hf : weight rings e < fuel) :
    ∃ r, horzGo rings fuel e ch = some r := by
  induction fuel generalizing e ch with
  | zero => omega
  | succ fuel ih =>
    rw [horzGo]
    split
    · obtain ⟨m, hm⟩ := isMaxima_defined hn.1
      rw [hm, Option.bind_some]
      split
      · exact ⟨_, rfl⟩
      · next hmf =>
        obtain ⟨e', he'⟩ := stepEdge_defined hn.1
        rw [he', Option.bind_some]
        have := weight_step_any hn (by rw [hm]; simpa using hmf) he'
        exact ih e' _ (stepEdge_live he' hn) (by omega)
    · exact ⟨_, rfl⟩

/-- `==` is symmetric and transitive; on doubles it is, although it is not reflexive (NaN) and relates `0` and `-0`. -/
structure EqPer (K : Type) [FNum K] : Prop where
  symm : ∀ a b : K, (a ==. b) = true → (b ==. a) = true
  trans : ∀ a b c : K, (a ==. b) = true → (b ==. c) = true → (a ==. c) = true

theorem skipHorz_flat_any (hE : EqPer K) (rings : List (Ring K)) (fuel : Nat) (e : Edge K) (ch : List K) (ht : AtTop rings e)
    (h : skipHorz rings fuel e ch = none) (k : Nat) (hk : k < fuel) (w : Vtx K)
    (hw : nodeAt rings e.ring ((advance (ringSize rings e.ring) e.isUp)^[k] e.vtop) = some w) : (e.bot.y ==. w.pt.y) = true := by
  induction fuel generalizing e ch k with
  | zero => omega
  | succ fuel ih =>
    rw [skipHorz] at h
    split at h
    · next hh =>
      have heq : (e.bot.y ==. e.top.y) = true := hh
      obtain ⟨e', he'⟩ := stepEdge_defined ht.nav
      rw [he', Option.bind_some] at h
      obtain ⟨a1, a2⟩ := stepEdge_atTop he'
      obtain ⟨_, b1, b2, b3⟩ := stepEdge_nav he'
      cases k with
      | zero =>
        obtain ⟨v, hv, htv⟩ := ht
        simp only [Function.iterate_zero, id, hv, Option.some.injEq] at hw
        rw [← hw, ← htv, heq]
      | succ k =>
        rw [Function.iterate_succ_apply] at hw
        have := ih e' _ a1 h k (by omega) (by rw [b1, b2, b3]; exact hw)
        rw [a2] at this
        exact hE.trans _ _ _ heq this
    · cases h

/-- The loop over horizontal edges at a local minimum ends within the ring. -/
theorem skipHorz_defined_any (hE : EqPer K) (rings : List (Ring K)) (hr : ∀ r ∈ rings, RingLive r) (e : Edge K) (ch : List K)
    (ht : AtTop rings e) : ∃ r, skipHorz rings (ringSize rings e.ring + 1) e ch = some r := by
  cases h : skipHorz rings (ringSize rings e.ring + 1) e ch with
  | some r => exact ⟨r, rfl⟩
  | none =>
    exfalso
    obtain ⟨v, hv⟩ := ht.nav
    obtain ⟨x, hx, _, h2, h3⟩ := nodeAt_ring hv
    obtain ⟨a, ha, b, hb, hne⟩ := (hr x hx).heights
    have key : ∀ w ∈ x.nodes, (e.bot.y ==. w.pt.y) = true := by
      intro w hw
      obtain ⟨j, hj, rfl⟩ := List.getElem_of_mem hw
      obtain ⟨k, hk, e1⟩ := advance_reaches (ringSize rings e.ring) e.isUp e.vtop j (nodeAt_lt hv) (by omega)
      exact skipHorz_flat_any hE rings _ e ch ht h k (by omega) _ (by rw [e1, h3, List.getElem?_eq_getElem hj])
    have := hE.trans _ _ _ (hE.symm _ _ (key a ha)) (key b hb)
    rw [hne] at this; cases this

theorem newEdge_defined_any (hE : EqPer K) (rings : List (Ring K)) (hr : ∀ r ∈ rings, RingLive r) (m : LocMin K) (i : Nat) (dx : Int) (ch : List K)
    (v : Vtx K) (hv : nodeAt rings m.ring m.node = some v) : ∃ r, newEdge rings m i dx ch = some r := by
  have hlt := nodeAt_lt hv
  rw [newEdge]
  simp only
  generalize hj : (if dx < 0 then nextIdx (ringSize rings m.ring) m.node else prevIdx (ringSize rings m.ring) m.node) = j
  have hjlt : j < ringSize rings m.ring := by
    rw [← hj]; split
    · exact Nat.mod_lt _ (by omega)
    · exact Nat.mod_lt _ (by omega)
  obtain ⟨w, hw⟩ := nodeAt_of_lt hv hjlt
  rw [hw, Option.bind_some]
  obtain ⟨r, h⟩ := skipHorz_defined_any hE rings hr
    { eid := i, bot := m.pt, top := w.pt, currX := FNum.lit 0, windDx := dx, ring := m.ring, vtop := j, ptype := m.ptype }
    (ch ++ [m.pt.x]) ⟨w, hw, rfl⟩
  rw [h]
  exact ⟨_, rfl⟩

theorem insertMins_defined_any (hE : EqPer K) (rings : List (Ring K)) (hr : ∀ r ∈ rings, RingLive r) (y : K) (ms : List (LocMin K)) (st : St K)
    (hm : ∀ m ∈ ms, LiveMin rings m) : ∃ st', insertMins rings y ms st = some st' := by
  induction ms generalizing st with
  | nil => exact ⟨_, rfl⟩
  | cons m ms ih =>
    rw [insertMins]
    split
    · obtain ⟨⟨v, hv, _⟩, _⟩ := hm m List.mem_cons_self
      obtain ⟨ra, h1⟩ := newEdge_defined_any hE rings hr m st.nextId 1 st.changes v hv
      obtain ⟨rb, h2⟩ := newEdge_defined_any hE rings hr m (st.nextId + 1) (-1) ra.2 v hv
      rw [insertMin, h1, Option.bind_some, h2, Option.map_some, Option.bind_some]
      exact ih _ (fun a ha => hm a (List.mem_cons_of_mem _ ha))
    · exact ⟨_, rfl⟩

theorem topEdge_none_defined_any (rings : List (Ring K)) (y : K) (st : St K) (last : K) (e0 : Edge K)
    (hn : Live rings e0) (he : e0.bound = none) : ∃ r, topEdge rings y st last e0 = some r := by
  rw [topEdge]
  split
  · simp only [appendSeg, he, Option.bind_some]
    obtain ⟨m, hm⟩ := isMaxima_defined (e := { e0 with currX := e0.top.x, bound := none }) hn.1
    rw [hm, Option.bind_some]
    split
    · exact ⟨_, rfl⟩
    · obtain ⟨e1, h1⟩ := stepEdge_defined (e := { e0 with currX := e0.top.x, bound := none }) hn.1
      rw [h1, Option.bind_some]
      have g1 : Live rings e1 := stepEdge_live (e := { e0 with currX := e0.top.x, bound := none }) h1 hn
      obtain ⟨r, h2⟩ := horzGo_defined_any rings (ringSize rings e1.ring + 1) e1
        (if e0.top.x ==. last then st.changes ++ [last] else st.changes) g1 (Nat.lt_succ_of_le (weight_le_any g1))
      rw [(stepEdge_nav h1).2.1] at h2
      simp only at h2 ⊢
      rw [h2]
      exact ⟨_, rfl⟩
  · obtain ⟨s, hs⟩ := getSeg_defined hn.1
    rw [hs]; exact ⟨_, rfl⟩

theorem topGo_none_defined_any (rings : List (Ring K)) (y : K) (st : St K) (last : K)
    (done rest : List (Edge K)) (hn : ∀ e ∈ rest, Live rings e) (hb : ∀ e ∈ rest, e.bound = none) :
    ∃ st', topGo rings y st last done rest = some st' := by
  induction rest generalizing st last done with
  | nil => exact ⟨_, rfl⟩
  | cons e rest ih =>
    obtain ⟨r, h⟩ := topEdge_none_defined_any rings y st last e (hn e List.mem_cons_self) (hb e List.mem_cons_self)
    rw [topGo, h, Option.bind_some]
    exact ih _ _ _ (fun a ha => hn a (List.mem_cons_of_mem _ ha)) (fun a ha => hb a (List.mem_cons_of_mem _ ha))

theorem sweep_none_defined_any (hE : EqPer K) (rings : List (Ring K)) (hr : ∀ r ∈ rings, RingLive r) (fr : FillRule) (o : Outs K)
    (ho : o.oblFirst = none) (fuel : Nat) (y : K) (st : St K) (hn : LiveAll rings st) (hq : Quiet o st) :
    sweep rings .none fr fuel y st ≠ none := by
  induction fuel generalizing y st with
  | zero => simp [sweep]
  | succ fuel ih =>
    rw [sweep, sweepA]
    obtain ⟨st0, h0⟩ := insertMins_defined_any hE rings hr y st.mins st hn.2
    have hq0 := insertMins_quiet rings o y _ _ _ hq h0
    obtain ⟨hn0, _⟩ := insertMins_potential_any rings y st.mins st st0 hn h0
    obtain ⟨st1, h1, hq1, _⟩ := updateOutput_quiet rings fr o ho y _ (recalcWind_quiet fr o st0 hq0)
    have hn1 := ((recalcWind_same fr st0).trans (updateOutput_same _ _ _ _ _ _ h1)).live hn0
    rw [h0, Option.bind_some, h1, Option.bind_some]
    cases h2 : popScan y st1.scan with
    | none => simp
    | some q =>
      obtain ⟨y', scan'⟩ := q
      simp only
      obtain ⟨st2, h3⟩ : ∃ st2, sweepB rings y' { st1 with scan := scan' } = some st2 := by
        obtain ⟨st3, h4⟩ := topGo_none_defined_any rings y' { st1 with scan := scan', changes := [] } (FNum.neg FNum.maxNum) [] st1.ael
          hn1.1 hq1.2
        have hq3 := topGo_quiet rings o y' { st1 with scan := scan', changes := [] } st3 _ [] st1.ael hq1.1 (by simp) hq1.2 h4
        rw [sweepB, doTop]
        simp only
        rw [h4, Option.bind_some, closeOutput, hq3.1, ho]
        exact ⟨_, rfl⟩
      rw [h3, Option.bind_some]
      exact ih y' st2 (sweepB_potential_any rings y' { st1 with scan := scan' } st2 ⟨hn1.1, hn1.2⟩ h3).1
        (sweepB_quiet rings o ho y' { st1 with scan := scan' } st2 ⟨hq1.1, hq1.2⟩ h3)

/-- **C37** in any arithmetic with symmetric and transitive `==`: with `clip_type::none` a processor that has not been processed yet ends
and makes no callback, whatever paths it holds, provided the search for intersections is defined for them (C14). -/
theorem process_none_ends_any (hE : EqPer K) (env : Env K) (msort : List (LocMin K) → List (LocMin K)) (hm : ∀ l, (msort l).Perm l)
    (c : Clipper K) (hc : c.Reach env) (hnew : c.out.polys = []) (rings : List (Ring K))
    (hp : processIntersect env c.rings = some rings) (fr : FillRule) {σ : Type} (f : Funcs K σ) (u : σ) (fuel : Nat)
    (hf : roundBound rings ≤ fuel) : ∃ c', c.process env msort fuel .none fr f u = some (some (c', u)) := by
  obtain ⟨h1, h2⟩ := reach_live env c hc
  have hr := processIntersect_live env _ _ h1 hp
  have hend := process_rounds_of_live env msort hm fuel c rings hp hr .none fr f u (by simp [h2, hf])
  cases hres : c.process env msort fuel .none fr f u with
  | some r =>
    cases r with
    | none => exact absurd hres hend
    | some q =>
      obtain ⟨c', u'⟩ := q
      obtain ⟨h3, _⟩ := process_none env msort fuel c c' fr f u u' hnew hres
      exact ⟨c', by rw [h3]⟩
  | none =>
    exfalso
    rw [Clipper.process, hp] at hres
    simp only [Option.bind_some] at hres
    split at hres
    · simp at hres
    · next y scan' hq =>
      have hnav := resetSt_live msort hm rings hr c.out c.changes c.scan
      have hd := sweep_none_defined_any hE rings hr fr { c.out with oblFirst := none } rfl fuel y
        { resetSt msort rings c.out c.changes c.scan with scan := scan' } ⟨hnav.1, hnav.2⟩ ⟨rfl, by simp [resetSt]⟩
      cases hs : sweep rings .none fr fuel y { resetSt msort rings c.out c.changes c.scan with scan := scan' } with
      | none => exact hd hs
      | some r =>
        rw [hs, Option.bind_some] at hres
        cases r with
        | none => simp at hres
        | some st' =>
          have ho := sweep_quiet rings fr { c.out with oblFirst := none } rfl fuel _ _ st' ⟨rfl, by simp [resetSt]⟩ hs
          simp only [ho, hnew] at hres
          simp [buildOutput] at hres

end

/-! ## doubles -/

theorem dbl_eqPer : EqPer Dbl where
  symm := by
    intro a b h
    cases a <;> cases b <;> simp_all [FNum.eq, Dbl.eq]
  trans := by
    intro a b c h1 h2
    cases a <;> cases b <;> cases c <;> simp_all [FNum.eq, Dbl.eq]

/-- Two contours with a height that is not a number and one that is infinite. -/
def oddPolys : List (List (Vec2 Dbl)) :=
  [[⟨.of 0, .of 0⟩, ⟨.of 4, .nan⟩, ⟨.of 6, .of 5⟩, ⟨.of 2, .inf false⟩, ⟨.of 1, .of 3⟩, ⟨.of 0, .of 2⟩], [⟨.of 0, .nan⟩, ⟨.of 1, .of 1⟩, ⟨.of 2, .of 1⟩]]

/-- C50, C37 on these contours: the first has a minimum and a maximum, the second neither; sixteen rounds are enough. -/
theorem oddPolys_end :
    ((Clipper.new (K := Dbl)).addPath (oddPolys.map (fun P => Path.build (polyCmds P))) .subject).bind (fun c =>
      (processIntersect ieeeEnv c.rings).bind (fun rings =>
        (c.process ieeeEnv ieeeSort 16 .union .positive Path.recorder []).map (fun r =>
          (rings.map (fun x => x.nodes.map (fun v => (v.lmin, v.lmax))), roundBound rings, r.isSome)))) =
      some ([[(false, false), (false, false), (true, false), (false, true), (false, false), (false, false)],
        [(false, false), (false, false), (false, false)]], 16, true) := by
  decide +kernel

/-- **C50** for these contours from the general theorem, for every operation, rule and callbacks. -/
theorem oddPolys_ends_always (c : Clipper Dbl)
    (hc : (Clipper.new (K := Dbl)).addPath ((oddPolys.map polyCmds).map Path.build) .subject = some c) (ct : ClipType) (fr : FillRule)
    {σ : Type} (f : Funcs Dbl σ) (u : σ) : ∃ n, ∀ fuel, n ≤ fuel → c.process ieeeEnv ieeeSort fuel ct fr f u ≠ some none :=
  process_terminates_any ieeeEnv ieeeSort (fun l => (ieeeSort_ok l).1) c (.addPath _ .subject .new hc) ct fr f u

end River
