import Verif.Lemmas.Frame
import Verif.Spec.Process
import Verif.Props.Process
import Verif.Props.Reader

/-! # C50: `process` ends (and C37 completed) -/

namespace River
variable {K : Type}

/-! ## walking around a ring -/

/-- The vertex after `i` in the direction of an edge. -/
def advance (n : Nat) (up : Bool) (i : Nat) : Nat := if up then nextIdx n i else prevIdx n i

theorem advance_lt (n : Nat) (up : Bool) (i : Nat) (h : 0 < n) : advance n up i < n := by
  unfold advance nextIdx prevIdx
  split <;> exact Nat.mod_lt _ h

theorem advance_iter (n : Nat) (up : Bool) (k i : Nat) (hi : i < n) :
    (advance n up)^[k] i = if up then (i + k) % n else (i + k * (n - 1)) % n := by
  induction k with
  | zero => simp [Nat.mod_eq_of_lt hi]
  | succ k ih =>
    rw [Function.iterate_succ_apply', ih]
    cases up with
    | true => simp only [advance, if_true, nextIdx, Nat.mod_add_mod]; rfl
    | false =>
      simp only [advance, Bool.false_eq_true, if_false, prevIdx, Nat.mod_add_mod]
      congr 1; ring

theorem advance_reaches' (n : Nat) (up : Bool) (i j : Nat) (hi : i < n) (hj : j < n) :
    ∃ k, (advance n up)^[k] i = j := by
  cases up with
  | true =>
    refine ⟨j + (n - i), ?_⟩
    rw [advance_iter n _ _ _ hi]
    simp only [if_true]
    rw [show i + (j + (n - i)) = j + n by omega, Nat.add_mod_right, Nat.mod_eq_of_lt hj]
  | false =>
    obtain ⟨m, hm⟩ : ∃ m, i + n = j + (m + 1) := ⟨i + n - j - 1, by omega⟩
    obtain ⟨n', rfl⟩ : ∃ n', n = n' + 1 := ⟨n - 1, by omega⟩
    refine ⟨m + 1, ?_⟩
    rw [advance_iter _ _ _ _ hi]
    simp only [Bool.false_eq_true, if_false, Nat.add_sub_cancel]
    have : i + (m + 1) * n' = j + (n' + 1) * m := by
      have e1 : (m + 1) * n' = m * n' + n' := by ring
      have e2 : (n' + 1) * m = m * n' + m := by ring
      omega
    rw [this, Nat.add_mul_mod_self_left, Nat.mod_eq_of_lt hj]

/-- Every vertex is reached in fewer than `n` steps. -/
theorem advance_reaches (n : Nat) (up : Bool) (i j : Nat) (hi : i < n) (hj : j < n) :
    ∃ k, k < n ∧ (advance n up)^[k] i = j := by
  obtain ⟨k, hk⟩ := advance_reaches' n up i j hi hj
  refine ⟨k % n, Nat.mod_lt _ (by omega), ?_⟩
  rw [← hk, advance_iter _ _ _ _ hi, advance_iter _ _ _ _ hi]
  split
  · rw [Nat.add_mod_mod]
  · rw [Nat.add_mod, Nat.mod_mul_mod, ← Nat.add_mod]

/-- Number of steps from vertex `i` of ring `r` to the next local maximum. -/
noncomputable def toMax (rings : List (Ring K)) (up : Bool) (r i : Nat) : Nat :=
  sInf {k | ∃ v, nodeAt rings r ((advance (ringSize rings r) up)^[k] i) = some v ∧ v.lmax = true}

theorem nodeAt_lt {rings : List (Ring K)} {r i : Nat} {v : Vtx K} (h : nodeAt rings r i = some v) : i < ringSize rings r := by
  unfold nodeAt at h
  obtain ⟨x, hx, h2⟩ := Option.bind_eq_some_iff.1 h
  rw [ringSize, hx]
  exact (List.getElem?_eq_some_iff.1 h2).1

theorem nodeAt_ring {rings : List (Ring K)} {r i : Nat} {v : Vtx K} (h : nodeAt rings r i = some v) :
    ∃ x ∈ rings, rings[r]? = some x ∧ ringSize rings r = x.nodes.length ∧ ∀ j, nodeAt rings r j = x.nodes[j]? := by
  unfold nodeAt at h
  obtain ⟨x, hx, h2⟩ := Option.bind_eq_some_iff.1 h
  refine ⟨x, List.mem_of_getElem? hx, hx, by rw [ringSize, hx]; rfl, fun j => by rw [nodeAt, hx]; rfl⟩

theorem nodeAt_of_lt {rings : List (Ring K)} {r i j : Nat} {v : Vtx K} (h : nodeAt rings r i = some v)
    (hj : j < ringSize rings r) : ∃ w, nodeAt rings r j = some w := by
  obtain ⟨x, _, _, h2, h3⟩ := nodeAt_ring h
  rw [h3]
  exact ⟨_, List.getElem?_eq_getElem (by omega)⟩

theorem toMax_le (rings : List (Ring K)) (hr : ∀ r ∈ rings, RingOk r) (up : Bool) (r i : Nat) (v : Vtx K)
    (h : nodeAt rings r i = some v) : toMax rings up r i ≤ ringSize rings r ∧
      ∃ w, nodeAt rings r ((advance (ringSize rings r) up)^[toMax rings up r i] i) = some w ∧ w.lmax = true := by
  obtain ⟨x, hx, _, h2, h3⟩ := nodeAt_ring h
  obtain ⟨w, hw, hwm⟩ := (hr x hx).hasMax
  obtain ⟨j, hj, rfl⟩ := List.getElem_of_mem hw
  obtain ⟨k, hk, e⟩ := advance_reaches (ringSize rings r) up i j (nodeAt_lt h) (by omega)
  have hmem : k ∈ {k | ∃ v, nodeAt rings r ((advance (ringSize rings r) up)^[k] i) = some v ∧ v.lmax = true} :=
    ⟨x.nodes[j], by rw [e, h3, List.getElem?_eq_getElem hj], hwm⟩
  exact ⟨(Nat.sInf_le hmem).trans hk.le, Nat.sInf_mem ⟨k, hmem⟩⟩

theorem toMax_step (rings : List (Ring K)) (hr : ∀ r ∈ rings, RingOk r) (up : Bool) (r i : Nat) (v : Vtx K)
    (h : nodeAt rings r i = some v) (hm : v.lmax = false) :
    toMax rings up r (advance (ringSize rings r) up i) + 1 ≤ toMax rings up r i := by
  obtain ⟨_, w, hw, hwm⟩ := toMax_le rings hr up r i v h
  generalize hk : toMax rings up r i = k at hw
  cases k with
  | zero =>
    simp only [Function.iterate_zero, id] at hw
    rw [hw] at h
    simp only [Option.some.injEq] at h
    rw [h, hm] at hwm; cases hwm
  | succ k =>
    rw [Function.iterate_succ_apply] at hw
    have : toMax rings up r (advance (ringSize rings r) up i) ≤ k := Nat.sInf_le ⟨w, hw, hwm⟩
    omega

/-! ## the potential -/

/-- The edge's upper vertex exists. -/
def Nav (rings : List (Ring K)) (e : Edge K) : Prop := ∃ v, nodeAt rings e.ring e.vtop = some v

/-- Steps an edge has left. -/
noncomputable def weight (rings : List (Ring K)) (e : Edge K) : Nat := toMax rings e.isUp e.ring e.vtop

/-- Bound for what a local minimum will add. -/
def minWeight (rings : List (Ring K)) (m : LocMin K) : Nat := 2 + 2 * ringSize rings m.ring

/-- Scan lines still to be visited, at most. -/
noncomputable def potential (rings : List (Ring K)) (st : St K) : Nat :=
  st.scan.length + (st.ael.map (weight rings)).sum + (st.mins.map (minWeight rings)).sum

/-- All edges and minima refer to existing vertices. -/
def NavAll (rings : List (Ring K)) (st : St K) : Prop :=
  (∀ e ∈ st.ael, Nav rings e) ∧ ∀ m ∈ st.mins, ∃ v, nodeAt rings m.ring m.node = some v ∧ v.pt = m.pt

theorem weight_plain (rings : List (Ring K)) (e : Edge K) : weight rings e.plain = weight rings e := rfl
theorem nav_plain (rings : List (Ring K)) (e : Edge K) : Nav rings e.plain ↔ Nav rings e := Iff.rfl

theorem nav_of_perm {rings : List (Ring K)} {a b : List (Edge K)} (h : (a.map Edge.plain).Perm (b.map Edge.plain))
    (hb : ∀ e ∈ b, Nav rings e) : ∀ e ∈ a, Nav rings e := by
  intro e he
  have : e.plain ∈ b.map Edge.plain := h.mem_iff.1 (List.mem_map_of_mem he)
  obtain ⟨f, hf, e1⟩ := List.mem_map.1 this
  rw [← nav_plain, ← e1, nav_plain]
  exact hb f hf

theorem weight_of_perm {rings : List (Ring K)} {a b : List (Edge K)} (h : (a.map Edge.plain).Perm (b.map Edge.plain)) :
    (a.map (weight rings)).sum = (b.map (weight rings)).sum := by
  have e : ∀ l : List (Edge K), l.map (weight rings) = (l.map Edge.plain).map (weight rings) := by
    intro l; rw [List.map_map]; rfl
  rw [e a, e b]
  exact (h.map (weight rings)).sum_eq

theorem Same.potential {rings : List (Ring K)} {a b : St K} (h : Same a b) : potential rings b = potential rings a := by
  unfold River.potential
  rw [h.scan, h.mins, weight_of_perm (List.Perm.of_eq h.ael)]

theorem Same.nav {rings : List (Ring K)} {a b : St K} (h : Same a b) (ha : NavAll rings a) : NavAll rings b :=
  ⟨nav_of_perm (List.Perm.of_eq h.ael) ha.1, by rw [h.mins]; exact ha.2⟩

theorem stepEdge_nav {rings : List (Ring K)} {e e' : Edge K} (h : stepEdge rings e = some e') :
    Nav rings e' ∧ e'.ring = e.ring ∧ e'.isUp = e.isUp ∧ e'.vtop = advance (ringSize rings e.ring) e.isUp e.vtop := by
  obtain ⟨v, h1, h2, h3⟩ := stepEdge_some h
  have hr : e'.ring = e.ring := by rw [h3]
  have hu : e'.isUp = e.isUp := by rw [h3]; rfl
  exact ⟨⟨v, by rw [hr]; exact h1⟩, hr, hu, h2⟩

theorem stepEdge_defined {rings : List (Ring K)} {e : Edge K} (h : Nav rings e) : ∃ e', stepEdge rings e = some e' := by
  obtain ⟨v, hv⟩ := h
  have hlt := nodeAt_lt hv
  obtain ⟨w, hw⟩ := nodeAt_of_lt hv (advance_lt (ringSize rings e.ring) e.isUp e.vtop (by omega))
  unfold advance at hw
  simp only [stepEdge, hw, Option.map_some, Option.some.injEq, exists_eq']

theorem isMaxima_defined {rings : List (Ring K)} {e : Edge K} (h : Nav rings e) : ∃ m, isMaxima rings e = some m := by
  obtain ⟨v, hv⟩ := h
  exact ⟨v.lmax, by rw [isMaxima, hv]; rfl⟩

theorem getSeg_defined {rings : List (Ring K)} {e : Edge K} (h : Nav rings e) : ∃ s, getSeg rings e = some s := by
  obtain ⟨v, hv⟩ := h
  have hlt := nodeAt_lt hv
  rw [getSeg]
  split
  · obtain ⟨w, hw⟩ := nodeAt_of_lt hv (j := prevIdx (ringSize rings e.ring) e.vtop) (by
      unfold prevIdx; exact Nat.mod_lt _ (by omega))
    rw [hw]; exact ⟨_, rfl⟩
  · rw [hv]; exact ⟨_, rfl⟩

/-- A step away from a vertex that is not a local maximum. -/
theorem weight_step {rings : List (Ring K)} (hr : ∀ r ∈ rings, RingOk r) {e e' : Edge K} (hn : Nav rings e)
    (hm : isMaxima rings e = some false) (h : stepEdge rings e = some e') : weight rings e' + 1 ≤ weight rings e := by
  obtain ⟨_, h1, h2, h3⟩ := stepEdge_nav h
  obtain ⟨v, hv⟩ := hn
  rw [isMaxima, hv] at hm
  simp only [Option.map_some, Option.some.injEq] at hm
  rw [weight, weight, h1, h2, h3]
  exact toMax_step rings hr e.isUp e.ring e.vtop v hv hm

section
variable [FTrans K]

theorem skipHorz_nav (rings : List (Ring K)) (fuel : Nat) (e e' : Edge K) (ch ch' : List K) (hn : Nav rings e)
    (h : skipHorz rings fuel e ch = some (e', ch')) : Nav rings e' ∧ e'.ring = e.ring := by
  induction fuel generalizing e ch with
  | zero => simp [skipHorz] at h
  | succ fuel ih =>
    rw [skipHorz] at h
    split at h
    · obtain ⟨e1, h1, h2⟩ := Option.bind_eq_some_iff.1 h
      obtain ⟨g1, g2, _, _⟩ := stepEdge_nav h1
      obtain ⟨k1, k2⟩ := ih e1 _ g1 h2
      exact ⟨k1, k2.trans g2⟩
    · simp only [Option.some.injEq, Prod.mk.injEq] at h
      rw [← h.1]; exact ⟨hn, rfl⟩

theorem newEdge_nav (rings : List (Ring K)) (m : LocMin K) (i : Nat) (dx : Int) (ch ch' : List K) (e : Edge K)
    (h : newEdge rings m i dx ch = some (e, ch')) : Nav rings e ∧ e.ring = m.ring := by
  rw [newEdge] at h
  obtain ⟨v, hv, h2⟩ := Option.bind_eq_some_iff.1 h
  obtain ⟨r, hr, h3⟩ := Option.map_eq_some_iff.1 h2
  simp only [Prod.mk.injEq] at h3
  obtain ⟨g1, g2⟩ := skipHorz_nav rings _ _ r.1 _ r.2 ⟨v, hv⟩ hr
  rw [← h3.1]
  exact ⟨g1, g2⟩

omit [FTrans K] in
theorem weight_le {rings : List (Ring K)} (hr : ∀ r ∈ rings, RingOk r) {e : Edge K} (hn : Nav rings e) :
    weight rings e ≤ ringSize rings e.ring := by
  obtain ⟨v, hv⟩ := hn
  exact (toMax_le rings hr e.isUp e.ring e.vtop v hv).1

omit [FTrans K] in
theorem insertNum_length [FNum K] (x : K) (l : List K) : (insertNum x l).length = l.length + 1 := by
  induction l with
  | nil => rfl
  | cons a l ih => rw [insertNum]; split <;> simp [ih]

theorem insertMins_potential (rings : List (Ring K)) (hr : ∀ r ∈ rings, RingOk r) (y : K) (ms : List (LocMin K)) (st st' : St K)
    (hn : NavAll rings { st with mins := ms }) (h : insertMins rings y ms st = some st') :
    NavAll rings st' ∧ potential rings st' ≤ potential rings { st with mins := ms } := by
  induction ms generalizing st with
  | nil => simp only [insertMins, Option.some.injEq] at h; subst h; exact ⟨hn, le_refl _⟩
  | cons m ms ih =>
    rw [insertMins] at h
    split at h
    · obtain ⟨st1, h1, h2⟩ := Option.bind_eq_some_iff.1 h
      rw [insertMin] at h1
      obtain ⟨ra, hra, h3⟩ := Option.bind_eq_some_iff.1 h1
      obtain ⟨rb, hrb, h4⟩ := Option.map_eq_some_iff.1 h3
      obtain ⟨a1, a2⟩ := newEdge_nav rings m _ _ _ ra.2 ra.1 hra
      obtain ⟨b1, b2⟩ := newEdge_nav rings m _ _ _ rb.2 rb.1 hrb
      have hp : st1.ael.Perm (rb.1 :: ra.1 :: st.ael) := by
        rw [← h4]
        exact (insertAfterPrev_perm _ _ _ _).trans (List.Perm.cons _ (insertAel_perm _ _ _))
      have hsc : st1.scan.length = st.scan.length + 2 := by
        rw [← h4]; simp [insertNum_length]
      have hwa := weight_le hr a1
      have hwb := weight_le hr b1
      obtain ⟨k1, k2⟩ := ih st1 ⟨fun e he => by
          rcases List.mem_cons.1 (hp.mem_iff.1 he) with h | h
          · rw [h]; exact b1
          · rcases List.mem_cons.1 h with h | h
            · rw [h]; exact a1
            · exact hn.1 e h, fun m hm => hn.2 m (List.mem_cons_of_mem _ hm)⟩ h2
      refine ⟨k1, k2.trans ?_⟩
      unfold potential
      simp only [List.map_cons, List.sum_cons, hsc, (hp.map (weight rings)).sum_eq, minWeight]
      rw [a2] at hwa
      rw [b2] at hwb
      omega
    · simp only [Option.some.injEq] at h; subst h; exact ⟨hn, le_refl _⟩

theorem horzGo_potential (rings : List (Ring K)) (hr : ∀ r ∈ rings, RingOk r) (fuel : Nat) (e : Edge K) (ch ch' : List K)
    (oe : Option (Edge K)) (hn : Nav rings e) (h : horzGo rings fuel e ch = some (oe, ch')) :
    ∀ e' ∈ oe, Nav rings e' ∧ weight rings e' ≤ weight rings e := by
  induction fuel generalizing e ch with
  | zero => simp [horzGo] at h
  | succ fuel ih =>
    rw [horzGo] at h
    split at h
    · obtain ⟨m, hm, h2⟩ := Option.bind_eq_some_iff.1 h
      split at h2
      · simp only [Option.some.injEq, Prod.mk.injEq] at h2
        rw [← h2.1]; simp
      · next hmf =>
        obtain ⟨e1, h1, h3⟩ := Option.bind_eq_some_iff.1 h2
        have hw := weight_step hr hn (by rw [hm]; simpa using hmf) h1
        intro e' he'
        obtain ⟨g1, g2⟩ := ih e1 _ (stepEdge_nav h1).1 h3 e' he'
        exact ⟨g1, by omega⟩
    · simp only [Option.some.injEq, Prod.mk.injEq] at h
      rw [← h.1]
      intro e' he'
      simp only [Option.mem_def, Option.some.injEq] at he'
      subst he'
      exact ⟨hn, le_refl _⟩

theorem topEdge_potential (rings : List (Ring K)) (hr : ∀ r ∈ rings, RingOk r) (y : K) (st : St K) (last : K) (e0 : Edge K)
    (r : Option (Edge K) × St K × K) (hn : Nav rings e0) (h : topEdge rings y st last e0 = some r) :
    r.2.1.mins = st.mins ∧ (∀ e ∈ r.1, Nav rings e) ∧
      r.2.1.scan.length + (r.1.toList.map (weight rings)).sum ≤ st.scan.length + weight rings e0 := by
  rw [topEdge] at h
  split at h
  · simp only at h
    obtain ⟨o, _, h2⟩ := Option.bind_eq_some_iff.1 h
    obtain ⟨m, hm, h3⟩ := Option.bind_eq_some_iff.1 h2
    split at h3
    · simp only [Option.some.injEq] at h3
      subst h3
      exact ⟨rfl, by simp, by simp⟩
    · next hmf =>
      obtain ⟨e1, h4, h5⟩ := Option.bind_eq_some_iff.1 h3
      obtain ⟨⟨oe, ch⟩, h6, h7⟩ := Option.map_eq_some_iff.1 h5
      have hn' : Nav rings ({ e0 with currX := e0.top.x } : Edge K) := hn
      have hw : weight rings e1 + 1 ≤ weight rings e0 := weight_step (e := { e0 with currX := e0.top.x }) hr hn' (by rw [hm]; simpa using hmf) h4
      have hg := horzGo_potential rings hr _ e1 _ ch oe (stepEdge_nav h4).1 h6
      cases oe with
      | none =>
        simp only at h7
        subst h7
        exact ⟨rfl, by simp, by simp⟩
      | some e2 =>
        simp only at h7
        subst h7
        obtain ⟨g1, g2⟩ := hg e2 rfl
        refine ⟨rfl, by simpa using g1, ?_⟩
        simp only [insertNum_length, Option.toList_some, List.map_cons, List.map_nil, List.sum_cons, List.sum_nil]
        omega
  · obtain ⟨s, _, h2⟩ := Option.map_eq_some_iff.1 h
    subst h2
    refine ⟨rfl, ?_, ?_⟩
    · intro e he
      simp only [Option.mem_def, Option.some.injEq] at he
      subst he
      exact hn
    · simp [weight, Edge.isUp]

theorem topGo_potential (rings : List (Ring K)) (hr : ∀ r ∈ rings, RingOk r) (y : K) (st st' : St K) (last : K)
    (done rest : List (Edge K)) (hm : ∀ m ∈ st.mins, ∃ v, nodeAt rings m.ring m.node = some v ∧ v.pt = m.pt)
    (hd : ∀ e ∈ done, Nav rings e) (hrest : ∀ e ∈ rest, Nav rings e) (h : topGo rings y st last done rest = some st') :
    NavAll rings st' ∧ potential rings st' ≤ potential rings { st with ael := done ++ rest } := by
  induction rest generalizing st last done with
  | nil => simp only [topGo, Option.some.injEq] at h; subst h; exact ⟨⟨hd, hm⟩, by simp⟩
  | cons e rest ih =>
    rw [topGo] at h
    obtain ⟨r, h1, h2⟩ := Option.bind_eq_some_iff.1 h
    obtain ⟨g1, g2, g3⟩ := topEdge_potential rings hr y st last e r (hrest e List.mem_cons_self) h1
    obtain ⟨k1, k2⟩ := ih r.2.1 r.2.2 (done ++ r.1.toList) (by rw [g1]; exact hm) (by
      intro a ha
      rcases List.mem_append.1 ha with h | h
      · exact hd a h
      · exact g2 a (by simpa using h)) (fun a ha => hrest a (List.mem_cons_of_mem _ ha)) h2
    refine ⟨k1, k2.trans ?_⟩
    unfold potential
    simp only [g1, List.map_append, List.sum_append, List.map_cons, List.sum_cons]
    omega

theorem sweepB_potential (rings : List (Ring K)) (hr : ∀ r ∈ rings, RingOk r) (y : K) (st st' : St K) (hn : NavAll rings st)
    (h : sweepB rings y st = some st') : NavAll rings st' ∧ potential rings st' ≤ potential rings st := by
  rw [sweepB] at h
  obtain ⟨st1, h1, h2⟩ := Option.bind_eq_some_iff.1 h
  obtain ⟨st2, h3, h4⟩ := Option.map_eq_some_iff.1 h2
  rw [doTop] at h1
  obtain ⟨g1, g2⟩ := topGo_potential rings hr y { st with changes := [] } st1 _ [] st.ael hn.2 (by simp) hn.1 h1
  have hs := closeOutput_same y st1 st2 h3
  have hp := resortAel_perm rings st2
  rw [← h4]
  refine ⟨⟨nav_of_perm hp (hs.nav g1).1, (hs.nav g1).2⟩, ?_⟩
  have e1 : potential rings (resortAel rings st2) = potential rings st2 := by
    unfold potential
    rw [weight_of_perm hp]
    rfl
  rw [e1, hs.potential]
  exact g2

theorem sweepA_potential (rings : List (Ring K)) (hr : ∀ r ∈ rings, RingOk r) (ct : ClipType) (fr : FillRule) (y : K)
    (st st' : St K) (hn : NavAll rings st) (h : sweepA rings ct fr y st = some st') :
    NavAll rings st' ∧ potential rings st' ≤ potential rings st := by
  rw [sweepA] at h
  obtain ⟨st1, h1, h2⟩ := Option.bind_eq_some_iff.1 h
  obtain ⟨g1, g2⟩ := insertMins_potential rings hr y st.mins st st1 hn h1
  have hs := (recalcWind_same fr st1).trans (updateOutput_same rings ct fr y _ _ h2)
  exact ⟨hs.nav g1, by rw [hs.potential]; exact g2⟩

theorem popScan_shorter (old : K) (q : List K) (y : K) (q' : List K) (h : popScan old q = some (y, q')) :
    q'.length < q.length := by
  induction q with
  | nil => simp [popScan] at h
  | cons a q ih =>
    rw [popScan] at h
    split at h
    · have := ih h; simp; omega
    · simp only [Option.some.injEq, Prod.mk.injEq] at h
      rw [← h.2]
      have := (List.dropWhile_sublist (fun z => a ==. z) (l := q)).length_le
      simp; omega

/-- The main loop makes at most `potential + 1` rounds. -/
theorem sweep_terminates (rings : List (Ring K)) (hr : ∀ r ∈ rings, RingOk r) (ct : ClipType) (fr : FillRule) (fuel : Nat)
    (y : K) (st : St K) (hn : NavAll rings st) (hf : potential rings st < fuel) : sweep rings ct fr fuel y st ≠ some none := by
  induction fuel generalizing y st with
  | zero => omega
  | succ fuel ih =>
    rw [sweep]
    cases h1 : sweepA rings ct fr y st with
    | none => simp
    | some st1 =>
      obtain ⟨g1, g2⟩ := sweepA_potential rings hr ct fr y st st1 hn h1
      simp only [Option.bind_some]
      cases h2 : popScan y st1.scan with
      | none => simp
      | some q =>
        obtain ⟨y', scan'⟩ := q
        have hlt := popScan_shorter _ _ _ _ h2
        simp only
        cases h3 : sweepB rings y' { st1 with scan := scan' } with
        | none => simp
        | some st2 =>
          obtain ⟨k1, k2⟩ := sweepB_potential rings hr y' { st1 with scan := scan' } st2 ⟨g1.1, g1.2⟩ h3
          simp only [Option.bind_some]
          refine ih y' st2 k1 ?_
          have : potential rings { st1 with scan := scan' } + 1 ≤ potential rings st1 := by
            unfold potential; simp only; omega
          omega

/-- The number of rounds `process` needs at most for given contours. -/
def roundBound (rings : List (Ring K)) : Nat :=
  ((locMins rings).map (fun m => minWeight rings m + 1)).sum + 1

omit [FTrans K] in
theorem locMins_spec (rings : List (Ring K)) (m : LocMin K) : m ∈ locMins rings ↔
    ∃ v r, nodeAt rings m.ring m.node = some v ∧ rings[m.ring]? = some r ∧ v.lmin = true ∧ v.pt = m.pt ∧ r.ptype = m.ptype := by
  simp only [locMins, List.mem_flatMap, List.mem_filterMap, Prod.exists]
  constructor
  · rintro ⟨r, i, hr, v, j, hv, h⟩
    rw [List.mk_mem_zipIdx_iff_getElem?] at hr hv
    split at h
    · next hl =>
      simp only [Option.some.injEq] at h
      subst h
      exact ⟨v, r, by simp only [nodeAt, hr, Option.bind_some]; exact hv, hr, hl, rfl, rfl⟩
    · cases h
  · rintro ⟨v, r, h1, h2, h3, h4, h5⟩
    rw [nodeAt, h2, Option.bind_some] at h1
    refine ⟨r, m.ring, List.mk_mem_zipIdx_iff_getElem?.2 h2, v, m.node, List.mk_mem_zipIdx_iff_getElem?.2 h1, ?_⟩
    simp only [h3, if_true, h4, h5]

theorem resetSt_nav (msort : List (LocMin K) → List (LocMin K)) (hm : ∀ l, (msort l).Perm l) (rings : List (Ring K))
    (out : Outs K) (changes scan : List K) : NavAll rings (resetSt msort rings out changes scan) := by
  refine ⟨by simp [resetSt], ?_⟩
  intro m h
  obtain ⟨v, _, h1, _, _, h2, _⟩ := (locMins_spec rings m).1 ((hm _).mem_iff.1 h)
  exact ⟨v, h1, h2⟩

theorem resetSt_potential (msort : List (LocMin K) → List (LocMin K)) (hm : ∀ l, (msort l).Perm l) (rings : List (Ring K))
    (out : Outs K) (changes scan : List K) :
    potential rings (resetSt msort rings out changes scan) + 1 = scan.length + roundBound rings := by
  have h1 : ∀ l : List (LocMin K), (l.foldr (fun m s => insertNum m.pt.y s) scan).length = l.length + scan.length := by
    intro l
    induction l with
    | nil => simp
    | cons a l ih => rw [List.foldr_cons, insertNum_length, ih]; simp; omega
  unfold potential roundBound
  simp only [resetSt, h1, List.map_nil, List.sum_nil, ((hm (locMins rings)).map (minWeight rings)).sum_eq, (hm (locMins rings)).length_eq]
  have h2 : ∀ l : List (LocMin K), (l.map (fun m => minWeight rings m + 1)).sum = (l.map (minWeight rings)).sum + l.length := by
    intro l
    induction l with
    | nil => simp
    | cons a l ih => simp only [List.map_cons, List.sum_cons, ih, List.length_cons]; omega
  rw [h2]; omega

theorem process_rounds_of_ok (env : Env K) (msort : List (LocMin K) → List (LocMin K)) (hm : ∀ l, (msort l).Perm l) (fuel : Nat)
    (c : Clipper K) (rings : List (Ring K)) (hp : processIntersect env c.rings = some rings) (hr : ∀ r ∈ rings, RingOk r)
    (ct : ClipType) (fr : FillRule) {σ : Type} (f : Funcs K σ) (u : σ) (hf : c.scan.length + roundBound rings ≤ fuel) :
    c.process env msort fuel ct fr f u ≠ some none := by
  rw [Clipper.process, hp]
  simp only [Option.bind_some]
  cases hq : popScan (FNum.neg FNum.maxNum) (resetSt msort rings c.out c.changes c.scan).scan with
  | none => simp
  | some ys =>
    simp only
    have hlt := popScan_shorter _ _ _ _ hq
    have hpot := resetSt_potential msort hm rings c.out c.changes c.scan
    have hnav := resetSt_nav msort hm rings c.out c.changes c.scan
    have ht := sweep_terminates rings hr ct fr fuel ys.1 { resetSt msort rings c.out c.changes c.scan with scan := ys.2 }
      ⟨hnav.1, hnav.2⟩ (by
        have : potential rings { resetSt msort rings c.out c.changes c.scan with scan := ys.2 } + 1 ≤
            potential rings (resetSt msort rings c.out c.changes c.scan) := by
          unfold potential; simp only; omega
        omega)
    cases hs : sweep rings ct fr fuel ys.1 { resetSt msort rings c.out c.changes c.scan with scan := ys.2 } with
    | none => simp
    | some r =>
      cases r with
      | none => exact absurd hs ht
      | some st' =>
        simp only [Option.bind_some]
        cases buildOutput f st'.out.polys u <;> simp

end

/-! ## contours stored by the API -/

section ordered
variable [FTrans K] [LinearOrder K] [LawfulOrd K]

theorem insertVertexList_ok (c : Contour K) (pt : PathType) (r : Ring K) (h : insertVertexList c pt = some r) : RingOk r := by
  obtain ⟨nodes, h1, h2, _⟩ := insertVertexList_nodes c pt r h
  obtain ⟨g1, g2⟩ := insertVertexList_has_min c pt r h
  obtain ⟨_, _, hl⟩ := closeContour_spec c nodes h1
  have hlen : r.nodes.length = nodes.length := by simpa using congrArg List.length h2
  have hget : ∀ (i : Nat) (v : Vtx K), r.nodes[i]? = some v → ∃ w, nodes[i]? = some w ∧ w.pt = v.pt ∧ w.seg = v.seg := by
    intro i v hv
    have := congrArg (fun l => l[i]?) h2
    simp only [List.getElem?_map, hv, Option.map_some] at this
    obtain ⟨w, hw, e⟩ := Option.map_eq_some_iff.1 this.symm
    simp only [Prod.mk.injEq] at e
    exact ⟨w, hw, e.1, e.2⟩
  refine ⟨?_, g1, g2, ?_⟩
  · intro i v w hv hw
    obtain ⟨v', a1, a2, a3⟩ := hget i v hv
    obtain ⟨w', b1, b2, b3⟩ := hget _ w hw
    rw [hlen] at b1
    rw [← a3, ← b2]
    exact hl i v' w' a1 b1
  · by_contra hne
    push Not at hne
    have hn := (insertVertexList_none_iff c pt).2 (by
      intro nodes' hn' v hv w hw
      rw [h1, Option.some.injEq] at hn'
      subst hn'
      have key : ∀ v ∈ nodes, ∃ v' ∈ r.nodes, v'.pt = v.pt := by
        intro v hv
        have : (v.pt, v.seg) ∈ r.nodes.map (fun v => (v.pt, v.seg)) := by rw [h2]; exact List.mem_map_of_mem hv
        obtain ⟨v', h3, h4⟩ := List.mem_map.1 this
        exact ⟨v', h3, by simpa using congrArg Prod.fst h4⟩
      obtain ⟨v', hv', ev⟩ := key v hv
      obtain ⟨w', hw', ew⟩ := key w hw
      have := hne v' hv' w' hw'
      rw [ev, ew] at this
      exact this)
    rw [h] at hn; cases hn

theorem intake_ok (pt : PathType) (es : List (Event K)) (d d' : Intake K) (hd : ∀ r ∈ d.rings, RingOk r)
    (h : es.foldl (Path.deliver (intakeFuncs pt)) (some d) = some d') : ∀ r ∈ d'.rings, RingOk r := by
  have happ : ∀ (d d' : Intake K) (s : Seg K), Intake.append d s = some d' → d'.rings = d.rings := by
    intro d d' s h
    unfold Intake.append at h
    split at h
    · cases h
    · simp only [Option.some.injEq] at h; rw [← h]
  have happs : ∀ (l : List (Seg K)) (d d' : Intake K), l.foldlM Intake.append d = some d' → d'.rings = d.rings := by
    intro l
    induction l with
    | nil => intro d d' h; simp at h; rw [h]
    | cons s l ih =>
      intro d d' h
      rw [List.foldlM_cons] at h
      obtain ⟨d1, h1, h2⟩ := Option.bind_eq_some_iff.1 h
      rw [ih d1 d' h2, happ d d1 s h1]
  have hline : ∀ (d d' : Intake K) (a b : Vec2 K), readLineto d a b = some d' → d'.rings = d.rings := by
    intro d d' a b h
    unfold readLineto at h
    split at h
    · exact happ _ _ _ h
    · simp only [Option.some.injEq] at h; rw [h]
  induction es generalizing d with
  | nil => simp only [List.foldl_nil, Option.some.injEq] at h; subst h; exact hd
  | cons e es ih =>
    rw [List.foldl_cons] at h
    cases hs : Path.deliver (intakeFuncs pt) (some d) e with
    | none => rw [hs, deliver_none] at h; cases h
    | some d1 =>
      rw [hs] at h
      refine ih d1 ?_ h
      obtain ⟨a, c⟩ := e
      cases c with
      | moveto q =>
        simp only [Path.deliver, intakeFuncs, Option.map_some, Option.some.injEq, readMoveto] at hs
        subst hs
        simp only [Intake.finish]
        split
        · exact hd
        · split
          · exact hd
          · next r hr =>
            intro r' hr'
            rcases List.mem_append.1 hr' with h | h
            · exact hd r' h
            · rw [List.mem_singleton.1 h]; exact insertVertexList_ok _ _ _ hr
      | lineto q =>
        simp only [Path.deliver, intakeFuncs, Option.bind_some] at hs
        rw [hline _ _ _ _ hs]; exact hd
      | cubicto c1 c2 q =>
        simp only [Path.deliver, intakeFuncs, Option.bind_some, readCubicto] at hs
        split at hs
        · rw [hline _ _ _ _ hs]; exact hd
        · rw [happs _ _ _ hs]; exact hd

theorem finish_ok (d : Intake K) (pt : PathType) (hd : ∀ r ∈ d.rings, RingOk r) : ∀ r ∈ (d.finish pt).rings, RingOk r := by
  simp only [Intake.finish]
  split
  · exact hd
  · split
    · exact hd
    · next r hr =>
      intro r' hr'
      rcases List.mem_append.1 hr' with h | h
      · exact hd r' h
      · rw [List.mem_singleton.1 h]; exact insertVertexList_ok _ _ _ hr

theorem addReader_ok (pt : PathType) (calls : List (ReadCall K)) (c c' : Clipper K) (hd : ∀ r ∈ c.rings, RingOk r)
    (h : c.addReader calls pt = some c') : (∀ r ∈ c'.rings, RingOk r) ∧ c'.scan = c.scan := by
  obtain ⟨d, h1, rfl⟩ := Option.map_eq_some_iff.1 h
  refine ⟨finish_ok d pt ?_, rfl⟩
  have ha : ReadCall.arc ∉ calls := fun ha => by rw [arc_undefined pt calls ha] at h1; cases h1
  have he : ∃ es : List (Event K), calls = es.map Event.call := by
    clear h1 h
    induction calls with
    | nil => exact ⟨[], rfl⟩
    | cons x l ih =>
      obtain ⟨es, rfl⟩ := ih (fun h => ha (List.mem_cons_of_mem _ h))
      cases x with
      | move a b => exact ⟨⟨a, .moveto b⟩ :: es, rfl⟩
      | line a b => exact ⟨⟨a, .lineto b⟩ :: es, rfl⟩
      | cubic a c1 c2 b => exact ⟨⟨a, .cubicto c1 c2 b⟩ :: es, rfl⟩
      | arc => exact absurd List.mem_cons_self ha
  obtain ⟨es, rfl⟩ := he
  rw [foldlM_event] at h1
  exact intake_ok pt es ⟨c.rings, none⟩ d hd h1

theorem addPaths_ok (pt : PathType) (css : List (List (Cmd K))) (rings rings' : List (Ring K)) (hd : ∀ r ∈ rings, RingOk r)
    (h : addPaths pt rings (css.map Path.build) = some rings') : ∀ r ∈ rings', RingOk r := by
  induction css generalizing rings with
  | nil => simp only [List.map_nil, addPaths, Option.some.injEq] at h; subst h; exact hd
  | cons cs css ih =>
    rw [List.map_cons, addPaths] at h
    split at h
    · obtain ⟨r1, h1, h2⟩ := Option.bind_eq_some_iff.1 h
      refine ih r1 ?_ h2
      rw [addPath1, Path.traverse, Path.traverse_build] at h1
      simp only [Option.map_some] at h1
      split at h1
      · cases h1
      · cases h1
      · next d hd' =>
        simp only [Option.some.injEq] at hd' h1
        have hok := intake_ok pt _ ⟨rings, none⟩ d hd hd'
        subst h1
        simp only [Intake.finish]
        split
        · exact hok
        · split
          · exact hok
          · next r hr =>
            intro r' hr'
            rcases List.mem_append.1 hr' with h | h
            · exact hok r' h
            · rw [List.mem_singleton.1 h]; exact insertVertexList_ok _ _ _ hr
    · exact ih rings hd h

theorem processIntersect_ok (env : Env K) (hok : env.Ok) (rings rings' : List (Ring K)) (hr : ∀ r ∈ rings, RingOk r)
    (h : processIntersect env rings = some rings') : ∀ r ∈ rings', RingOk r := by
  obtain ⟨_, _, _, _, _, _, h6⟩ := processIntersect_spec env hok rings rings' (fun r hr' => (hr r hr').linked) h
  intro r' hr'
  obtain ⟨i, hi, rfl⟩ := List.getElem_of_mem hr'
  have hlen := h6.length_eq
  have hi' : i < rings.length := by omega
  have hrel := List.forall₂_iff_get.1 h6 |>.2 i hi' hi
  simp only [List.get_eq_getElem] at hrel
  obtain ⟨_, _, h2, h3⟩ := hrel
  have hold := hr _ (List.getElem_mem hi')
  have key : ∀ v ∈ (rings[i]).nodes, ∃ w ∈ (rings'[i]).nodes, w.mark = v.mark := by
    intro v hv
    exact List.mem_map.1 (h3.subset (List.mem_map_of_mem hv))
  refine ⟨h2, ?_, ?_, ?_⟩
  · obtain ⟨v, hv, hm⟩ := hold.hasMin
    obtain ⟨w, hw, e⟩ := key v hv
    simp only [Vtx.mark, Prod.mk.injEq] at e
    exact ⟨w, hw, by rw [e.2.1, hm]⟩
  · obtain ⟨v, hv, hm⟩ := hold.hasMax
    obtain ⟨w, hw, e⟩ := key v hv
    simp only [Vtx.mark, Prod.mk.injEq] at e
    exact ⟨w, hw, by rw [e.2.2, hm]⟩
  · obtain ⟨v, hv, w, hw, hne⟩ := hold.heights
    obtain ⟨v', hv', e⟩ := key v hv
    obtain ⟨w', hw', e'⟩ := key w hw
    simp only [Vtx.mark, Prod.mk.injEq] at e e'
    exact ⟨v', hv', w', hw', by rw [e.1, e'.1]; exact hne⟩

omit [LinearOrder K] [LawfulOrd K] in
theorem sweep_scan (rings : List (Ring K)) (ct : ClipType) (fr : FillRule) (fuel : Nat) (y : K) (st st' : St K)
    (h : sweep rings ct fr fuel y st = some (some st')) : st'.scan = [] := by
  induction fuel generalizing y st with
  | zero => simp [sweep] at h
  | succ fuel ih =>
    rw [sweep] at h
    obtain ⟨st1, _, h2⟩ := Option.bind_eq_some_iff.1 h
    split at h2
    · simp only [Option.some.injEq] at h2; rw [← h2]
    · obtain ⟨st2, _, h3⟩ := Option.bind_eq_some_iff.1 h2
      exact ih _ _ h3

/-- In every reachable state the stored contours are proper rings and the scan line queue is empty. -/
theorem reach_ok (env : Env K) (hok : env.Ok) (c : Clipper K) (h : c.Reach env) : (∀ r ∈ c.rings, RingOk r) ∧ c.scan = [] := by
  induction h with
  | new => exact ⟨by simp [Clipper.new], rfl⟩
  | addPath css pt _ h ih =>
    obtain ⟨r, h1, rfl⟩ := Option.map_eq_some_iff.1 h
    exact ⟨addPaths_ok pt css _ _ ih.1 h1, ih.2⟩
  | addReader calls pt _ h ih =>
    obtain ⟨h1, h2⟩ := addReader_ok pt calls _ _ ih.1 h
    exact ⟨h1, h2.trans ih.2⟩
  | process msort hm fuel ct fr f u u' _ h ih =>
    rw [Clipper.process] at h
    obtain ⟨rings, h1, h2⟩ := Option.bind_eq_some_iff.1 h
    have hr := processIntersect_ok env hok _ _ ih.1 h1
    simp only at h2
    split at h2
    · simp only [Option.some.injEq, Prod.mk.injEq] at h2
      rw [← h2.1]; exact ⟨hr, rfl⟩
    · obtain ⟨r, h3, h4⟩ := Option.bind_eq_some_iff.1 h2
      cases r with
      | none => simp at h4
      | some st' =>
        obtain ⟨u1, _, h5⟩ := Option.map_eq_some_iff.1 h4
        simp only [Option.some.injEq, Prod.mk.injEq] at h5
        rw [← h5.1]
        exact ⟨hr, sweep_scan _ _ _ _ _ _ _ h3⟩

/-- **C50**: whatever was added to a processor before, whatever the operation, fill rule and callbacks: the main loop of
`process` visits a bounded number of scan lines, namely at most `roundBound` of the broken contours. -/
theorem process_terminates (env : Env K) (hok : env.Ok) (msort : List (LocMin K) → List (LocMin K)) (hm : ∀ l, (msort l).Perm l)
    (c : Clipper K) (hc : c.Reach env) (ct : ClipType) (fr : FillRule) {σ : Type} (f : Funcs K σ) (u : σ) :
    ∃ n, ∀ fuel, n ≤ fuel → c.process env msort fuel ct fr f u ≠ some none := by
  obtain ⟨h1, h2⟩ := reach_ok env hok c hc
  cases hp : processIntersect env c.rings with
  | none => exact ⟨0, fun fuel _ => by rw [Clipper.process, hp]; simp⟩
  | some rings =>
    refine ⟨roundBound rings, fun fuel hf => ?_⟩
    exact process_rounds_of_ok env msort hm fuel c rings hp (processIntersect_ok env hok _ _ h1 hp) ct fr f u (by simp [h2, hf])

/-! ## the inner loops over horizontal edges -/

/-- The upper end of the edge is the point of its upper vertex. -/
def AtTop (rings : List (Ring K)) (e : Edge K) : Prop := ∃ v, nodeAt rings e.ring e.vtop = some v ∧ e.top = v.pt

omit [FTrans K] [LinearOrder K] [LawfulOrd K] in
theorem AtTop.nav {rings : List (Ring K)} {e : Edge K} (h : AtTop rings e) : Nav rings e := by
  obtain ⟨v, hv, _⟩ := h; exact ⟨v, hv⟩

omit [FTrans K] [LinearOrder K] [LawfulOrd K] in
theorem stepEdge_atTop {rings : List (Ring K)} {e e' : Edge K} (h : stepEdge rings e = some e') :
    AtTop rings e' ∧ e'.bot = e.top := by
  obtain ⟨v, h1, h2, h3⟩ := stepEdge_some h
  have hr : e'.ring = e.ring := by rw [h3]
  exact ⟨⟨v, by rw [hr]; exact h1, by rw [h3]⟩, by rw [h3]⟩

theorem skipHorz_flat (rings : List (Ring K)) (fuel : Nat) (e : Edge K) (ch : List K) (ht : AtTop rings e)
    (h : skipHorz rings fuel e ch = none) (k : Nat) (hk : k < fuel) (w : Vtx K)
    (hw : nodeAt rings e.ring ((advance (ringSize rings e.ring) e.isUp)^[k] e.vtop) = some w) : w.pt.y = e.bot.y := by
  induction fuel generalizing e ch k with
  | zero => omega
  | succ fuel ih =>
    rw [skipHorz] at h
    split at h
    · next hh =>
      have heq : e.bot.y = e.top.y := by simpa [Edge.isHorz, eq_eq_decide] using hh
      obtain ⟨e', he'⟩ := stepEdge_defined ht.nav
      rw [he', Option.bind_some] at h
      obtain ⟨a1, a2⟩ := stepEdge_atTop he'
      obtain ⟨_, b1, b2, b3⟩ := stepEdge_nav he'
      cases k with
      | zero =>
        obtain ⟨v, hv, htv⟩ := ht
        simp only [Function.iterate_zero, id, hv, Option.some.injEq] at hw
        rw [← hw, ← htv, heq]
      | succ k =>
        rw [Function.iterate_succ_apply] at hw
        rw [ih e' _ a1 h k (by omega) (by rw [b1, b2, b3]; exact hw), a2, heq]
    · cases h

theorem horzGo_flat (rings : List (Ring K)) (fuel : Nat) (e : Edge K) (ch : List K) (ht : AtTop rings e)
    (h : horzGo rings fuel e ch = none) (k : Nat) (hk : k < fuel) (w : Vtx K)
    (hw : nodeAt rings e.ring ((advance (ringSize rings e.ring) e.isUp)^[k] e.vtop) = some w) : w.pt.y = e.bot.y := by
  induction fuel generalizing e ch k with
  | zero => omega
  | succ fuel ih =>
    rw [horzGo] at h
    split at h
    · next hh =>
      have heq : e.bot.y = e.top.y := by simpa [Edge.isHorz, eq_eq_decide] using hh
      obtain ⟨m, hm⟩ := isMaxima_defined ht.nav
      rw [hm, Option.bind_some] at h
      split at h
      · cases h
      · obtain ⟨e', he'⟩ := stepEdge_defined ht.nav
        rw [he', Option.bind_some] at h
        obtain ⟨a1, a2⟩ := stepEdge_atTop he'
        obtain ⟨_, b1, b2, b3⟩ := stepEdge_nav he'
        cases k with
        | zero =>
          obtain ⟨v, hv, htv⟩ := ht
          simp only [Function.iterate_zero, id, hv, Option.some.injEq] at hw
          rw [← hw, ← htv, heq]
        | succ k =>
          rw [Function.iterate_succ_apply] at hw
          rw [ih e' _ a1 h k (by omega) (by rw [b1, b2, b3]; exact hw), a2, heq]
    · cases h

omit [FTrans K] [LinearOrder K] [LawfulOrd K] in
/-- A ring is not flat. -/
theorem not_flat (rings : List (Ring K)) (hr : ∀ r ∈ rings, RingOk r) (e : Edge K) (hn : Nav rings e) (y : K) (fuel : Nat)
    (hf : ringSize rings e.ring ≤ fuel) (h : ∀ k, k < fuel → ∀ w,
      nodeAt rings e.ring ((advance (ringSize rings e.ring) e.isUp)^[k] e.vtop) = some w → w.pt.y = y) : False := by
  obtain ⟨v, hv⟩ := hn
  obtain ⟨x, hx, _, h2, h3⟩ := nodeAt_ring hv
  obtain ⟨a, ha, b, hb, hne⟩ := (hr x hx).heights
  have key : ∀ w ∈ x.nodes, w.pt.y = y := by
    intro w hw
    obtain ⟨j, hj, rfl⟩ := List.getElem_of_mem hw
    obtain ⟨k, hk, e1⟩ := advance_reaches (ringSize rings e.ring) e.isUp e.vtop j (nodeAt_lt hv) (by omega)
    exact h k (by omega) _ (by rw [e1, h3, List.getElem?_eq_getElem hj])
  exact hne ((key a ha).trans (key b hb).symm)

/-- The loop over horizontal edges at a local minimum ends within the ring. -/
theorem skipHorz_defined (rings : List (Ring K)) (hr : ∀ r ∈ rings, RingOk r) (e : Edge K) (ch : List K) (ht : AtTop rings e) :
    ∃ r, skipHorz rings (ringSize rings e.ring + 1) e ch = some r := by
  cases h : skipHorz rings (ringSize rings e.ring + 1) e ch with
  | some r => exact ⟨r, rfl⟩
  | none => exact (not_flat rings hr e ht.nav e.bot.y _ (by omega) (skipHorz_flat rings _ e ch ht h)).elim

/-- The loop over horizontal successors at the top of a scan beam ends within the ring. -/
theorem horzGo_defined (rings : List (Ring K)) (hr : ∀ r ∈ rings, RingOk r) (e : Edge K) (ch : List K) (ht : AtTop rings e) :
    ∃ r, horzGo rings (ringSize rings e.ring + 1) e ch = some r := by
  cases h : horzGo rings (ringSize rings e.ring + 1) e ch with
  | some r => exact ⟨r, rfl⟩
  | none => exact (not_flat rings hr e ht.nav e.bot.y _ (by omega) (horzGo_flat rings _ e ch ht h)).elim

theorem newEdge_defined (rings : List (Ring K)) (hr : ∀ r ∈ rings, RingOk r) (m : LocMin K) (i : Nat) (dx : Int) (ch : List K)
    (v : Vtx K) (hv : nodeAt rings m.ring m.node = some v) : ∃ r, newEdge rings m i dx ch = some r := by
  have hlt := nodeAt_lt hv
  rw [newEdge]
  simp only
  generalize hj : (if dx < 0 then nextIdx (ringSize rings m.ring) m.node else prevIdx (ringSize rings m.ring) m.node) = j
  have hjlt : j < ringSize rings m.ring := by
    rw [← hj]; split
    · exact Nat.mod_lt _ (by omega)
    · exact Nat.mod_lt _ (by omega)
  obtain ⟨w, hw⟩ := nodeAt_of_lt hv hjlt
  rw [hw, Option.bind_some]
  obtain ⟨r, h⟩ := skipHorz_defined rings hr
    { eid := i, bot := m.pt, top := w.pt, currX := FNum.lit 0, windDx := dx, ring := m.ring, vtop := j, ptype := m.ptype }
    (ch ++ [m.pt.x]) ⟨w, hw, rfl⟩
  rw [h]
  exact ⟨_, rfl⟩

theorem insertMins_defined (rings : List (Ring K)) (hr : ∀ r ∈ rings, RingOk r) (y : K) (ms : List (LocMin K)) (st : St K)
    (hm : ∀ m ∈ ms, ∃ v, nodeAt rings m.ring m.node = some v ∧ v.pt = m.pt) : ∃ st', insertMins rings y ms st = some st' := by
  induction ms generalizing st with
  | nil => exact ⟨_, rfl⟩
  | cons m ms ih =>
    rw [insertMins]
    split
    · obtain ⟨v, hv, _⟩ := hm m List.mem_cons_self
      obtain ⟨ra, h1⟩ := newEdge_defined rings hr m st.nextId 1 st.changes v hv
      obtain ⟨rb, h2⟩ := newEdge_defined rings hr m (st.nextId + 1) (-1) ra.2 v hv
      rw [insertMin, h1, Option.bind_some, h2, Option.map_some, Option.bind_some]
      exact ih _ (fun a ha => hm a (List.mem_cons_of_mem _ ha))
    · exact ⟨_, rfl⟩

/-! ## C37: no undefined behaviour and an end for `clip_type::none` -/

theorem topEdge_none_defined (rings : List (Ring K)) (hr : ∀ r ∈ rings, RingOk r) (y : K) (st : St K) (last : K) (e0 : Edge K)
    (hn : Nav rings e0) (he : e0.bound = none) : ∃ r, topEdge rings y st last e0 = some r := by
  rw [topEdge]
  split
  · simp only [appendSeg, he, Option.bind_some]
    obtain ⟨m, hm⟩ := isMaxima_defined (e := { e0 with currX := e0.top.x, bound := none }) hn
    rw [hm, Option.bind_some]
    split
    · exact ⟨_, rfl⟩
    · obtain ⟨e1, h1⟩ := stepEdge_defined (e := { e0 with currX := e0.top.x, bound := none }) hn
      rw [h1, Option.bind_some]
      obtain ⟨g1, _⟩ := stepEdge_atTop h1
      obtain ⟨r, h2⟩ := horzGo_defined rings hr e1
        (if e0.top.x ==. last then st.changes ++ [last] else st.changes) g1
      rw [(stepEdge_nav h1).2.1] at h2
      simp only at h2 ⊢
      rw [h2]
      exact ⟨_, rfl⟩
  · obtain ⟨s, hs⟩ := getSeg_defined hn
    rw [hs]; exact ⟨_, rfl⟩

theorem topGo_none_defined (rings : List (Ring K)) (hr : ∀ r ∈ rings, RingOk r) (y : K) (st : St K) (last : K)
    (done rest : List (Edge K)) (hn : ∀ e ∈ rest, Nav rings e) (hb : ∀ e ∈ rest, e.bound = none) :
    ∃ st', topGo rings y st last done rest = some st' := by
  induction rest generalizing st last done with
  | nil => exact ⟨_, rfl⟩
  | cons e rest ih =>
    obtain ⟨r, h⟩ := topEdge_none_defined rings hr y st last e (hn e List.mem_cons_self) (hb e List.mem_cons_self)
    rw [topGo, h, Option.bind_some]
    exact ih _ _ _ (fun a ha => hn a (List.mem_cons_of_mem _ ha)) (fun a ha => hb a (List.mem_cons_of_mem _ ha))

theorem sweep_none_defined (rings : List (Ring K)) (hr : ∀ r ∈ rings, RingOk r) (fr : FillRule) (o : Outs K)
    (ho : o.oblFirst = none) (fuel : Nat) (y : K) (st : St K) (hn : NavAll rings st) (hq : Quiet o st) :
    sweep rings .none fr fuel y st ≠ none := by
  induction fuel generalizing y st with
  | zero => simp [sweep]
  | succ fuel ih =>
    rw [sweep, sweepA]
    obtain ⟨st0, h0⟩ := insertMins_defined rings hr y st.mins st hn.2
    have hq0 := insertMins_quiet rings o y _ _ _ hq h0
    obtain ⟨hn0, _⟩ := insertMins_potential rings hr y st.mins st st0 hn h0
    obtain ⟨st1, h1, hq1, _⟩ := updateOutput_quiet rings fr o ho y _ (recalcWind_quiet fr o st0 hq0)
    have hn1 := ((recalcWind_same fr st0).trans (updateOutput_same _ _ _ _ _ _ h1)).nav hn0
    rw [h0, Option.bind_some, h1, Option.bind_some]
    cases h2 : popScan y st1.scan with
    | none => simp
    | some q =>
      obtain ⟨y', scan'⟩ := q
      simp only
      obtain ⟨st2, h3⟩ : ∃ st2, sweepB rings y' { st1 with scan := scan' } = some st2 := by
        obtain ⟨st3, h4⟩ := topGo_none_defined rings hr y' { st1 with scan := scan', changes := [] } (FNum.neg FNum.maxNum) [] st1.ael
          hn1.1 hq1.2
        have hq3 := topGo_quiet rings o y' { st1 with scan := scan', changes := [] } st3 _ [] st1.ael hq1.1 (by simp) hq1.2 h4
        rw [sweepB, doTop]
        simp only
        rw [h4, Option.bind_some, closeOutput, hq3.1, ho]
        exact ⟨_, rfl⟩
      rw [h3, Option.bind_some]
      exact ih y' st2 (sweepB_potential rings hr y' { st1 with scan := scan' } st2 ⟨hn1.1, hn1.2⟩ h3).1
        (sweepB_quiet rings o ho y' { st1 with scan := scan' } st2 ⟨hq1.1, hq1.2⟩ h3)

/-- **C37**: with `clip_type::none` a processor that has not been processed yet ends and makes no callback, whatever paths it
holds, provided the search for intersections is defined for them (C14). -/
theorem process_none_ends (env : Env K) (hok : env.Ok) (msort : List (LocMin K) → List (LocMin K)) (hm : ∀ l, (msort l).Perm l)
    (c : Clipper K) (hc : c.Reach env) (hnew : c.out.polys = []) (rings : List (Ring K))
    (hp : processIntersect env c.rings = some rings) (fr : FillRule) {σ : Type} (f : Funcs K σ) (u : σ) (fuel : Nat)
    (hf : roundBound rings ≤ fuel) : ∃ c', c.process env msort fuel .none fr f u = some (some (c', u)) := by
  obtain ⟨h1, h2⟩ := reach_ok env hok c hc
  have hr := processIntersect_ok env hok _ _ h1 hp
  have hend := process_rounds_of_ok env msort hm fuel c rings hp hr .none fr f u (by simp [h2, hf])
  cases hres : c.process env msort fuel .none fr f u with
  | some r =>
    cases r with
    | none => exact absurd hres hend
    | some q =>
      obtain ⟨c', u'⟩ := q
      obtain ⟨h3, _⟩ := process_none env msort fuel c c' fr f u u' hnew hres
      exact ⟨c', by rw [h3]⟩
  | none =>
    exfalso
    rw [Clipper.process, hp] at hres
    simp only [Option.bind_some] at hres
    split at hres
    · simp at hres
    · next y scan' hq =>
      have hnav := resetSt_nav msort hm rings c.out c.changes c.scan
      have hd := sweep_none_defined rings hr fr { c.out with oblFirst := none } rfl fuel y
        { resetSt msort rings c.out c.changes c.scan with scan := scan' } ⟨hnav.1, hnav.2⟩ ⟨rfl, by simp [resetSt]⟩
      cases hs : sweep rings .none fr fuel y { resetSt msort rings c.out c.changes c.scan with scan := scan' } with
      | none => exact hd hs
      | some r =>
        rw [hs, Option.bind_some] at hres
        cases r with
        | none => simp at hres
        | some st' =>
          have ho := sweep_quiet rings fr { c.out with oblFirst := none } rfl fuel _ _ st' ⟨rfl, by simp [resetSt]⟩ hs
          simp only [ho, hnew] at hres
          simp [buildOutput] at hres

end ordered

end River
