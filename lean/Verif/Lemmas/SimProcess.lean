import Verif.Lemmas.SimBreak
import Verif.Lemmas.Emit

/-! # A call of `process` in two arithmetics that agree -/

namespace River.Sim
attribute [local instance 10000] FTrans.toFNum
variable {K L : Type} [FTrans K] [FTrans L] [Sim K L] [LinearOrder L] [LawfulOrd L] [DecidableEq L]

/-- An order of the break records by the given addresses. -/
def recLess (addr : Nat → Nat) (l r : Brk L) : Bool := if l.vert ≠ r.vert then decide (addr l.vert < addr r.vert) else l.t <. r.t

omit [DecidableEq L] in
theorem recSort_ok {addr : Nat → Nat} (ha : Function.Injective addr) (l : List (Brk L)) :
    (insSort (recLess addr) l).Perm l ∧ (insSort (recLess addr) l).Pairwise (fun a b => recLess addr b a = false) := by
  apply insSort_spec
  · intro a b h
    unfold recLess at h ⊢
    by_cases hv : a.vert = b.vert
    · simp only [hv, ne_eq, not_true, if_false, lt_eq_decide, decide_eq_true_eq] at h ⊢
      simpa using le_of_lt h
    · simp only [ne_eq, hv, Ne.symm hv, not_false_iff, if_true, decide_eq_true_eq] at h ⊢
      simp; omega
  · intro a b c h1 h2
    unfold recLess at *
    simp only [ne_eq, ite_not, lt_eq_decide] at *
    by_cases h3 : b.vert = a.vert <;> by_cases h4 : c.vert = b.vert
    · rw [if_pos h3] at h1; rw [if_pos h4] at h2; rw [if_pos (h4.trans h3)]
      simp only [decide_eq_false_iff_not, not_lt] at *
      exact le_trans h1 h2
    · rw [if_neg h4] at h2
      rw [if_neg (by rw [← h3]; exact h4)]
      rw [h3] at h2
      exact h2
    · rw [if_neg h3] at h1
      rw [if_neg (by rw [h4]; exact h3), h4]
      exact h1
    · rw [if_neg h3] at h1; rw [if_neg h4] at h2
      simp only [decide_eq_false_iff_not, not_lt] at *
      by_cases h5 : c.vert = a.vert
      · rw [h5] at h2
        exact absurd (ha (le_antisymm h2 h1)) h3
      · rw [if_neg h5]; simp; omega

/-- The environment with the same addresses and a given outcome of one sort. -/
def envWith (env : Env K) (b m : List (Brk L)) : Env L where
  segAddr := env.segAddr
  vtxAddr := env.vtxAddr
  csort := (demoEnv : Env L).csort
  bsort l := if l = b then m else insSort (recLess env.vtxAddr) l
  tsort := (demoEnv : Env L).tsort

omit [Sim K L] in
theorem envWith_ok {env : Env K} (hok : env.Ok) {b m : List (Brk L)} (hp : m.Perm b) (hs : m.Pairwise (fun x y => recLess env.vtxAddr y x = false)) :
    (envWith env b m).Ok where
  segAddr := hok.segAddr
  vtxAddr := hok.vtxAddr
  csort := demoEnv_ok.csort
  bsort l := by
    change (if l = b then m else insSort (recLess env.vtxAddr) l).Perm l ∧
      (if l = b then m else insSort (recLess env.vtxAddr) l).Pairwise (fun x y => recLess env.vtxAddr y x = false)
    split
    · next h => rw [h]; exact ⟨hp, hs⟩
    · exact recSort_ok hok.vtxAddr l
  tsort := demoEnv_ok.tsort

omit [DecidableEq L] in
theorem minSort_ins : MinSort (insSort (LocMin.less (K := L))) := by
  intro l
  apply insSort_spec
  · intro a b h
    unfold LocMin.less at h ⊢
    simp only [eq_eq_decide, lt_eq_decide, decide_eq_true_eq] at h ⊢
    split at h
    · next e => rw [if_pos e.symm]; simpa using (le_of_lt (by simpa using h))
    · next e => rw [if_neg (fun h => e h.symm)]; simpa using (le_of_lt (by simpa using h))
  · intro a b c h1 h2
    unfold LocMin.less at *
    simp only [eq_eq_decide, lt_eq_decide, decide_eq_true_eq] at *
    by_cases e1 : b.pt.y = a.pt.y <;> by_cases e2 : c.pt.y = b.pt.y
    · rw [if_pos e1] at h1; rw [if_pos e2] at h2; rw [if_pos (e2.trans e1)]
      simp only [decide_eq_false_iff_not, not_lt] at *
      exact h1.trans h2
    · rw [if_neg e2] at h2; rw [if_neg (by rw [← e1]; exact e2), ← e1]; exact h2
    · rw [if_neg e1] at h1; rw [if_neg (by rw [e2]; exact e1), e2]; exact h1
    · rw [if_neg e1] at h1; rw [if_neg e2] at h2
      simp only [decide_eq_false_iff_not, not_lt] at *
      have l1 : a.pt.y < b.pt.y := lt_of_le_of_ne h1 (fun h => e1 h.symm)
      have l2 : b.pt.y < c.pt.y := lt_of_le_of_ne h2 (fun h => e2 h.symm)
      rw [if_neg (l1.trans l2).ne', decide_eq_false_iff_not, not_lt]
      exact (l1.trans l2).le

/-- Corresponding clippers. -/
structure ClipR (c : Clipper K) (d : Clipper L) : Prop where
  rings : List.Forall₂ (RingR (G (K := K))) c.rings d.rings
  out : OutsR c.out d.out
  changes : List.Forall₂ (R (K := K)) c.changes d.changes
  scan : List.Forall₂ (G (K := K)) c.scan d.scan

omit [LinearOrder L] [LawfulOrd L] [DecidableEq L] in
theorem clip_new : ClipR (Clipper.new (K := K)) (Clipper.new (K := L)) := ⟨.nil, ⟨.nil, .nil, rfl⟩, .nil, .nil⟩

omit [LinearOrder L] [LawfulOrd L] [DecidableEq L] in
theorem addPath_r {c : Clipper K} {d : Clipper L} (h : ClipR c d) {ps : List (Path K)} {qs : List (Path L)} (hp : List.Forall₂ PathR ps qs) (pt : PathType) :
    Option.Rel ClipR (c.addPath ps pt) (d.addPath qs pt) :=
  orel_map (addPaths_r pt hp h.rings) (fun _ _ hr => { h with rings := hr })

/-- **One call, two arithmetics.** If in the second arithmetic the contours are broken into pieces whose corners correspond to grid numbers, for every
outcome of its sorts, then for every outcome of the sorts in the first arithmetic there is one in the second with which the same is computed. -/
theorem process_r {c : Clipper K} {d : Clipper L} (h : ClipR c d) (hne : ∀ v ∈ allNodes d.rings, v.pt ≠ v.seg.target) (env : Env K) (hok : env.Ok)
    (msort : List (LocMin K) → List (LocMin K)) (hm : MinSort msort)
    (hB : ∀ env' : Env L, env'.Ok → ∃ rs', processIntersect env' d.rings = some rs' ∧ (∀ r ∈ rs', Linked r.nodes) ∧
      ∀ rs : List (Ring K), List.Forall₂ (RingR (R (K := K))) rs rs' → List.Forall₂ (RingR (G (K := K))) rs rs') :
    ∃ (env' : Env L) (msort' : List (LocMin L) → List (LocMin L)), env'.Ok ∧ MinSort msort' ∧ ∀ (fuel : Nat) (ct : ClipType) (fr : FillRule),
      Option.Rel (Option.Rel (fun a b => ClipR a.1 b.1 ∧ List.Forall₂ (EventR (R (K := K))) a.2 b.2))
        (c.process env msort fuel ct fr Path.recorder []) (d.process env' msort' fuel ct fr Path.recorder []) := by
  have hcb : ∀ b m, Option.Rel (List.Forall₂ BrkR) (collectBreaks env (allNodes c.rings)) (collectBreaks (envWith env b m) (allNodes d.rings)) :=
    fun b m => collectBreaks_r env (envWith env b m) rfl (allNodes_r h.rings) hne
  have hind : ∀ b m, collectBreaks (envWith (L := L) env b m) (allNodes d.rings) = collectBreaks (envWith env [] []) (allNodes d.rings) := fun b m => rfl
  -- the sort of the break records
  obtain ⟨env', ok', rs, rs', e1, e2, hrs, hlk⟩ : ∃ env' : Env L, env'.Ok ∧ ∃ rs rs', processIntersect env c.rings = some rs ∧
      processIntersect env' d.rings = some rs' ∧ List.Forall₂ (RingR (G (K := K))) rs rs' ∧ ∀ r ∈ rs', Linked r.nodes := by
    have h0 := hcb [] []
    generalize hx : collectBreaks env (allNodes c.rings) = x at h0
    generalize hx' : collectBreaks (envWith env [] []) (allNodes d.rings) = x' at h0
    cases h0 with
    | none =>
      have := hB (envWith env [] []) (envWith_ok hok (.refl _) .nil)
      obtain ⟨rs', h1, _⟩ := this
      unfold processIntersect at h1
      rw [hx'] at h1
      exact absurd h1 (by simp)
    | some hb =>
      rename_i b b'
      obtain ⟨m', hp, hm'⟩ := f2_perm hb (hok.bsort b).1
      have hs : m'.Pairwise (fun x y => recLess env.vtxAddr y x = false) := by
        refine f2_pairwise hm' ?_ (hok.bsort b).2
        intro x y x' y' hx hy hxy
        rw [← hxy]
        unfold recLess Env.brkLess
        rw [hx.vert, hy.vert, Sim.tlt hy.t hx.t]
      have ok' : (envWith env b' m').Ok := envWith_ok hok hp hs
      obtain ⟨rs', h1, h2, h3⟩ := hB _ ok'
      refine ⟨_, ok', _, rs', by unfold processIntersect; rw [hx]; rfl, h1, h3 _ ?_, h2⟩
      unfold processIntersect at h1
      rw [hind, hx', Option.map_some, Option.some.injEq] at h1
      rw [← h1]
      refine breakRings_r _ _ ?_ 0 h.rings
      unfold breakGroups
      have e : (envWith env b' m').bsort b' = m' := if_pos rfl
      rw [e]
      exact groupRuns_r _ (le_refl _) (stdUnique_r hm')
  -- the sort of the minima
  have hmins := f2_memr (locMins_r hrs) (fun m hm => locMins_ok hm)
  obtain ⟨m', hp, hm'⟩ := f2_perm hmins (hm (locMins rs)).1
  have hs : m'.Pairwise (fun x y => y.less x = false) := by
    refine f2_pairwise hm' ?_ (hm (locMins rs)).2
    intro x y x' y' hx hy hxy
    rw [← hxy, less_r hy.1 hx.1]
  refine ⟨env', fun l => if l = locMins rs' then m' else insSort LocMin.less l, ok', ?_, ?_⟩
  · intro l
    simp only
    split
    · next h => rw [h]; exact ⟨hp, hs⟩
    · exact minSort_ins l
  intro fuel ct fr
  unfold Clipper.process
  rw [e1, e2]
  simp only [Option.bind_some]
  have hst : StR rs' (resetSt msort rs c.out c.changes c.scan)
      (resetSt (fun l => if l = locMins rs' then m' else insSort LocMin.less l) rs' d.out d.changes d.scan) := by
    unfold resetSt
    simp only [if_true]
    exact { ael := .nil, out := { h.out with oblFirst := rfl }, changes := h.changes, mins := hm', nextId := rfl,
            scan := f2_foldr hm' h.scan (fun _ _ _ _ h1 h2 => insertNum_r Sim.wk h1.1.pt.2 h2) }
  have hpop := popScan_r (Or.inr ⟨rfl, rfl⟩) hst.scan
  generalize resetSt msort rs c.out c.changes c.scan = st at hst hpop
  generalize resetSt _ rs' d.out d.changes d.scan = st' at hst hpop
  generalize popScan _ st.scan = x at hpop
  generalize popScan _ st'.scan = x' at hpop
  cases hpop with
  | none => exact .some (.some ⟨⟨hrs, hst.out, hst.changes, .nil⟩, .nil⟩)
  | some h2 =>
    rename_i p q
    obtain ⟨p1, p2⟩ := p
    obtain ⟨q1, q2⟩ := q
    simp only
    refine orel_bind (sweep_r hrs hlk ct fr fuel h2.1 (st := { st with scan := p2 }) (st' := { st' with scan := q2 }) { hst with scan := h2.2 }) (fun a b hab => ?_)
    cases hab with
    | none => exact .some .none
    | some hab =>
      exact orel_map (buildOutput_r hab.out.polys .nil) (fun u v huv => .some ⟨⟨hrs, hab.out, hab.changes, hab.scan⟩, huv⟩)

end River.Sim
