import Verif.Props.PolygonsDemo

/-! # C44: calling `process` repeatedly

The second call delivers the contours of the first call again (`process_twice_differs`). What exactly every further call
delivers is proved here: everything that all calls up to it have found. -/

namespace River
variable {K : Type}

attribute [local instance 10000] FTrans.toFNum
variable [Field K] [LinearOrder K] [FTrans K]

/-- The states of a processor to which polygons were added and on which `process` was then called with the given operations and
fill rules, each time with any callbacks, until it returned. -/
inductive Processed (env : Env K) (msort : List (LocMin K) → List (LocMin K)) (subject clip : List (List (Vec2 K))) :
    List (ClipType × FillRule) → Clipper K → Prop
  | added {c1 c2 : Clipper K} : (Clipper.new (K := K)).addPath (subject.map (fun P => Path.build (polyCmds P))) .subject = some c1 →
      c1.addPath (clip.map (fun P => Path.build (polyCmds P))) .clip = some c2 → Processed env msort subject clip [] c2
  | call {calls : List (ClipType × FillRule)} {c c' : Clipper K} (ct : ClipType) (fr : FillRule) (fuel : Nat) {τ : Type} (f : Funcs K τ) (u u' : τ) :
      Processed env msort subject clip calls c → c.process env msort fuel ct fr f u = some (some (c', u')) →
      Processed env msort subject clip (calls ++ [(ct, fr)]) c'

/-- The winding number of pieces of the output. -/
def piecesWinding (em : Multiset (Piece K)) (X y : K) : Int := (em.map (fun a => crossing X y ⟨a.1, a.2, false, false⟩)).sum

variable [IsStrictOrderedRing K] [LawfulOrd K] [Exact K]

/-- What is kept between the calls; `Q` are the calls whose result is consistently directed. -/
structure Held (env : Env K) (W : PathType → K → K → Int) (Q : ClipType → FillRule → Int → Prop) (f : K → K → Int) (c : Clipper K) : Prop where
  reach : c.Reach env
  gen : General c.rings
  wind : ∀ t X y, wnS t ((sides c.rings).filter (fun s => decide (s.Above y ∧ s.x y < X))) = W t X y
  cons : ∀ ct fr σ, Q ct fr σ → ConsistentR c.rings W ct fr σ
  out : ∃ (tip : Nat → Vec2 K) (em : Multiset (Piece K)), PolyInv c.out ∅ tip em ∧ (∀ a ∈ em, ∃ q, a.2 = .line q) ∧
    ∀ X y, piecesWinding em X y = f X y

open Classical in
/-- What a call adds. -/
noncomputable def addedW (W : PathType → K → K → Int) (ct : ClipType) (fr : FillRule) (σ : Int) (X y : K) : Int :=
  if ct.op (fr.inside (W .subject X y)) (fr.inside (W .clip X y)) then σ else 0

omit [IsStrictOrderedRing K] [LawfulOrd K] [Exact K] [Field K] in
theorem boundary_crossings (l : List (Side K)) (X y : K) :
    (((l.filter (fun s => decide (s.Above y ∧ s.x y < X))).map Side.dx).sum : Int) =
      (l.map (fun s => crossing X y ⟨s.frm, s.seg, false, false⟩)).sum := by
  induction l with
  | nil => rfl
  | cons s l ih =>
    rw [List.map_cons, List.sum_cons, ← ih, List.filter_cons]
    unfold crossing
    by_cases h : s.Above y ∧ s.x y < X
    · rw [if_pos (decide_eq_true h), List.map_cons, List.sum_cons]
      congr 1
      exact (if_pos h).symm
    · rw [if_neg (by rw [decide_eq_true_eq]; exact h)]
      refine (zero_add _).symm.trans ?_
      congr 1
      exact (if_neg h).symm

open Classical in
theorem Held.sweep {env : Env K} (hok : env.Ok) {msort : List (LocMin K) → List (LocMin K)} (hm : MinSort msort) {W : PathType → K → K → Int}
    {Q : ClipType → FillRule → Int → Prop} {f : K → K → Int} {c : Clipper K} (H : Held env W Q f c) (ct : ClipType) (fr : FillRule) (σ : Int) (hσ : σ = 1 ∨ σ = -1)
    (hO : Q ct fr σ) :
    ∃ rings', processIntersect env c.rings = some rings' ∧ (General rings' ∧ ∀ ct fr σ, Q ct fr σ → ConsistentR rings' W ct fr σ) ∧
      (∀ t X y, wnS t ((sides rings').filter (fun s => decide (s.Above y ∧ s.x y < X))) = W t X y) ∧
      (popScan (FNum.neg FNum.maxNum) (resetSt msort rings' c.out c.changes []).scan = none → ∀ X y, addedW W ct fr σ X y = 0) ∧
      (popScan (FNum.neg FNum.maxNum) (resetSt msort rings' c.out c.changes []).scan = none → sides rings' = []) ∧
      ∀ y sc, popScan (FNum.neg FNum.maxNum) (resetSt msort rings' c.out c.changes []).scan = some (y, sc) → ∀ fuel,
        ∃ r, River.sweep rings' ct fr fuel y { resetSt msort rings' c.out c.changes [] with scan := sc } = some r ∧
          ∀ st', r = some st' → ∃ (tip : Nat → Vec2 K) (em : Multiset (Piece K)), PolyInv st'.out ∅ tip em ∧
            (∀ a ∈ em, ∃ q, a.2 = .line q) ∧ ∀ X y, piecesWinding em X y = f X y + addedW W ct fr σ X y := by
  obtain ⟨rings', hp, A, B⟩ := general_broken H.gen env hok
  have hW : ∀ t X y, wnS t ((sides rings').filter (fun s => decide (s.Above y ∧ s.x y < X))) = W t X y :=
    fun t X y => by rw [B.wnS H.gen.nodesOk, H.wind]
  have D := (B.consistent H.gen.nodesOk (H.cons ct fr σ hO)).directed A B.straight hW hσ
  refine ⟨rings', hp, ⟨B.general, fun ct fr σ h => B.consistent H.gen.nodesOk (H.cons ct fr σ h)⟩, hW, fun hq X y => ?_, fun hq => reset_none A hm c.out c.changes hq, fun y sc hq fuel => ?_⟩
  · have hs := reset_none A hm c.out c.changes hq
    unfold addedW
    rw [← hW, ← hW, hs]
    cases ct <;> cases fr <;> simp [wnS, ClipType.op, FillRule.inside]
  · obtain ⟨tip, em, P, hst, hf⟩ := H.out
    obtain ⟨r, h1, h2⟩ := sweep_all A hm hσ D P c.changes fuel hq
    refine ⟨r, h1, fun st' hr => ?_⟩
    obtain ⟨tip', Bd, Hz, hBd, hHz, P'⟩ := h2 st' hr
    refine ⟨tip', _, P', ?_, ?_⟩
    · intro a ha
      rcases Multiset.mem_add.1 ha with h | h
      · rcases Multiset.mem_add.1 h with h | h
        · exact hst a h
        · rw [piecesOf, Multiset.mem_coe] at h
          obtain ⟨s, hs, rfl⟩ := List.mem_map.1 h
          exact ⟨_, B.straight s (hBd.mem s hs).1⟩
      · obtain ⟨_, _, _, _, rfl⟩ := hHz.level a h
        exact ⟨_, rfl⟩
    · intro X y
      unfold piecesWinding at hf ⊢
      have hz : (Hz.map (fun a => crossing X y ⟨a.1, a.2, false, false⟩)).sum = 0 := by
        refine Multiset.sum_eq_zero (fun v hv => ?_)
        obtain ⟨a, ha, rfl⟩ := Multiset.mem_map.1 hv
        obtain ⟨_, _, _, _, rfl⟩ := hHz.level a ha
        exact crossing_flat X y rfl
      rw [Multiset.map_add, Multiset.sum_add, hz, add_zero, Multiset.map_add, Multiset.sum_add, hf, piecesOf, Multiset.map_coe, Multiset.sum_coe,
        List.map_map]
      congr 1
      have := A.winding hσ hBd y X
      rw [boundary_crossings] at this
      unfold addedW
      rw [← hW, ← hW]
      exact this

open Classical in
/-- The state after a call. -/
theorem Held.next {env : Env K} (hok : env.Ok) {msort : List (LocMin K) → List (LocMin K)} (hm : MinSort msort) {W : PathType → K → K → Int}
    {Q : ClipType → FillRule → Int → Prop} {f : K → K → Int} {c c' : Clipper K} (H : Held env W Q f c) (ct : ClipType) (fr : FillRule) (σ : Int) (hσ : σ = 1 ∨ σ = -1)
    (hO : Q ct fr σ) {fuel : Nat} {τ : Type} {F : Funcs K τ} {u u' : τ} (h : c.process env msort fuel ct fr F u = some (some (c', u'))) :
    Held env W Q (fun X y => f X y + addedW W ct fr σ X y) c' := by
  obtain ⟨rings', hp, ⟨hg, hgc⟩, hW, hn0, _, hsw⟩ := H.sweep hok hm ct fr σ hσ hO
  have hr : c'.Reach env := Clipper.Reach.process msort (fun l => (hm l).1) fuel ct fr F u u' H.reach h
  have hsc := (reach_ok env hok c H.reach).2
  rw [Clipper.process, hp, hsc] at h
  simp only [Option.bind_some] at h
  cases hq : popScan (FNum.neg FNum.maxNum) (resetSt msort rings' c.out c.changes []).scan with
  | none =>
    simp only [hq, Option.some.injEq, Prod.mk.injEq] at h
    obtain ⟨rfl, _⟩ := h
    obtain ⟨tip, em, P, hst, hf⟩ := H.out
    refine ⟨hr, hg, hW, hgc, tip, em, ?_, hst, fun X y => by rw [hf, hn0 hq, add_zero]⟩
    obtain ⟨⟨G, hG, hs⟩, ha⟩ := P
    exact ⟨⟨G, fun k p h => ⟨(hG k p h).up, (hG k p h).down, (hG k p h).done, (hG k p h).bounds⟩, hs⟩, ha⟩
  | some ys =>
    obtain ⟨y, sc⟩ := ys
    obtain ⟨r, h1, h2⟩ := hsw y sc hq fuel
    simp only [hq, h1, Option.bind_some] at h
    cases r with
    | none => simp at h
    | some st' =>
      simp only [Option.map_eq_some_iff, Option.some.injEq, Prod.mk.injEq] at h
      obtain ⟨_, _, rfl, _⟩ := h
      obtain ⟨tip, em, P, hst, hf⟩ := h2 st' rfl
      exact ⟨hr, hg, hW, hgc, tip, em, P, hst, hf⟩

omit [IsStrictOrderedRing K] [LawfulOrd K] [Exact K] [Field K] in
theorem windingAt_pieces (es : List (Event K)) (em : Multiset (Piece K)) (h : ((drawn es : List (Event K)) : Multiset (Event K)) = em.map (fun a => ⟨a.1, a.2.cmd⟩))
    (X y : K) : windingAt es X y = (em.map (fun a => crossing X y ⟨a.1, a.2, false, false⟩)).sum := by
  rw [windingAt, boundary_crossings, List.map_map]
  have e : em.map (fun a => crossing X y ⟨a.1, a.2, false, false⟩) =
      (em.map (fun a : Piece K => (⟨a.1, a.2.cmd⟩ : Event K))).map (fun e => crossing X y ⟨e.side.frm, e.side.seg, false, false⟩) := by
    rw [Multiset.map_map]
    refine Multiset.map_congr rfl (fun a _ => ?_)
    obtain ⟨p, s⟩ := a
    cases s <;> rfl
  rw [e, ← h, Multiset.map_coe, Multiset.sum_coe]
  rfl

open Classical in
/-- A call ends and delivers what it and the calls before have found. -/
theorem Held.run {env : Env K} (hok : env.Ok) {msort : List (LocMin K) → List (LocMin K)} (hm : MinSort msort) {W : PathType → K → K → Int}
    {Q : ClipType → FillRule → Int → Prop} {f : K → K → Int} {c : Clipper K} (H : Held env W Q f c) (hf0 : (∀ t X y, W t X y = 0) → ∀ X y, f X y = 0)
    (ct : ClipType) (fr : FillRule) (σ : Int) (hσ : σ = 1 ∨ σ = -1) (hO : Q ct fr σ) :
    ∃ n, ∀ fuel, n ≤ fuel → ∃ (c' : Clipper K) (out : List (List (Vec2 K))),
      c.process env msort fuel ct fr Path.recorder [] = some (some (c', out.flatMap (fun Q => eventsFrom zeroPt (closedCmds Q)))) ∧
      ∀ X y, polyWinding out X y = f X y + addedW W ct fr σ X y := by
  obtain ⟨rings', hp, _, hW, hn0, hns, hsw⟩ := H.sweep hok hm ct fr σ hσ hO
  obtain ⟨hr, hsc⟩ := reach_ok env hok c H.reach
  refine ⟨roundBound rings', fun fuel hf => ?_⟩
  have hterm := process_rounds_of_ok env msort (fun l => (hm l).1) fuel c rings' hp (processIntersect_ok env hok _ _ hr hp) ct fr
    (Path.recorder (K := K)) [] (by simp [hsc, hf])
  rw [Clipper.process, hp, hsc] at hterm ⊢
  simp only [Option.bind_some] at hterm ⊢
  cases hq : popScan (FNum.neg FNum.maxNum) (resetSt msort rings' c.out c.changes []).scan with
  | none =>
    refine ⟨_, [], rfl, fun X y => ?_⟩
    rw [hn0 hq, hf0 (fun t X y => by rw [← hW, hns hq]; rfl)]
    rfl
  | some ys =>
    obtain ⟨y, sc⟩ := ys
    obtain ⟨r, h1, h2⟩ := hsw y sc hq fuel
    simp only [hq, h1, Option.bind_some] at hterm ⊢
    cases r with
    | none => exact absurd rfl hterm
    | some st' =>
      obtain ⟨tip', em, ⟨⟨G, hG, hsum⟩, _⟩, hst, hw⟩ := h2 st' rfl
      simp only [buildOutput_recorder, List.nil_append, Option.map_some]
      have hpc := contours_pieces G _ hG
      rw [hsum] at hpc
      obtain ⟨out, o1, _, o2⟩ := contours_polygons (contours st'.out.polys) (by
          intro x hx
          obtain ⟨p, hp', rfl⟩ := List.mem_map.1 hx
          obtain ⟨hp1, hp2⟩ := List.mem_filter.1 hp'
          obtain ⟨k, hk⟩ := List.getElem?_of_mem hp1
          exact ⟨poly_contour p hp2, (poly_events (hG k p hk)).2.1⟩) (by
          intro e he
          have : e ∈ ((drawn (contours st'.out.polys).flatten : List (Event K)) : Multiset (Event K)) := he
          rw [hpc, Multiset.mem_map] at this
          obtain ⟨a, ha, rfl⟩ := this
          obtain ⟨q, hq⟩ := hst a ha
          rw [hq]
          exact ⟨q, rfl⟩)
      refine ⟨_, out, by rw [o1], fun X y => ?_⟩
      rw [o2, windingAt_pieces _ em hpc]
      exact hw X y

/-! ## the calls made one after the other -/

theorem processed_held {env : Env K} (hok : env.Ok) {msort : List (LocMin K) → List (LocMin K)} (hm : MinSort msort)
    {subject clip : List (List (Vec2 K))} (G : GeneralPolygons (subject ++ clip)) {W : PathType → K → K → Int}
    (w1 : ∀ X y, W .subject X y = polyWinding subject X y) (w2 : ∀ X y, W .clip X y = polyWinding clip X y)
    (σ : ClipType × FillRule → Int) {calls : List (ClipType × FillRule)} {c : Clipper K} (h : Processed env msort subject clip calls c)
    (hσ : ∀ k ∈ calls, (σ k = 1 ∨ σ k = -1) ∧ Consistent subject clip k.1 k.2 (σ k)) :
    Held env W (Consistent subject clip) (fun X y => (calls.map (fun k => addedW W k.1 k.2 (σ k) X y)).sum) c := by
  induction h with
  | added h1 h2 =>
    obtain ⟨d1, d2, e1, e2, r, hnew, hG, _, W', hW', w1', w2', hC⟩ := polygons_stored env subject clip G
    rw [h1] at e1
    cases Option.some.inj e1
    rw [h2] at e2
    cases Option.some.inj e2
    have eW : W' = W := by
      funext t X y
      cases t
      · rw [w1', w1]
      · rw [w2', w2]
    subst eW
    exact ⟨r, hG, hW', hC, fun _ => zeroPt, 0, ⟨⟨fun _ => ([], []), by rw [hnew]; simp, by rw [hnew]; rfl⟩, by simp⟩, by simp, fun X y => rfl⟩
  | call ct fr fuel f u u' _ hp ih =>
    have := (ih (fun k hk => hσ k (List.mem_append_left _ hk))).next hok hm ct fr (σ (ct, fr)) (hσ (ct, fr) (by simp)).1 (hσ (ct, fr) (by simp)).2 hp
    simpa [List.map_append] using this

open Classical in
/-- **C44**, what the code does instead: whatever calls of `process` were made before on polygons in general position, one more call
makes no undefined step, ends, and delivers closed polygons whose winding number at any point is the sum of what all the calls,
the earlier ones and this one, have found there. -/
theorem process_again_partial (env : Env K) (hok : env.Ok) (msort : List (LocMin K) → List (LocMin K)) (hm : MinSort msort)
    (subject clip : List (List (Vec2 K))) (G : GeneralPolygons (subject ++ clip)) (σ : ClipType × FillRule → Int)
    {calls : List (ClipType × FillRule)} {c : Clipper K} (h : Processed env msort subject clip calls c) (ct : ClipType) (fr : FillRule)
    (hσ : ∀ k ∈ calls ++ [(ct, fr)], (σ k = 1 ∨ σ k = -1) ∧ Consistent subject clip k.1 k.2 (σ k)) :
    ∃ n, ∀ fuel, n ≤ fuel → ∃ (c' : Clipper K) (out : List (List (Vec2 K))),
      c.process env msort fuel ct fr Path.recorder [] = some (some (c', out.flatMap (fun Q => eventsFrom zeroPt (closedCmds Q)))) ∧
      ∀ X y, polyWinding out X y = ((calls ++ [(ct, fr)]).map (fun k => if InResult subject clip k.1 k.2 X y then σ k else 0)).sum := by
  obtain ⟨W, hWd⟩ : ∃ W : PathType → K → K → Int, W = fun t X y => match t with
    | .subject => polyWinding subject X y
    | .clip => polyWinding clip X y := ⟨_, rfl⟩
  have w1 : ∀ X y, W .subject X y = polyWinding subject X y := fun X y => by rw [hWd]
  have w2 : ∀ X y, W .clip X y = polyWinding clip X y := fun X y => by rw [hWd]
  have H := processed_held hok hm G w1 w2 σ h (fun k hk => hσ k (List.mem_append_left _ hk))
  have hz : (∀ t X y, W t X y = 0) → ∀ X y, (calls.map (fun k => addedW W k.1 k.2 (σ k) X y)).sum = 0 := by
    intro h0 X y
    refine List.sum_eq_zero ?_
    intro v hv
    obtain ⟨⟨ct, fr⟩, _, rfl⟩ := List.mem_map.1 hv
    unfold addedW
    rw [h0, h0]
    cases ct <;> cases fr <;> simp [ClipType.op, FillRule.inside]
  obtain ⟨n, hn⟩ := H.run hok hm hz ct fr (σ (ct, fr)) (hσ (ct, fr) (by simp)).1 (hσ (ct, fr) (by simp)).2
  refine ⟨n, fun fuel hf => ?_⟩
  obtain ⟨c', out, h1, h2⟩ := hn fuel hf
  refine ⟨c', out, h1, fun X y => ?_⟩
  rw [h2, List.map_append, List.sum_append]
  have e : ∀ k : ClipType × FillRule, addedW W k.1 k.2 (σ k) X y = if InResult subject clip k.1 k.2 X y then σ k else 0 := by
    intro k
    unfold addedW InResult
    rw [w1, w2]
  simp only [e, List.map_cons, List.map_nil, List.sum_cons, List.sum_nil, add_zero]
  rw [e (ct, fr)]

open Classical in
/-- The same call made for the `n`-th time multiplies the winding numbers by `n`. -/
theorem process_nth (env : Env K) (hok : env.Ok) (msort : List (LocMin K) → List (LocMin K)) (hm : MinSort msort)
    (subject clip : List (List (Vec2 K))) (G : GeneralPolygons (subject ++ clip)) (ct : ClipType) (fr : FillRule) (σ : Int) (hσ : σ = 1 ∨ σ = -1)
    (hO : Consistent subject clip ct fr σ) (n : Nat) {c : Clipper K} (h : Processed env msort subject clip (List.replicate n (ct, fr)) c) :
    ∃ m, ∀ fuel, m ≤ fuel → ∃ (c' : Clipper K) (out : List (List (Vec2 K))),
      c.process env msort fuel ct fr Path.recorder [] = some (some (c', out.flatMap (fun Q => eventsFrom zeroPt (closedCmds Q)))) ∧
      ∀ X y, polyWinding out X y = if InResult subject clip ct fr X y then (n + 1) * σ else 0 := by
  obtain ⟨m, hm'⟩ := process_again_partial env hok msort hm subject clip G (fun _ => σ) h ct fr (by
    intro k hk
    have : k = (ct, fr) := by
      rcases List.mem_append.1 hk with h | h
      · exact List.eq_of_mem_replicate h
      · exact List.mem_singleton.1 h
    subst this
    exact ⟨hσ, hO⟩)
  refine ⟨m, fun fuel hf => ?_⟩
  obtain ⟨c', out, h1, h2⟩ := hm' fuel hf
  refine ⟨c', out, h1, fun X y => ?_⟩
  rw [h2, List.map_append, List.map_replicate, List.sum_append, List.sum_replicate]
  split
  · next hin => simp only [List.map_cons, List.map_nil, if_pos hin, List.sum_cons, List.sum_nil, nsmul_eq_mul]; ring
  · next hin => simp only [List.map_cons, List.map_nil, if_neg hin, List.sum_cons, List.sum_nil, smul_zero, add_zero]

/-- Every number of calls is possible, for every union of polygons in general position with the positive rule. -/
theorem processed_any (env : Env K) (hok : env.Ok) (msort : List (LocMin K) → List (LocMin K)) (hm : MinSort msort)
    (subject clip : List (List (Vec2 K))) (G : GeneralPolygons (subject ++ clip)) (n : Nat) :
    ∃ c, Processed env msort subject clip (List.replicate n (.union, .positive)) c := by
  induction n with
  | zero =>
    obtain ⟨c1, c2, e1, e2, _⟩ := polygons_stored env subject clip G
    exact ⟨c2, .added e1 e2⟩
  | succ n ih =>
    obtain ⟨c, hc⟩ := ih
    obtain ⟨m, h⟩ := process_nth env hok msort hm subject clip G .union .positive 1 (Or.inl rfl) (consistent_positive _ _ _ (Or.inl rfl)) n hc
    obtain ⟨c', out, h1, _⟩ := h m (le_refl m)
    refine ⟨c', ?_⟩
    rw [List.replicate_succ']
    exact hc.call _ _ m _ _ _ h1

/-- So the pentagram and the quadrilateral of `demo_union` can be united any number of times. -/
theorem again_demo (n : Nat) : ∃ c : Clipper ℚ, Processed demoEnv minsort [pentagram] [quad] (List.replicate n (.union, .positive)) c :=
  processed_any demoEnv demoEnv_ok minsort minsort_ok _ _ demo_general n

end River
