import Verif.Props.Walk

/-! # The face of a half edge, after splitting (C64) -/

namespace River
variable {K : Type}

/-- Splitting only takes faces apart: every face at the end is part of one at the beginning, and no first half edge gets lost. -/
theorem splitAll_parts (fuel : Nat) : ∀ (n : Nat) (g : FaceGraph) (todo done : List Nat) (ct cd : List (List Nat)) (g' : FaceGraph) (starts : List Nat),
    Faces g (todo ++ done) (ct ++ cd) → todo.length = ct.length → (∀ c ∈ cd, g.Simple c) → (ct ++ cd).flatten.length ≤ fuel →
    splitAll g fuel n todo done = some (g', starts) →
    ∃ cs, Faces g' starts cs ∧ g'.fin = g.fin ∧ cs.flatten.Perm (ct ++ cd).flatten ∧ (∀ c ∈ cs, g'.Simple c) ∧
      (∀ c ∈ cs, ∃ w ∈ ct ++ cd, c ⊆ w) ∧ ∀ a ∈ todo ++ done, a ∈ starts := by
  have base : ∀ (g : FaceGraph) (done : List Nat) (ct cd : List (List Nat)) (g' : FaceGraph) (starts : List Nat),
      Faces g ([] ++ done) (ct ++ cd) → ([] : List Nat).length = ct.length → (∀ c ∈ cd, g.Simple c) → (g, done) = (g', starts) →
      ∃ cs, Faces g' starts cs ∧ g'.fin = g.fin ∧ cs.flatten.Perm (ct ++ cd).flatten ∧ (∀ c ∈ cs, g'.Simple c) ∧
        (∀ c ∈ cs, ∃ w ∈ ct ++ cd, c ⊆ w) ∧ ∀ a ∈ [] ++ done, a ∈ starts := by
    intro g done ct cd g' starts hF hlen hs h
    have : ct = [] := List.length_eq_zero_iff.1 hlen.symm
    subst this
    obtain ⟨rfl, rfl⟩ := Prod.mk.inj h
    exact ⟨cd, hF, rfl, List.Perm.refl _, hs, fun c hc => ⟨c, hc, fun _ h => h⟩, fun a ha => ha⟩
  intro n
  induction n with
  | zero =>
    intro g todo done ct cd g' starts hF hlen hs hf h
    cases todo with
    | nil => exact base g done ct cd g' starts hF hlen hs (by simpa [splitAll] using h)
    | cons f fs => simp [splitAll] at h
  | succ n ih =>
    intro g todo done ct cd g' starts hF hlen hs hf h
    cases todo with
    | nil => exact base g done ct cd g' starts hF hlen hs (by simpa [splitAll] using h)
    | cons f fs =>
      cases ct with
      | nil => simp at hlen
      | cons c cs =>
        obtain ⟨hF1, hF2⟩ := hF
        simp only [List.cons_append, List.forall₂_cons] at hF1
        obtain ⟨⟨hcyc, hhd⟩, hrest⟩ := hF1
        rw [splitAll] at h
        simp only [List.cons_append, List.flatten_cons, List.length_append] at hf hF2
        have hdisj := List.nodup_append.1 hF2
        rcases splitFace_spec g c f fuel hcyc hhd (by omega) with ⟨hsim, hsp⟩ | ⟨hsim, g1, f', c1, c2, hsp, hfin, hc1, hc2, hh1, hh2, hperm, hother⟩
        · rw [hsp] at h
          dsimp only at h
          have hp : (cs ++ (cd ++ [c])).flatten.Perm (c ++ (cs ++ cd).flatten) := by
            rw [← List.append_assoc, List.flatten_append, show [c].flatten = c by simp]
            exact List.perm_append_comm
          have hFo : Faces g (fs ++ (done ++ [f])) (cs ++ (cd ++ [c])) := by
            refine ⟨?_, hp.nodup_iff.2 hF2⟩
            rw [← List.append_assoc, ← List.append_assoc]
            exact List.rel_append hrest (List.Forall₂.cons ⟨hcyc, hhd⟩ List.Forall₂.nil)
          obtain ⟨csf, e1, e2, e3, e4, e5, e6⟩ := ih g fs (done ++ [f]) cs (cd ++ [c]) g' starts hFo (by simpa using hlen)
            (by
              intro x hx
              rcases List.mem_append.1 hx with hx | hx
              · exact hs x hx
              · rw [List.mem_singleton] at hx
                rw [hx]
                exact hsim)
            (by rw [hp.length_eq, List.length_append]; simpa using hf) h
          refine ⟨csf, e1, e2, e3.trans hp, e4, ?_, ?_⟩
          · intro x hx
            obtain ⟨w, hw, hsub⟩ := e5 x hx
            refine ⟨w, ?_, hsub⟩
            simp only [List.mem_append, List.mem_cons, List.not_mem_nil, or_false] at hw ⊢
            tauto
          · intro a ha
            apply e6
            simp only [List.mem_append, List.mem_cons, List.not_mem_nil, or_false] at ha ⊢
            tauto
        · rw [hsp] at h
          dsimp only at h
          have hkeep : ∀ o ∈ cs ++ cd, g.Cycle o → g1.Cycle o := by
            intro o ho hco
            apply hother o hco
            intro x hx hxc
            exact hdisj.2.2 x hxc x (List.mem_flatten.2 ⟨o, ho, hx⟩) rfl
          have hpm : ((c2 :: c1 :: cs) ++ cd).flatten.Perm (c ++ (cs ++ cd).flatten) := by
            simp only [List.cons_append, List.flatten_cons]
            rw [← List.append_assoc]
            exact (List.perm_append_comm.trans hperm).append_right _
          have hFo : Faces g1 ((f' :: f :: fs) ++ done) ((c2 :: c1 :: cs) ++ cd) := by
            refine ⟨List.Forall₂.cons ⟨hc2, hh2⟩ (List.Forall₂.cons ⟨hc1, hh1⟩ ?_), hpm.nodup_iff.2 hF2⟩
            change List.Forall₂ _ (fs ++ done) (cs ++ cd)
            rw [List.forall₂_iff_get] at hrest ⊢
            refine ⟨hrest.1, fun i h1 h2 => ⟨hkeep _ (List.get_mem _ _) (hrest.2 i h1 h2).1, (hrest.2 i h1 h2).2⟩⟩
          obtain ⟨csf, e1, e2, e3, e4, e5, e6⟩ := ih g1 (f' :: f :: fs) done (c2 :: c1 :: cs) cd g' starts hFo (by simpa using hlen)
            (by
              intro x hx
              unfold FaceGraph.Simple
              rw [hfin]
              exact hs x hx)
            (by rw [hpm.length_eq, List.length_append]; simpa using hf) h
          refine ⟨csf, e1, e2.trans hfin, e3.trans hpm, e4, ?_, ?_⟩
          · intro x hx
            obtain ⟨w, hw, hsub⟩ := e5 x hx
            simp only [List.cons_append, List.mem_cons] at hw
            rcases hw with rfl | rfl | hw
            · exact ⟨c, by simp, fun y hy => hperm.mem_iff.1 (List.mem_append_right _ (hsub hy))⟩
            · exact ⟨c, by simp, fun y hy => hperm.mem_iff.1 (List.mem_append_left _ (hsub hy))⟩
            · exact ⟨w, by simp only [List.cons_append, List.mem_cons]; exact .inr hw, hsub⟩
          · intro a ha
            exact e6 a (by simp only [List.cons_append, List.mem_cons] at ha ⊢; tauto)

/-- The face the half edge `x` names is the one it lies in: the cycle that begins where this face, the `j`-th that was created, begins. -/
def FaceRight (s : WalkSt) (starts : List Nat) (faces : List (List Nat)) (x : Nat) : Prop :=
  ∃ j a, s.face x = some j ∧ starts[j]? = some a ∧ ∃ c ∈ faces, c.head? = some a ∧ x ∈ c

/-- **C64**, exactly: `process` walks along the half edges to make faces and takes them apart where they pass a point twice. A half edge names the
face it lies in if and only if it was not the last one of its walk (or the only one) and lies in the part that keeps the beginning of the walk. -/
theorem face_exact_partial [FNum K] {o : DOrder K} (ho : o.Ok) (calls : List (DCall K)) {d : Dcel K} {s : WalkSt}
    (h : (Dcel.after calls).process o = some (d, s)) : ∃ (s' : WalkSt) (walks faces : List (List Nat)), d.walkFaces o = some s' ∧
      List.Forall₂ (fun a w => s'.g.Cycle w ∧ w.head? = some a) s'.faces walks ∧ walks.flatten.Perm d.live ∧ d.Faced s faces ∧
      (∀ c ∈ faces, ∃ w ∈ walks, c ⊆ w) ∧
      ∀ w ∈ walks, ∀ x ∈ w, ∀ c ∈ faces, x ∈ c →
        (FaceRight s s'.faces faces x ↔ (w.getLast? ≠ some x ∨ w = [x]) ∧ c.head? = w.head?) := by
  obtain ⟨wf, t, hb⟩ := twinned_of_process ho (after_wf calls) h
  obtain ⟨s', cs, h1, h2, h3, h4, h5, h6⟩ := walkFaces_spec ho wf t
  unfold Dcel.buildFace at hb
  rw [h1, Option.bind_some] at hb
  obtain ⟨⟨g', starts⟩, hr, hs⟩ := Option.map_eq_some_iff.1 hb
  subst hs
  have hlen : cs.reverse.flatten.length = d.live.length := by
    rw [(List.reverse_perm cs).flatten.length_eq, h3.length_eq]
  obtain ⟨fs, k1, k2, k3, k4, k5, k6⟩ := splitAll_parts d.live.length (2 * d.live.length) s'.g s'.faces.reverse [] cs.reverse [] g' starts
    (by
      rw [List.append_nil, List.append_nil]
      exact ⟨List.rel_reverse h2.1, ((List.reverse_perm cs).flatten.nodup_iff).2 h2.2⟩)
    (by rw [List.length_reverse, List.length_reverse]; exact h2.1.length_eq)
    (by simp) (by rw [List.append_nil, hlen]) hr
  rw [List.append_nil] at k3 k5 k6
  have hF : d.Faced { s' with g := g', faces := starts } fs :=
    faced_of k1 (k3.trans ((List.reverse_perm cs).flatten.trans h3)) k4 (k2.trans h4)
      (splitAll_geo d.startOf d.live.length (2 * d.live.length) s'.g s'.faces.reverse [] g' starts h5 hr)
  refine ⟨s', cs, fs, h1, h2.1, h3, hF, ?_, ?_⟩
  · intro c hc
    obtain ⟨w, hw, hsub⟩ := k5 c hc
    exact ⟨w, List.mem_reverse.1 hw, hsub⟩
  -- a half edge lies in one walk and in one face only
  have one : ∀ {L : List (List Nat)}, L.flatten.Nodup → ∀ {i j : Nat} {u v : List Nat} {x : Nat}, L[i]? = some u → L[j]? = some v → x ∈ u → x ∈ v → i = j := by
    intro L hL i j u v x hi hj hu hv
    obtain ⟨hi', rfl⟩ := List.getElem?_eq_some_iff.1 hi
    obtain ⟨hj', rfl⟩ := List.getElem?_eq_some_iff.1 hj
    have hd := (List.nodup_flatten.1 hL).2
    by_contra hij
    rcases Nat.lt_or_gt_of_ne hij with hlt | hlt
    · exact List.pairwise_iff_getElem.1 hd i j hi' hj' hlt hu hv
    · exact List.pairwise_iff_getElem.1 hd j i hj' hi' hlt hv hu
  have oneEq : ∀ {L : List (List Nat)}, L.flatten.Nodup → ∀ {u v : List Nat} {x : Nat}, u ∈ L → v ∈ L → x ∈ u → x ∈ v → u = v := by
    intro L hL u v x hu hv h1 h2
    obtain ⟨i, hi⟩ := List.mem_iff_getElem?.1 hu
    obtain ⟨j, hj⟩ := List.mem_iff_getElem?.1 hv
    have := one hL hi hj h1 h2
    subst this
    rw [hi] at hj
    exact Option.some.inj hj
  have headmem : ∀ {c : List Nat} {a : Nat}, c.head? = some a → a ∈ c := fun h => List.mem_of_mem_head? h
  have hstart : ∀ {j : Nat} {w : List Nat}, cs[j]? = some w → s'.faces[j]? = w.head? := by
    intro j w hj
    obtain ⟨hj', rfl⟩ := List.getElem?_eq_some_iff.1 hj
    have hj2 : j < s'.faces.length := by rw [h2.1.length_eq]; exact hj'
    have := ((List.forall₂_iff_get.1 h2.1).2 j hj2 hj').2
    simp only [List.get_eq_getElem] at this
    rw [this, List.getElem?_eq_getElem hj2]
  intro w hw x hx c hc hxc
  obtain ⟨k, hk⟩ := List.mem_iff_getElem?.1 hw
  have hface : ∀ j, s'.face x = some j ↔ j = k ∧ (x ∈ w.dropLast ∨ w = [x]) := by
    intro j
    rw [h6, List.findIdx?_eq_some_iff_getElem]
    constructor
    · rintro ⟨hj, hd, _⟩
      have hd := of_decide_eq_true hd
      have hxj : x ∈ cs[j] := by
        rcases hd with hm | hm
        · exact List.dropLast_subset _ hm
        · rw [hm]; exact List.mem_singleton.2 rfl
      have hjk := one h2.2 (List.getElem?_eq_getElem hj) hk hxj hx
      subst hjk
      rw [List.getElem?_eq_getElem hj] at hk
      injection hk with hk
      rw [hk] at hd
      exact ⟨rfl, hd⟩
    · rintro ⟨rfl, hd⟩
      obtain ⟨hk', rfl⟩ := List.getElem?_eq_some_iff.1 hk
      refine ⟨hk', decide_eq_true hd, ?_⟩
      intro i hi hcon
      have hil : i < cs.length := lt_trans hi hk'
      have hxi : x ∈ cs[i] := by
        rcases of_decide_eq_true hcon with hm | hm
        · exact List.dropLast_subset _ hm
        · rw [hm]; exact List.mem_singleton.2 rfl
      have := one h2.2 (List.getElem?_eq_getElem hil) hk hxi hx
      omega
  have hnd : w.Nodup := (List.nodup_flatten.1 h2.2).1 w hw
  have hlast : (x ∈ w.dropLast ∨ w = [x]) ↔ (w.getLast? ≠ some x ∨ w = [x]) := by
    have hne : w ≠ [] := List.ne_nil_of_mem hx
    have hsplit := List.dropLast_append_getLast hne
    rw [List.getLast?_eq_some_getLast hne]
    constructor
    · rintro (hm | hm)
      · left
        intro he
        injection he with he
        rw [← hsplit] at hnd
        exact (List.nodup_append.1 hnd).2.2 x hm _ (List.mem_singleton.2 rfl) he.symm
      · exact .inr hm
    · rintro (hm | hm)
      · left
        rw [← hsplit] at hx
        rcases List.mem_append.1 hx with hx | hx
        · exact hx
        · rw [List.mem_singleton] at hx
          exact absurd (by rw [hx]) hm
      · exact .inr hm
  rw [← hlast]
  constructor
  · rintro ⟨j, a, hj, ha, c', hc', hca, hxc'⟩
    obtain ⟨rfl, hd⟩ := (hface j).1 hj
    refine ⟨hd, ?_⟩
    rw [oneEq (k3.nodup_iff.2 (((List.reverse_perm cs).flatten.nodup_iff).2 h2.2)) hc hc' hxc hxc', hca, ← ha, hstart hk]
  · rintro ⟨hd, hhd⟩
    obtain ⟨a, ha⟩ : ∃ a, w.head? = some a := by
      cases w with
      | nil => simp at hx
      | cons a _ => exact ⟨a, rfl⟩
    exact ⟨k, a, (hface k).2 ⟨rfl, hd⟩, by rw [hstart hk, ha], c, hc, by rw [hhd, ha], hxc⟩

/-- The half edges of a face, from `i` until `start` comes up again. -/
def faceEdges (g : FaceGraph) (start : Nat) : Nat → Nat → List Nat
  | 0, _ => []
  | n + 1, i => i :: (match g.next i with | some j => if j = start then [] else faceEdges g start n j | none => [])

/-- **C64 is false of the code**, a case: two crossing lines are walked once around, which makes one face (half edge 2 begins it), and this is taken apart into
four, one for each arm. The half edges of all arms still name the first face, all but number 2 wrongly, and number 6, the last of the walk, names none. -/
theorem cross_face_wrong : ((Dcel.after ([.line 0 0 4 4, .line 0 4 4 0] : List (DCall ℚ))).process plainOrder).bind (fun r =>
      (r.1.walkFaces plainOrder).map (fun s' => (s'.faces, r.2.faces.map (fun f => faceEdges r.2.g f 8 f), r.1.live, r.1.live.map r.2.face))) =
    some ([2], [[5, 9], [3, 7], [8, 4], [2, 6]], [2, 3, 4, 5, 6, 7, 8, 9],
      [some 0, some 0, some 0, some 0, none, some 0, some 0, some 0]) := by decide +kernel

end River
