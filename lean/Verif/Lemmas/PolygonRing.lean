import Verif.Spec.Polygons
import Verif.Lemmas.BreakWinding
import Verif.Props.Intake

/-! # The ring stored for a polygon -/

namespace River
variable {K : Type}

attribute [local instance 10000] FTrans.toFNum

/-! ## sides by index -/

theorem rotate_get (P : List (Vec2 K)) (n i : Nat) (h : i < P.length) : (P.rotate n)[i]? = P[(i + n) % P.length]? := by
  rw [List.getElem?_rotate h]

theorem polySides_get {P : List (Vec2 K)} {i : Nat} {s : Vec2 K × Vec2 K} :
    (polySides P)[i]? = some s ↔ P[i]? = some s.1 ∧ P[(i + 1) % P.length]? = some s.2 := by
  unfold polySides
  rw [List.getElem?_zip_eq_some]
  constructor
  · rintro ⟨h1, h2⟩
    exact ⟨h1, by rw [rotate_get P 1 i (List.getElem?_eq_some_iff.1 h1).1] at h2; exact h2⟩
  · rintro ⟨h1, h2⟩
    exact ⟨h1, by rw [rotate_get P 1 i (List.getElem?_eq_some_iff.1 h1).1]; exact h2⟩

/-- The ring `r` stores the polygon `P`. -/
structure Stores [LT K] (pt : PathType) (P : List (Vec2 K)) (r : Ring K) : Prop where
  ptype : r.ptype = pt
  geo : r.nodes.map (fun v => (v.pt, v.seg)) = (polySides P).map (fun s => (s.1, Seg.line s.2))
  flags : ∀ Y : ℤ → K, IsCyc (r.nodes.map Vtx.y) Y → ∀ (i : Nat) (v : Vtx K), r.nodes[i]? = some v →
    (v.lmin = true ↔ LocalMin Y i) ∧ (v.lmax = true ↔ LocalMax Y i)

section ordered
variable [FTrans K] [LinearOrder K] [LawfulOrd K]

omit [FTrans K] [LinearOrder K] [LawfulOrd K] in
theorem dedupFrom_self [DecidableEq K] (p : Vec2 K) (qs : List (Vec2 K)) (h : (p :: qs).IsChain (· ≠ ·)) : dedupFrom p qs = qs := by
  induction qs generalizing p with
  | nil => rfl
  | cons q qs ih =>
    rw [List.isChain_cons_cons] at h
    rw [dedupFrom, if_neg h.1, ih q h.2]

theorem intake_stores (pt : PathType) (p : Vec2 K) (qs : List (Vec2 K)) (hl : ∀ s ∈ polySides (p :: qs), s.1 ≠ s.2)
    (ht : ∃ a ∈ p :: qs, ∃ b ∈ p :: qs, a.y ≠ b.y) :
    ∃ r, insertVertexList (Drawn.contour ⟨p, qs.map .lineto⟩) pt = some r ∧ Stores pt (p :: qs) r := by
  obtain ⟨P, hP⟩ : ∃ P, P = p :: qs := ⟨_, rfl⟩
  have hlen : P.length = qs.length + 1 := by rw [hP]; rfl
  have hl' : ∀ (i : Nat) (a b : Vec2 K), P[i]? = some a → P[(i + 1) % P.length]? = some b → a ≠ b := by
    intro i a b ha hb
    exact hl (a, b) (hP ▸ List.mem_of_getElem? (polySides_get.2 ⟨ha, hb⟩))
  -- the corners are not changed
  have hpts : polygonPts p qs = P := by
    have hch : (p :: qs).IsChain (· ≠ ·) := by
      rw [List.isChain_iff_getElem]
      intro i hi e
      rw [← hP] at hi
      have h1 : P[i]? = some (p :: qs)[i] := by rw [hP]; exact List.getElem?_eq_getElem _
      have h2 : P[i + 1]? = some (p :: qs)[i + 1] := by rw [hP]; exact List.getElem?_eq_getElem _
      rw [e] at h1
      exact hl' i _ _ h1 (by rw [Nat.mod_eq_of_lt hi]; exact h2) rfl
    unfold polygonPts
    dsimp only
    rw [dedupFrom_self p qs hch, if_neg, hP]
    rintro ⟨_, h⟩
    rw [List.getLast?_eq_getElem?, ← hP] at h
    refine hl' (P.length - 1) p p h ?_ rfl
    rw [show P.length - 1 + 1 = P.length by omega, Nat.mod_self, hP]; rfl
  obtain ⟨i1, i2⟩ := intake_polygon p qs pt
  have hsome : insertVertexList (Drawn.contour ⟨p, qs.map .lineto⟩) pt ≠ none := by
    intro h
    have hall : ∀ q ∈ p :: qs, q.y = p.y := by
      intro q hq
      rcases List.mem_cons.1 hq with rfl | hq
      · rfl
      · exact i1.1 h q hq
    obtain ⟨a, ha, b, hb, hab⟩ := ht
    exact hab ((hall a ha).trans (hall b hb).symm)
  cases hr : insertVertexList (Drawn.contour ⟨p, qs.map .lineto⟩) pt with
  | none => exact absurd hr hsome
  | some r =>
    obtain ⟨e1, e2, e3⟩ := i2 r hr
    rw [hpts] at e1
    have hrl : r.nodes.length = P.length := by rw [← e1]; simp
    -- all segments are straight
    have hstr : ∀ v ∈ r.nodes, v.seg = .line v.seg.target := by
      obtain ⟨nodes, hn, hps, _⟩ := insertVertexList_nodes _ pt r hr
      intro v hv
      have hm : v.seg ∈ nodes.map Vtx.seg := by
        have h1 := congrArg (List.map Prod.snd) hps
        rw [List.map_map, List.map_map] at h1
        have h2 : v.seg ∈ r.nodes.map (Prod.snd ∘ fun v => (v.pt, v.seg)) := List.mem_map.2 ⟨v, hv, rfl⟩
        rw [h1] at h2; exact h2
      have hc : Drawn.contour (⟨p, qs.map .lineto⟩ : Drawn K) = ⟨p, (dedupFrom p qs).map Seg.line⟩ := by
        unfold Drawn.contour; rw [bodySegs_lines]
      rw [hc] at hn
      rcases (closeContour_spec _ nodes hn).1 with h | h
      · rw [h] at hm
        obtain ⟨q, _, e⟩ := List.mem_map.1 hm
        rw [← e]; rfl
      · rw [h] at hm
        rcases List.mem_append.1 hm with hm | hm
        · obtain ⟨q, _, e⟩ := List.mem_map.1 hm
          rw [← e]; rfl
        · rw [List.mem_singleton.1 hm]; rfl
    have hpt : ∀ (i : Nat) (v : Vtx K), r.nodes[i]? = some v → P[i]? = some v.pt := by
      intro i v hv
      rw [← e1, List.getElem?_map, hv]; rfl
    refine ⟨r, rfl, hP ▸ ⟨e3, ?_, ?_⟩⟩
    · apply List.ext_getElem?
      intro i
      rw [List.getElem?_map, List.getElem?_map]
      cases hv : r.nodes[i]? with
      | none =>
        have : (polySides P)[i]? = none := by
          rw [List.getElem?_eq_none_iff] at hv ⊢
          unfold polySides
          rw [List.length_zip, List.length_rotate, ← hrl]; simpa using hv
        rw [this]; rfl
      | some v =>
        have hi := (List.getElem?_eq_some_iff.1 hv).1
        have hw := List.getElem?_eq_getElem (l := r.nodes) (i := (i + 1) % r.nodes.length) (Nat.mod_lt _ (by omega))
        have hlk := e2 i v _ hv hw
        have : (polySides P)[i]? = some (v.pt, v.seg.target) := by
          rw [polySides_get]
          refine ⟨hpt i v hv, ?_⟩
          rw [← hrl, hlk]
          exact hpt _ _ hw
        rw [this]
        simp only [Option.map_some]
        rw [← hstr v (List.mem_of_getElem? hv)]
    · exact insertVertexList_flags _ pt r hr

end ordered

end River
