import Verif.Lemmas.SimSweep
import Verif.Props.Path
import Verif.Props.Break

/-! # Intake, breaking and writing in two arithmetics that agree -/

namespace River

theorem f2_memr {α β : Type} {P : α → β → Prop} {l : List α} {l' : List β} (h : List.Forall₂ P l l') {T : β → Prop} (hT : ∀ b ∈ l', T b) :
    List.Forall₂ (fun a b => P a b ∧ T b) l l' := by
  induction h with
  | nil => exact .nil
  | cons h _ ih => exact .cons ⟨h, hT _ (by simp)⟩ (ih (fun b hb => hT b (by simp [hb])))

namespace Sim
attribute [local instance 10000] FTrans.toFNum
variable {K L : Type} [FTrans K] [FTrans L] [Sim K L]

/-! ## Intake -/

/-- Corresponding contours being read. -/
structure ContourR (c : Contour K) (d : Contour L) : Prop where
  start : V2 (G (K := K)) c.start d.start
  segs : List.Forall₂ (SegR (G (K := K))) c.segs d.segs

theorem closeContour_r {c : Contour K} {d : Contour L} (h : ContourR c d) :
    Option.Rel (List.Forall₂ (VtxR (G (K := K)))) (closeContour c) (closeContour d) := by
  have mk : ∀ {l : List (Vec2 K)} {l' : List (Vec2 L)} {s : List (Seg K)} {s' : List (Seg L)}, List.Forall₂ (V2 (G (K := K))) l l' →
      List.Forall₂ (SegR (G (K := K))) s s' →
      List.Forall₂ (VtxR (G (K := K))) ((l.zip s).map (fun p => (⟨p.1, p.2, false, false⟩ : Vtx K))) ((l'.zip s').map (fun p => (⟨p.1, p.2, false, false⟩ : Vtx L))) :=
    fun h1 h2 => f2_map (f2_zip h1 h2) (fun a b hab => ⟨hab.1, hab.2, rfl, rfl⟩)
  have ht : List.Forall₂ (V2 (G (K := K))) (c.segs.map Seg.target) (d.segs.map Seg.target) := f2_map h.segs (fun _ _ h => h.target)
  unfold closeContour
  have hl := f2_last h.segs
  generalize c.segs.getLast? = x at hl
  generalize d.segs.getLast? = x' at hl
  cases hl with
  | none => exact .none
  | some hl =>
    simp only
    rw [bne_r h.start.wk hl.target.wk, h.segs.length_eq]
    split
    · exact .some (mk (.cons h.start ht) (f2_append h.segs (.cons (.line h.start) .nil)))
    · split
      · exact .none
      · exact .some (mk (.cons hl.target ht) h.segs)

theorem walkBack_r {l : List K} {l' : List L} (h : List.Forall₂ (G (K := K)) l l') : walkBack l = walkBack l' := by
  induction l using List.twoStepInduction generalizing l' with
  | nil => cases h; rfl
  | singleton a => cases h with | cons _ t => cases t; rfl
  | cons_cons a b l _ ih =>
    cases h with
    | cons h1 t =>
      cases t with
      | cons h2 t =>
        unfold walkBack
        rw [Sim.eq (Sim.wk h1) (Sim.wk h2), Sim.lt (Sim.wk h1) (Sim.wk h2), ih _ (.cons h2 t)]

theorem goingDown0_r {l : List (Vtx K)} {l' : List (Vtx L)} (h : List.Forall₂ (VtxR (G (K := K))) l l') : goingDown0 l = goingDown0 l' := by
  cases h with
  | nil => rfl
  | cons h1 t => exact walkBack_r (.cons h1.pt.2 (f2_reverse (f2_map (.cons h1 t) (fun _ _ h => h.pt.2))))

theorem flagLoop_r (g0 g : Bool) {l : List (Vtx K)} {l' : List (Vtx L)} (h : List.Forall₂ (VtxR (G (K := K))) l l') :
    List.Forall₂ (VtxR (G (K := K))) (flagLoop g0 g l) (flagLoop g0 g l') := by
  induction l using List.twoStepInduction generalizing l' g with
  | nil => cases h; exact .nil
  | singleton a =>
    cases h with
    | cons h1 t =>
      cases t
      unfold flagLoop
      split
      · split
        · exact .cons { h1 with lmax := rfl } .nil
        · exact .cons { h1 with lmin := rfl } .nil
      · exact .cons h1 .nil
  | cons_cons a b l _ ih =>
    cases h with
    | cons h1 t =>
      cases t with
      | cons h2 t =>
        unfold flagLoop
        rename_i a' b' l'
        have e1 : (a.y <. b.y) = (a'.y <. b'.y) := Sim.lt (Sim.wk h1.pt.2) (Sim.wk h2.pt.2)
        have e2 : (b.y <. a.y) = (b'.y <. a'.y) := Sim.lt (Sim.wk h2.pt.2) (Sim.wk h1.pt.2)
        rw [e1, e2]
        by_cases hc : ((a'.y <. b'.y) && g) = true
        · rw [if_pos hc, if_pos hc]
          exact .cons { h1 with lmin := rfl } (ih _ false (.cons h2 t))
        · rw [if_neg hc, if_neg hc]
          by_cases hd : ((b'.y <. a'.y) && !g) = true
          · rw [if_pos hd, if_pos hd]
            exact .cons { h1 with lmax := rfl } (ih _ true (.cons h2 t))
          · rw [if_neg hd, if_neg hd]
            exact .cons h1 (ih _ g (.cons h2 t))

theorem insertVertexList_r {c : Contour K} {d : Contour L} (h : ContourR c d) (pt : PathType) :
    Option.Rel (RingR (G (K := K))) (insertVertexList c pt) (insertVertexList d pt) := by
  unfold insertVertexList
  have := closeContour_r h
  generalize closeContour c = x at this
  generalize closeContour d = x' at this
  cases this with
  | none => exact .none
  | some h =>
    simp only
    rw [goingDown0_r h]
    split
    · exact .none
    · exact .some ⟨flagLoop_r _ _ h, rfl⟩

/-- Corresponding states of the intake. -/
structure IntakeR (c : Intake K) (d : Intake L) : Prop where
  rings : List.Forall₂ (RingR (G (K := K))) c.rings d.rings
  cur : Option.Rel ContourR c.cur d.cur

theorem finish_r {c : Intake K} {d : Intake L} (h : IntakeR c d) (pt : PathType) : IntakeR (c.finish pt) (d.finish pt) := by
  unfold Intake.finish
  have := h.cur
  generalize hx : c.cur = x at this
  generalize hx' : d.cur = x' at this
  cases this with
  | none => exact h
  | some h2 =>
    simp only
    rename_i e e'
    have := insertVertexList_r h2 pt
    generalize insertVertexList e pt = y at this
    generalize insertVertexList e' pt = y' at this
    cases this with
    | none => exact ⟨h.rings, .none⟩
    | some h3 => exact ⟨f2_append h.rings (.cons h3 .nil), .none⟩

theorem readMoveto_r {c : Intake K} {d : Intake L} (h : IntakeR c d) (pt : PathType) {p : Vec2 K} {q : Vec2 L} (hp : V2 (G (K := K)) p q) :
    IntakeR (readMoveto pt c p) (readMoveto pt d q) := ⟨(finish_r h pt).rings, .some ⟨hp, .nil⟩⟩

theorem append_r {c : Intake K} {d : Intake L} (h : IntakeR c d) {s : Seg K} {s' : Seg L} (hs : SegR (G (K := K)) s s') :
    Option.Rel IntakeR (c.append s) (d.append s') := by
  unfold Intake.append
  have := h.cur
  generalize c.cur = x at this
  generalize d.cur = x' at this
  cases this with
  | none => exact .none
  | some h2 => exact .some ⟨h.rings, .some ⟨h2.start, f2_append h2.segs (.cons hs .nil)⟩⟩

theorem readLineto_r {c : Intake K} {d : Intake L} (h : IntakeR c d) {a p : Vec2 K} {b q : Vec2 L} (ha : V2 (G (K := K)) a b) (hp : V2 (G (K := K)) p q) :
    Option.Rel IntakeR (readLineto c a p) (readLineto d b q) := by
  unfold readLineto
  rw [bne_r ha.wk hp.wk]
  split
  · exact append_r h (.line hp)
  · exact .some h

/-- Corresponding paths without curves. -/
structure PathR (p : Path K) (q : Path L) : Prop where
  data : List.Forall₂ (G (K := K)) p.data q.data
  types : p.types = q.types
  straight : ∀ t ∈ q.types, t ≤ 1

theorem traverseLoop_r (pt : PathType) {l : List K} {l' : List L} (hl : List.Forall₂ (G (K := K)) l l') (ts : List Nat) (hts : ∀ t ∈ ts, t ≤ 1) (di : Nat)
    {a : Vec2 K} {b : Vec2 L} (hab : V2 (G (K := K)) a b) {u : Option (Intake K)} {v : Option (Intake L)} (hu : Option.Rel IntakeR u v) :
    Option.Rel (fun x y => Option.Rel IntakeR x.1 y.1) (Path.traverseLoop (intakeFuncs pt) l ts di a u) (Path.traverseLoop (intakeFuncs pt) l' ts di b v) := by
  induction ts generalizing di a b u v with
  | nil => exact .some hu
  | cons t ts ih =>
    have ht := hts t (by simp)
    have hts' : ∀ t ∈ ts, t ≤ 1 := fun t h => hts t (by simp [h])
    unfold Path.traverseLoop
    by_cases h0 : t = 0
    · rw [if_pos h0, if_pos h0]
      refine orel_bind (f2_get hl _) (fun x x' hx => orel_bind (f2_get hl _) (fun y y' hy => ?_))
      exact ih hts' _ ⟨hx, hy⟩ (orel_map hu (fun _ _ h => readMoveto_r h pt ⟨hx, hy⟩))
    · have h1 : t = 1 := by omega
      rw [if_neg h0, if_neg h0, if_pos h1, if_pos h1]
      refine orel_bind (f2_get hl _) (fun x x' hx => orel_bind (f2_get hl _) (fun y y' hy => ?_))
      exact ih hts' _ ⟨hx, hy⟩ (orel_bind hu (fun _ _ h => readLineto_r h hab ⟨hx, hy⟩))

theorem addPath1_r (pt : PathType) {rs : List (Ring K)} {rs' : List (Ring L)} (h : List.Forall₂ (RingR (G (K := K))) rs rs') {p : Path K} {q : Path L}
    (hp : PathR p q) : Option.Rel (List.Forall₂ (RingR (G (K := K)))) (addPath1 pt rs p) (addPath1 pt rs' q) := by
  unfold addPath1 Path.traverse Path.traverseIdx
  rw [hp.types]
  have := orel_map (f := (·.1)) (f' := (·.1)) (traverseLoop_r pt hp.data q.types hp.straight 0 (a := ⟨FNum.lit 0, FNum.lit 0⟩) (b := ⟨FNum.lit 0, FNum.lit 0⟩)
    ⟨Sim.zero, Sim.zero⟩ (u := some ⟨rs, none⟩) (v := some ⟨rs', none⟩) (.some ⟨h, .none⟩)) (fun _ _ h => h)
  generalize Option.map _ _ = x at this
  generalize Option.map _ _ = x' at this
  cases this with
  | none => exact .none
  | some h2 =>
    cases h2 with
    | none => exact .none
    | some h3 => exact .some (finish_r h3 pt).rings

theorem addPaths_r (pt : PathType) {ps : List (Path K)} {qs : List (Path L)} (hp : List.Forall₂ PathR ps qs) {rs : List (Ring K)} {rs' : List (Ring L)}
    (h : List.Forall₂ (RingR (G (K := K))) rs rs') : Option.Rel (List.Forall₂ (RingR (G (K := K)))) (addPaths pt rs ps) (addPaths pt rs' qs) := by
  induction hp generalizing rs rs' with
  | nil => exact .some h
  | cons h1 _ ih =>
    unfold addPaths
    rw [h1.data.length_eq]
    split
    · exact orel_bind (addPath1_r pt h h1) (fun _ _ h => ih h)
    · exact ih h

/-! ## The broad phase -/

/-- Corresponding points of the broad phase. -/
structure ScanR (p : ScanPoint K) (q : ScanPoint L) : Prop where
  x : R p.x q.x
  ins : p.ins = q.ins
  outs : p.outs = q.outs

/-- Corresponding boxes. -/
structure RectR (r : Rect K) (s : Rect L) : Prop where
  min : V2 (R (K := K)) r.min s.min
  max : V2 (R (K := K)) r.max s.max

theorem touch_r {x : K} {x' : L} (hx : R x x') {f : ScanPoint K → ScanPoint K} {f' : ScanPoint L → ScanPoint L} (hf : ∀ p q, ScanR p q → ScanR (f p) (f' q))
    {l : List (ScanPoint K)} {l' : List (ScanPoint L)} (h : List.Forall₂ ScanR l l') : List.Forall₂ ScanR (touch x f l) (touch x' f' l') := by
  induction h with
  | nil => exact .cons (hf _ _ ⟨hx, rfl, rfl⟩) .nil
  | cons h1 t ih =>
    unfold touch
    rw [Sim.lt h1.x hx, Sim.lt hx h1.x]
    split
    · exact .cons h1 ih
    · split
      · exact .cons (hf _ _ ⟨hx, rfl, rfl⟩) (.cons h1 t)
      · exact .cons (hf _ _ h1) t

theorem addSegments_r {bs : List (Rect K)} {bs' : List (Rect L)} (hb : List.Forall₂ RectR bs bs') (i : Nat)
    {l : List (ScanPoint K)} {l' : List (ScanPoint L)} (h : List.Forall₂ ScanR l l') : List.Forall₂ ScanR (addSegments l i bs) (addSegments l' i bs') := by
  induction hb generalizing i l l' with
  | nil => exact h
  | cons h1 _ ih =>
    unfold addSegments addSegment
    refine ih _ (touch_r h1.max.1 ?_ (touch_r h1.min.1 ?_ h))
    · intro p q hpq; exact { hpq with outs := by rw [hpq.outs] }
    · intro p q hpq; exact { hpq with ins := by rw [hpq.ins] }

theorem intersect_r {a b : Rect K} {a' b' : Rect L} (ha : RectR a a') (hb : RectR b b') : a.intersect b = a'.intersect b' := by
  unfold Rect.intersect
  rw [Sim.lt ha.max.1 hb.min.1, Sim.lt hb.max.1 ha.min.1, Sim.lt ha.max.2 hb.min.2, Sim.lt hb.max.2 ha.min.2]

theorem scanIns_r (addr : Nat → Nat) {bs : Nat → Rect K} {bs' : Nat → Rect L} (hb : ∀ i, RectR (bs i) (bs' i)) (cur is : List Nat) :
    scanIns addr bs cur is = scanIns addr bs' cur is := by
  induction is generalizing cur with
  | nil => rfl
  | cons i is ih =>
    unfold scanIns
    simp only
    rw [ih]
    have : (fun c => (bs c).intersect (bs i)) = (fun c => (bs' c).intersect (bs' i)) := funext (fun c => intersect_r (hb c) (hb i))
    rw [this]

theorem scanPoints_r (addr : Nat → Nat) {bs : Nat → Rect K} {bs' : Nat → Rect L} (hb : ∀ i, RectR (bs i) (bs' i)) {l : List (ScanPoint K)}
    {l' : List (ScanPoint L)} (h : List.Forall₂ ScanR l l') (cur : List Nat) : scanPoints addr bs cur l = scanPoints addr bs' cur l' := by
  induction h generalizing cur with
  | nil => rfl
  | cons h1 _ ih =>
    unfold scanPoints
    simp only
    rw [h1.ins, h1.outs, scanIns_r addr hb, ih]

theorem scanProcess_r (addr : Nat → Nat) {bs : List (Rect K)} {bs' : List (Rect L)} (hb : List.Forall₂ RectR bs bs') {d : Rect K} {d' : Rect L}
    (hd : RectR d d') : scanProcess addr bs d = scanProcess addr bs' d' := by
  unfold scanProcess
  refine scanPoints_r addr (fun i => ?_) (addSegments_r hb 0 .nil) []
  rw [List.getD_eq_getElem?_getD, List.getD_eq_getElem?_getD]
  have := f2_get hb i
  generalize bs[i]? = x at this
  generalize bs'[i]? = x' at this
  cases this with
  | none => exact hd
  | some h => exact h

theorem boundary_r {v : Vtx K} {w : Vtx L} (h : VtxR (G (K := K)) v w) : RectR (v.seg.boundary v.pt) (w.seg.boundary w.pt) := by
  obtain ⟨h1, h2, _, _⟩ := h
  cases v; cases w
  simp only at h1 h2
  cases h2 with
  | line h2 =>
    have h1 := h1.wk
    have h2 := h2.wk
    exact ⟨⟨fmin_r (fun h => h) (Sim.rmin h2.1) h1.1, fmin_r (fun h => h) (Sim.rmin h2.2) h1.2⟩,
      ⟨fmax_r (fun h => h) (Sim.rmax h2.1) h1.1, fmax_r (fun h => h) (Sim.rmax h2.2) h1.2⟩⟩

/-! ## Breaking -/

/-- Corresponding break records. -/
structure BrkR (b : Brk K) (c : Brk L) : Prop where
  vert : b.vert = c.vert
  pt : V2 (R (K := K)) b.pt c.pt
  t : T b.t c.t

theorem same_r {a b : Brk K} {a' b' : Brk L} (ha : BrkR a a') (hb : BrkR b b') : a.same b = a'.same b' := by
  unfold Brk.same
  rw [ha.vert, hb.vert, beq_r ha.pt hb.pt, Sim.teq ha.t hb.t]

theorem pushBreaks_r (a b : Nat) {l : List (Info K)} {l' : List (Info L)} (h : List.Forall₂ (InfoR R T) l l') :
    List.Forall₂ BrkR (pushBreaks a b l) (pushBreaks a b l') := by
  refine f2_flatMap h (fun i j hij => ?_)
  rw [Sim.unit hij.t0, Sim.unit hij.t1]
  refine f2_append ?_ ?_
  · split
    · exact .cons ⟨rfl, hij.p, hij.t0⟩ .nil
    · exact .nil
  · split
    · exact .cons ⟨rfl, hij.p, hij.t1⟩ .nil
    · exact .nil

theorem intersectVtx_r (s : List (Cell K × Cell K) → List (Cell K × Cell K)) (s' : List (Cell L × Cell L) → List (Cell L × Cell L)) (i j : Nat)
    {v w : Vtx K} {v' w' : Vtx L} (hv : VtxR (G (K := K)) v v') (hw : VtxR (G (K := K)) w w') (nv : v'.pt ≠ v'.seg.target) (nw : w'.pt ≠ w'.seg.target) :
    Option.Rel (List.Forall₂ BrkR) (intersectVtx s i j v w) (intersectVtx s' i j v' w') := by
  obtain ⟨p, sg, _, _⟩ := v
  obtain ⟨p', sg', _, _⟩ := v'
  obtain ⟨q, sq, _, _⟩ := w
  obtain ⟨q', sq', _, _⟩ := w'
  obtain ⟨h1, h2, _, _⟩ := hv
  obtain ⟨h3, h4, _, _⟩ := hw
  simp only at h1 h2 h3 h4 nv nw
  cases h2 with
  | line h2 =>
    cases h4 with
    | line h4 => exact orel_map (Sim.meet h1 h2 h3 h4 nv nw) (fun _ _ h => pushBreaks_r i j h)

theorem collectBreaks_r (env : Env K) (env' : Env L) (ha : env.segAddr = env'.segAddr) {N : List (Vtx K)} {N' : List (Vtx L)}
    (h : List.Forall₂ (VtxR (G (K := K))) N N') (hne : ∀ v ∈ N', v.pt ≠ v.seg.target) :
    Option.Rel (List.Forall₂ BrkR) (collectBreaks env N) (collectBreaks env' N') := by
  unfold collectBreaks
  have z : R (FNum.lit 0 : K) (FNum.lit 0 : L) := Sim.wk Sim.zero
  rw [scanProcess_r env.segAddr (f2_map h (fun _ _ h => boundary_r h)) (d' := ⟨⟨FNum.lit 0, FNum.lit 0⟩, ⟨FNum.lit 0, FNum.lit 0⟩⟩) ⟨⟨z, z⟩, ⟨z, z⟩⟩, ha]
  refine f2_foldlM (f2_rfl _) .nil ?_
  rintro x y a _ hxy rfl
  have h1 := f2_get (f2_memr h hne) a.1
  have h2 := f2_get (f2_memr h hne) a.2
  generalize N[a.1]? = u at h1
  generalize N'[a.1]? = u' at h1
  generalize N[a.2]? = w at h2
  generalize N'[a.2]? = w' at h2
  cases h1 with
  | none => exact .some hxy
  | some h1 =>
    cases h2 with
    | none => exact .some hxy
    | some h2 => exact orel_map (intersectVtx_r _ _ _ _ h1.1 h2.1 h1.2 h2.2) (fun _ _ h => f2_append hxy h)

theorem stdUnique_r {l : List (Brk K)} {l' : List (Brk L)} (h : List.Forall₂ BrkR l l') : List.Forall₂ BrkR (stdUnique Brk.same l) (stdUnique Brk.same l') := by
  have key : ∀ {l : List (Brk K)} {l' : List (Brk L)}, List.Forall₂ BrkR l l' → ∀ {a b}, BrkR a b →
      List.Forall₂ BrkR (uniqueFrom Brk.same a l) (uniqueFrom Brk.same b l') := by
    intro l l' h
    induction h with
    | nil => intro a b hab; exact .cons hab .nil
    | cons h1 _ ih =>
      intro a b hab
      unfold uniqueFrom
      rw [same_r hab h1]
      split
      · exact ih hab
      · exact .cons hab (ih h1)
  cases h with
  | nil => exact .nil
  | cons h1 t => exact key t h1

/-- Corresponding groups. -/
def GroupR (a : Nat × List (Brk K)) (b : Nat × List (Brk L)) : Prop := a.1 = b.1 ∧ List.Forall₂ BrkR a.2 b.2

theorem groupRuns_r (n : Nat) {l : List (Brk K)} {l' : List (Brk L)} (hn : l.length ≤ n) (h : List.Forall₂ BrkR l l') :
    List.Forall₂ GroupR (groupRuns l) (groupRuns l') := by
  induction n generalizing l l' with
  | zero =>
    have : l = [] := List.length_eq_zero_iff.1 (by omega)
    subst this
    cases h
    unfold groupRuns
    exact .nil
  | succ n ih =>
    cases h with
    | nil => unfold groupRuns; exact .nil
    | cons h1 t =>
      rename_i a b r r'
      unfold groupRuns
      have hp : ∀ (u : Brk K) (v : Brk L), BrkR u v → (u.vert == a.vert) = (v.vert == b.vert) := fun u v h => by rw [h.vert, h1.vert]
      refine .cons ⟨h1.vert, .cons h1 (f2_takeWhile t hp)⟩ (ih ?_ (f2_dropWhile t hp))
      have := (List.dropWhile_sublist (fun x : Brk K => x.vert == a.vert) (l := r)).length_le
      simp only [List.length_cons] at hn
      omega

theorem lookup_r {l : List (Nat × List (Brk K))} {l' : List (Nat × List (Brk L))} (h : List.Forall₂ GroupR l l') (i : Nat) :
    Option.Rel (List.Forall₂ BrkR) (l.lookup i) (l'.lookup i) := by
  induction h with
  | nil => exact .none
  | cons h1 _ ih =>
    rename_i a b _ _ _
    obtain ⟨a1, a2⟩ := a
    obtain ⟨b1, b2⟩ := b
    obtain ⟨h1, h2⟩ := h1
    simp only at h1 h2
    subst h1
    rw [List.lookup_cons, List.lookup_cons]
    split
    · exact .some h2
    · exact ih

theorem VtxR.wk {v : Vtx K} {w : Vtx L} (h : VtxR (G (K := K)) v w) : VtxR (R (K := K)) v w :=
  ⟨h.pt.wk, h.seg.mono Sim.wk, h.lmin, h.lmax⟩

theorem breakNode_r (s : List (Brk K) → List (Brk K)) (s' : List (Brk L) → List (Brk L)) {v : Vtx K} {w : Vtx L} (h : VtxR (G (K := K)) v w)
    {e : Vec2 K} {e' : Vec2 L} (he : V2 (G (K := K)) e e') {bs : List (Brk K)} {bs' : List (Brk L)} (hb : List.Forall₂ BrkR bs bs') :
    List.Forall₂ (VtxR (R (K := K))) (breakNode s v e bs) (breakNode s' w e' bs') := by
  obtain ⟨p, sg, m1, m2⟩ := v
  obtain ⟨p', sg', m1', m2'⟩ := w
  obtain ⟨h1, h2, h3, h4⟩ := h
  simp only at h1 h2 h3 h4
  cases h2 with
  | line h2 =>
    unfold breakNode
    simp only
    have hp : List.Forall₂ (V2 (R (K := K))) (bs.map Brk.pt) (bs'.map Brk.pt) := f2_map hb (fun _ _ h => h.pt)
    have hs : List.Forall₂ (SegR (R (K := K))) ((bs.map Brk.pt ++ [e]).map Seg.line) ((bs'.map Brk.pt ++ [e']).map Seg.line) :=
      f2_map (f2_append hp (.cons he.wk .nil)) (fun _ _ h => .line h)
    generalize (bs.map Brk.pt ++ [e]).map Seg.line = sl at hs
    generalize (bs'.map Brk.pt ++ [e']).map Seg.line = sl' at hs
    cases hs with
    | nil => exact .cons ⟨h1.wk, .line h2.wk, h3, h4⟩ .nil
    | cons hs1 hs2 => exact .cons ⟨h1.wk, hs1, h3, h4⟩ (f2_map (f2_zip hp hs2) (fun _ _ h => ⟨h.1, h.2, rfl, rfl⟩))

theorem breakRing_r (s : List (Brk K) → List (Brk K)) (s' : List (Brk L) → List (Brk L)) {gs : List (Nat × List (Brk K))} {gs' : List (Nat × List (Brk L))}
    (hg : List.Forall₂ GroupR gs gs') (off : Nat) {r : Ring K} {r' : Ring L} (h : RingR (G (K := K)) r r') :
    RingR (R (K := K)) (breakRing s gs off r) (breakRing s' gs' off r') := by
  refine ⟨f2_flatMap (f2_zipIdx h.nodes 0) ?_, h.ptype⟩
  rintro ⟨a, i⟩ ⟨b, j⟩ ⟨hab, hij⟩
  simp only at hab hij ⊢
  subst hij
  rw [h.nodes.length_eq]
  have h1 := lookup_r hg (off + i)
  have h2 := f2_get h.nodes ((i + 1) % r'.nodes.length)
  generalize gs.lookup (off + i) = x at h1
  generalize gs'.lookup (off + i) = x' at h1
  generalize r.nodes[(i + 1) % r'.nodes.length]? = z at h2
  generalize r'.nodes[(i + 1) % r'.nodes.length]? = z' at h2
  cases h1 with
  | none => exact .cons hab.wk .nil
  | some h1 =>
    cases h2 with
    | none => exact .cons hab.wk .nil
    | some h2 => exact breakNode_r s s' hab h2.pt h1

theorem breakRings_r (s : List (Brk K) → List (Brk K)) (s' : List (Brk L) → List (Brk L)) {gs : List (Nat × List (Brk K))} {gs' : List (Nat × List (Brk L))}
    (hg : List.Forall₂ GroupR gs gs') (off : Nat) {rs : List (Ring K)} {rs' : List (Ring L)} (h : List.Forall₂ (RingR (G (K := K))) rs rs') :
    List.Forall₂ (RingR (R (K := K))) (breakRings s gs off rs) (breakRings s' gs' off rs') := by
  induction h generalizing off with
  | nil => exact .nil
  | cons h1 _ ih =>
    unfold breakRings
    refine .cons (breakRing_r s s' hg off h1) ?_
    rw [h1.nodes.length_eq]
    exact ih _

theorem allNodes_r {P : K → L → Prop} {rs : List (Ring K)} {rs' : List (Ring L)} (h : List.Forall₂ (RingR P) rs rs') :
    List.Forall₂ (VtxR P) (allNodes rs) (allNodes rs') := f2_flatMap h (fun _ _ h => h.nodes)

/-! ## Writing -/

/-- Corresponding commands. -/
inductive CmdR (P : K → L → Prop) : Cmd K → Cmd L → Prop
  | moveto {p q} (h : V2 P p q) : CmdR P (.moveto p) (.moveto q)
  | lineto {p q} (h : V2 P p q) : CmdR P (.lineto p) (.lineto q)

/-- Corresponding events. -/
structure EventR (P : K → L → Prop) (e : Event K) (f : Event L) : Prop where
  source : V2 P e.source f.source
  cmd : CmdR P e.cmd f.cmd

theorem writePath_r {l : List (Seg K)} {l' : List (Seg L)} (h : List.Forall₂ (SegR (R (K := K))) l l') {p : Vec2 K} {q : Vec2 L} (hp : V2 (R (K := K)) p q)
    {u : List (Event K)} {v : List (Event L)} (hu : List.Forall₂ (EventR (R (K := K))) u v) :
    Option.Rel (fun a b => V2 (R (K := K)) a.1 b.1 ∧ List.Forall₂ (EventR (R (K := K))) a.2 b.2) (writePath Path.recorder l p u) (writePath Path.recorder l' q v) := by
  induction h generalizing p q u v with
  | nil => exact .some ⟨hp, hu⟩
  | cons h1 _ ih =>
    cases h1 with
    | line h1 => exact ih h1 (f2_append hu (.cons ⟨hp, .lineto h1⟩ .nil))

theorem writePoly_r {p : Poly K} {q : Poly L} (h : PolyR p q) {u : List (Event K)} {v : List (Event L)} (hu : List.Forall₂ (EventR (R (K := K))) u v) :
    Option.Rel (List.Forall₂ (EventR (R (K := K)))) (writePoly Path.recorder p u) (writePoly Path.recorder q v) := by
  have he : ∀ {l : List (Seg K)} {l' : List (Seg L)}, List.Forall₂ (SegR (R (K := K))) l l' → l.isEmpty = l'.isEmpty := by
    intro l l' h; cases h <;> rfl
  unfold writePoly
  rw [h.complete, he h.upPath, he h.downPath]
  split
  · simp only [Path.recorder, Option.bind_some]
    have z : R (FNum.lit 0 : K) (FNum.lit 0 : L) := Sim.wk Sim.zero
    have he : EventR (R (K := K)) (⟨⟨FNum.lit 0, FNum.lit 0⟩, .moveto p.origin⟩ : Event K) (⟨⟨FNum.lit 0, FNum.lit 0⟩, .moveto q.origin⟩ : Event L) :=
      ⟨⟨z, z⟩, .moveto h.origin⟩
    have h1 := writePath_r h.upPath h.origin (f2_append hu (.cons he .nil))
    refine orel_bind h1 (fun a b hab => ?_)
    exact orel_map (writePath_r (f2_reverse h.downPath) hab.1 hab.2) (fun _ _ h => h.2)
  · exact .some hu

theorem buildOutput_r {l : List (Poly K)} {l' : List (Poly L)} (h : List.Forall₂ PolyR l l') {u : List (Event K)} {v : List (Event L)}
    (hu : List.Forall₂ (EventR (R (K := K))) u v) :
    Option.Rel (List.Forall₂ (EventR (R (K := K)))) (buildOutput Path.recorder l u) (buildOutput Path.recorder l' v) :=
  f2_foldlM h hu (fun _ _ _ _ hxy hab => writePoly_r hab hxy)

/-! ## Local minima -/

theorem locMins_r {rs : List (Ring K)} {rs' : List (Ring L)} (h : List.Forall₂ (RingR (G (K := K))) rs rs') :
    List.Forall₂ LocMinR (locMins rs) (locMins rs') := by
  refine f2_flatMap (f2_zipIdx h 0) ?_
  rintro ⟨a, i⟩ ⟨b, j⟩ ⟨hab, hij⟩
  simp only at hab hij ⊢
  subst hij
  refine f2_filterMap (f2_zipIdx hab.nodes 0) ?_
  rintro ⟨v, k⟩ ⟨w, l⟩ ⟨hvw, hkl⟩
  simp only at hvw hkl ⊢
  subst hkl
  rw [hvw.lmin]
  split
  · exact .some ⟨hvw.pt, rfl, rfl, hab.ptype⟩
  · exact .none

omit [FTrans L] in
theorem locMins_ok {rs : List (Ring L)} {m : LocMin L} (hm : m ∈ locMins rs) : MinOk rs m := by
  obtain ⟨⟨r, i⟩, hr, hm⟩ := List.mem_flatMap.1 hm
  obtain ⟨⟨v, k⟩, hv, hm⟩ := List.mem_filterMap.1 hm
  simp only at hm
  split at hm
  · simp only [Option.some.injEq] at hm
    subst hm
    refine ⟨v, ?_, rfl⟩
    rw [List.mk_mem_zipIdx_iff_getElem?] at hr hv
    unfold nodeAt
    simp only [hr, Option.bind_some, hv]
  · exact absurd hm (by simp)

theorem less_r {a b : LocMin K} {a' b' : LocMin L} (ha : LocMinR a a') (hb : LocMinR b b') : a.less b = a'.less b' := by
  unfold LocMin.less
  rw [Sim.eq (Sim.wk ha.pt.2) (Sim.wk hb.pt.2), Sim.lt (Sim.wk ha.pt.1) (Sim.wk hb.pt.1), Sim.lt (Sim.wk ha.pt.2) (Sim.wk hb.pt.2)]

end Sim
end River
