import Verif.Lemmas.SimList
import Verif.Lemmas.EdgeSide

/-! # Two arithmetics that agree on a computation

`Sim.R a b`: the numbers `a` and `b` of the two arithmetics correspond, so that comparisons agree. `Sim.G a b`: in addition they are small whole
numbers, so that what the clipper computes from them corresponds again. -/

namespace River

/-- Corresponding points. -/
structure V2 {K L : Type} (P : K → L → Prop) (p : Vec2 K) (q : Vec2 L) : Prop where
  x : P p.x q.x
  y : P p.y q.y

/-- Corresponding intersections. -/
structure InfoR {K L : Type} (P T : K → L → Prop) (a : Info K) (b : Info L) : Prop where
  p : V2 P a.p b.p
  t0 : T a.t0 b.t0
  t1 : T a.t1 b.t1

/-- Correspondence of two arithmetics: `R` of coordinates, `G` of coordinates of the grid, `H` of heights halfway between such, `T` of positions on
segments. -/
class Sim (K L : Type) [FTrans K] [FTrans L] where
  R : K → L → Prop
  G : K → L → Prop
  H : K → L → Prop
  T : K → L → Prop
  wk : ∀ {a b}, G a b → R a b
  half_wk : ∀ {a b}, G a b → H a b
  lt : ∀ {a a' b b'}, R a a' → R b b' → (a <. b) = (a' <. b')
  le : ∀ {a a' b b'}, R a a' → R b b' → (a ≤. b) = (a' ≤. b')
  eq : ∀ {a a' b b'}, R a a' → R b b' → (a ==. b) = (a' ==. b')
  zero : G (FNum.lit 0) (FNum.lit 0)
  rmin : ∀ {a a'}, R a a' → R (fmin FNum.maxNum a) (fmin FNum.maxNum a')
  rmax : ∀ {a a'}, R a a' → R (fmax (FNum.neg FNum.maxNum) a) (fmax (FNum.neg FNum.maxNum) a')
  low : ∀ {a a'}, R a a' → (a ==. FNum.neg FNum.maxNum) = false ∧ (a' ==. FNum.neg FNum.maxNum) = false
  half : ∀ {a a' b b'}, G a a' → G b b' → H ((a +. b) /. FNum.lit 2) ((a' +. b') /. FNum.lit 2)
  linX : ∀ {t f : Vec2 K} {t' f' : Vec2 L} {y y'}, V2 G t t' → V2 G f f' → H y y' → t'.y ≠ f'.y → R (Seg.linX t f y) (Seg.linX t' f' y')
  tlt : ∀ {a a' b b'}, T a a' → T b b' → (a <. b) = (a' <. b')
  teq : ∀ {a a' b b'}, T a a' → T b b' → (a ==. b) = (a' ==. b')
  unit : ∀ {t t'}, T t t' → inUnit t = inUnit t'
  meet : ∀ {p0 p1 p2 p3 : Vec2 K} {q0 q1 q2 q3 : Vec2 L}, V2 G p0 q0 → V2 G p1 q1 → V2 G p2 q2 → V2 G p3 q3 → q0 ≠ q1 → q2 ≠ q3 →
    Option.Rel (List.Forall₂ (InfoR R T)) (lineIntersect p0 p1 p2 p3) (lineIntersect q0 q1 q2 q3)

namespace Sim
attribute [local instance 10000] FTrans.toFNum

section
variable {K L : Type}

/-- Corresponding straight segments. -/
inductive SegR (P : K → L → Prop) : Seg K → Seg L → Prop
  | line {t t'} (h : V2 P t t') : SegR P (.line t) (.line t')

/-- Corresponding vertices. -/
structure VtxR (P : K → L → Prop) (v : Vtx K) (w : Vtx L) : Prop where
  pt : V2 P v.pt w.pt
  seg : SegR P v.seg w.seg
  lmin : v.lmin = w.lmin
  lmax : v.lmax = w.lmax

/-- Corresponding contours. -/
structure RingR (P : K → L → Prop) (r : Ring K) (s : Ring L) : Prop where
  nodes : List.Forall₂ (VtxR P) r.nodes s.nodes
  ptype : r.ptype = s.ptype

theorem _root_.River.V2.mono {P Q : K → L → Prop} (h : ∀ {a b}, P a b → Q a b) {p q} (hp : V2 P p q) : V2 Q p q := ⟨h hp.1, h hp.2⟩

theorem SegR.target {P : K → L → Prop} {s s'} (h : SegR P s s') : V2 P s.target s'.target := by cases h with | line h => exact h

theorem SegR.mono {P Q : K → L → Prop} (h : ∀ {a b}, P a b → Q a b) {s s'} (hs : SegR P s s') : SegR Q s s' := by
  cases hs with | line h2 => exact .line (h2.mono h)

end

variable {K L : Type} [FTrans K] [FTrans L] [Sim K L]

/-- Corresponding minima. -/
structure LocMinR (m : LocMin K) (n : LocMin L) : Prop where
  pt : V2 (G (K := K)) m.pt n.pt
  ring : m.ring = n.ring
  node : m.node = n.node
  ptype : m.ptype = n.ptype

/-- Corresponding edges. -/
structure EdgeR (e : Edge K) (f : Edge L) : Prop where
  eid : e.eid = f.eid
  bot : V2 (G (K := K)) e.bot f.bot
  top : V2 (G (K := K)) e.top f.top
  currX : R e.currX f.currX
  windDx : e.windDx = f.windDx
  windCnt : e.windCnt = f.windCnt
  windCnt2 : e.windCnt2 = f.windCnt2
  bound : e.bound = f.bound
  ring : e.ring = f.ring
  vtop : e.vtop = f.vtop
  ptype : e.ptype = f.ptype

/-- Corresponding bounds. -/
structure BoundR (b : Bound K) (c : Bound L) : Prop where
  prev : b.prev = c.prev
  next : b.next = c.next
  owner : b.owner = c.owner
  currEdge : b.currEdge = c.currEdge
  stopX : R b.stopX c.stopX
  windDx : b.windDx = c.windDx

/-- Corresponding polygons. -/
structure PolyR (p : Poly K) (q : Poly L) : Prop where
  origin : V2 (R (K := K)) p.origin q.origin
  upBound : p.upBound = q.upBound
  downBound : p.downBound = q.downBound
  upPath : List.Forall₂ (SegR (R (K := K))) p.upPath q.upPath
  downPath : List.Forall₂ (SegR (R (K := K))) p.downPath q.downPath
  complete : p.complete = q.complete

/-- Corresponding pools. -/
structure OutsR (o : Outs K) (q : Outs L) : Prop where
  bounds : List.Forall₂ BoundR o.bounds q.bounds
  polys : List.Forall₂ PolyR o.polys q.polys
  oblFirst : o.oblFirst = q.oblFirst

theorem fmin_r {P : K → L → Prop} {a b : K} {a' b' : L} (hP : ∀ {a b}, P a b → R a b) (h : P a a') (h2 : P b b') : P (fmin a b) (fmin a' b') := by
  unfold fmin; rw [Sim.lt (hP h2) (hP h)]; split
  · exact h2
  · exact h

theorem fmax_r {P : K → L → Prop} {a b : K} {a' b' : L} (hP : ∀ {a b}, P a b → R a b) (h : P a a') (h2 : P b b') : P (fmax a b) (fmax a' b') := by
  unfold fmax; rw [Sim.lt (hP h) (hP h2)]; split
  · exact h2
  · exact h

theorem beq_r {p q : Vec2 K} {p' q' : Vec2 L} (h : V2 R p p') (h2 : V2 R q q') : p.beq q = p'.beq q' := by
  unfold Vec2.beq; rw [Sim.eq h.1 h2.1, Sim.eq h.2 h2.2]

theorem bne_r {p q : Vec2 K} {p' q' : Vec2 L} (h : V2 R p p') (h2 : V2 R q q') : p.bne q = p'.bne q' := by
  unfold Vec2.bne; rw [beq_r h h2]

theorem _root_.River.V2.wk {p : Vec2 K} {q : Vec2 L} (h : V2 G p q) : V2 R p q := V2.mono Sim.wk h

/-- Corresponding coordinates, or the least number in both. -/
def Old (a : K) (b : L) : Prop := R a b ∨ a = FNum.neg FNum.maxNum ∧ b = FNum.neg FNum.maxNum

theorem Old.eq {a l : K} {a' l' : L} (h : R a a') (ho : Old l l') : (a ==. l) = (a' ==. l') := by
  rcases ho with ho | ⟨rfl, rfl⟩
  · exact Sim.eq h ho
  · rw [(Sim.low h).1, (Sim.low h).2]

theorem Old.back {a l : K} {a' l' : L} (h : R a a') (ho : Old l l') (e : (a' ==. l') = true) : R l l' := by
  rcases ho with ho | ⟨rfl, rfl⟩
  · exact ho
  · rw [(Sim.low h).2] at e; cases e

/-! ## numbers -/

theorem insertNum_r {P : K → L → Prop} (hP : ∀ {a b}, P a b → R a b) {x : K} {x' : L} (hx : P x x') {l : List K} {l' : List L}
    (h : List.Forall₂ P l l') : List.Forall₂ P (insertNum x l) (insertNum x' l') := by
  induction h with
  | nil => exact .cons hx .nil
  | cons h t ih =>
    unfold insertNum
    rw [Sim.lt (hP h) (hP hx)]; split
    · exact .cons h ih
    · exact .cons hx (.cons h t)

theorem sortNum_r {l : List K} {l' : List L} (h : List.Forall₂ R l l') : List.Forall₂ R (sortNum l) (sortNum l') :=
  f2_foldr h .nil (fun _ _ _ _ hx hl => insertNum_r id hx hl)

theorem uniqFrom_r {l : List K} {l' : List L} (h : List.Forall₂ R l l') {x : K} {x' : L} (hx : R x x') :
    List.Forall₂ R (uniqFrom x l) (uniqFrom x' l') := by
  induction h generalizing x x' with
  | nil => exact .nil
  | cons h t ih =>
    unfold uniqFrom
    rw [Sim.eq hx h]; split
    · exact ih hx
    · exact .cons h (ih h)

theorem uniqNum_r {l : List K} {l' : List L} (h : List.Forall₂ R l l') : List.Forall₂ R (uniqNum l) (uniqNum l') := by
  cases h with
  | nil => exact .nil
  | cons h t => exact .cons h (uniqFrom_r t h)

theorem popScan_r {old : K} {old' : L} (ho : Old old old') {l : List K} {l' : List L} (h : List.Forall₂ G l l') :
    Option.Rel (fun a b => G a.1 b.1 ∧ List.Forall₂ G a.2 b.2) (popScan old l) (popScan old' l') := by
  induction h with
  | nil => exact .none
  | cons h t ih =>
    unfold popScan
    rw [Old.eq (Sim.wk h) ho]; split
    · exact ih
    · exact .some ⟨h, f2_dropWhile t (fun a b hab => Sim.eq (Sim.wk h) (Sim.wk hab))⟩

/-! ## edges -/

theorem EdgeR.isUp {e : Edge K} {f : Edge L} (h : EdgeR e f) : e.isUp = f.isUp := by unfold Edge.isUp; rw [h.windDx]
theorem EdgeR.isHorz {e : Edge K} {f : Edge L} (h : EdgeR e f) : e.isHorz = f.isHorz := by
  unfold Edge.isHorz; exact Sim.eq (Sim.wk h.bot.2) (Sim.wk h.top.2)
theorem BoundR.isUp {e : Bound K} {f : Bound L} (h : BoundR e f) : e.isUp = f.isUp := by unfold Bound.isUp; rw [h.windDx]

/-- Edges that differ in winding counts and bounds only. -/
structure SameRun {K : Type} (f g : Edge K) : Prop where
  bot : g.bot = f.bot
  top : g.top = f.top
  windDx : g.windDx = f.windDx
  ring : g.ring = f.ring
  vtop : g.vtop = f.vtop

section
variable {T : Edge L → Prop}

/-- Edges in the list of active edges: `T` is what is known about them. -/
def ER (T : Edge L → Prop) (e : Edge K) (f : Edge L) : Prop := EdgeR e f ∧ T f

theorem splitLast_r {α β : Type} {P : α → β → Prop} {p : α → Bool} {p' : β → Bool} (hp : ∀ a b, P a b → p a = p' b) {l : List α} {l' : List β}
    (h : List.Forall₂ P l l') : Option.Rel (fun x y => P x.1 y.1 ∧ List.Forall₂ P x.2 y.2) (splitLast p l) (splitLast p' l') := by
  induction h with
  | nil => exact .none
  | cons h t ih =>
    unfold splitLast
    generalize splitLast p _ = x at ih
    generalize splitLast p' _ = x' at ih
    cases ih with
    | some h2 => exact .some h2
    | none =>
      simp only
      rw [hp _ _ h]; split
      · exact .some ⟨h, t⟩
      · exact .none

theorem wind2_r (fr : FillRule) (pt : PathType) (a : Int) {l : List (Edge K)} {l' : List (Edge L)} (h : List.Forall₂ (ER T) l l') :
    wind2 fr pt a l = wind2 fr pt a l' := by
  unfold wind2
  refine f2_foldl (Q := (· = ·)) h rfl ?_
  rintro x y e f rfl he
  rw [he.1.ptype, he.1.windDx]

theorem calcWind_r (fr : FillRule) (hT : ∀ f g, SameRun f g → T f → T g) {l : List (Edge K)} {l' : List (Edge L)} (h : List.Forall₂ (ER T) l l')
    {e : Edge K} {f : Edge L} (he : ER T e f) : ER T (calcWind fr l e) (calcWind fr l' f) := by
  unfold calcWind
  have := splitLast_r (p := fun l : Edge K => decide (l.ptype = e.ptype)) (p' := fun l : Edge L => decide (l.ptype = f.ptype))
    (fun a b (hab : ER T a b) => by rw [hab.1.ptype, he.1.ptype]) h
  generalize splitLast _ l = x at this
  generalize splitLast _ l' = x' at this
  obtain ⟨he, ht⟩ := he
  cases this with
  | none =>
    simp only
    exact ⟨{ he with windCnt := he.windDx, windCnt2 := by rw [he.ptype]; exact wind2_r _ _ _ h }, hT f _ ⟨rfl, rfl, rfl, rfl, rfl⟩ ht⟩
  | some h2 =>
    rename_i a b
    obtain ⟨h2, h3⟩ := h2
    refine ⟨{ he with windCnt := ?_, windCnt2 := ?_ }, hT f _ ⟨rfl, rfl, rfl, rfl, rfl⟩ ht⟩
    · simp only; rw [he.windDx, h2.1.windCnt, h2.1.windDx]
    · simp only; rw [he.ptype, h2.1.windCnt2]; exact wind2_r _ _ _ h3

theorem recalcX_r (fr : FillRule) (hT : ∀ f g, SameRun f g → T f → T g) {x : K} {x' : L} (hx : R x x') {d : List (Edge K)} {d' : List (Edge L)}
    (hd : List.Forall₂ (ER T) d d') {l : List (Edge K)} {l' : List (Edge L)} (h : List.Forall₂ (ER T) l l') :
    List.Forall₂ (ER T) (recalcX fr x d l).1 (recalcX fr x' d' l').1 ∧ List.Forall₂ (ER T) (recalcX fr x d l).2 (recalcX fr x' d' l').2 := by
  induction h generalizing d d' with
  | nil => exact ⟨hd, .nil⟩
  | cons h t ih =>
    rename_i e f _ _
    unfold recalcX
    rw [Sim.lt h.1.currX hx, Sim.lt hx h.1.currX]
    split
    · exact ih (f2_append hd (.cons h .nil))
    · split
      · exact ⟨hd, .cons h t⟩
      · refine ih (f2_append hd (.cons (calcWind_r fr hT hd ⟨{ h.1 with bound := rfl }, hT f _ ⟨rfl, rfl, rfl, rfl, rfl⟩ h.2⟩) .nil))

theorem recalcGo_r (fr : FillRule) (hT : ∀ f g, SameRun f g → T f → T g) {xs : List K} {xs' : List L} (hx : List.Forall₂ R xs xs')
    {d : List (Edge K)} {d' : List (Edge L)} (hd : List.Forall₂ (ER T) d d') {l : List (Edge K)} {l' : List (Edge L)} (h : List.Forall₂ (ER T) l l') :
    List.Forall₂ (ER T) (recalcGo fr xs d l) (recalcGo fr xs' d' l') := by
  induction hx generalizing d d' l l' with
  | nil => exact f2_append hd h
  | cons hx _ ih =>
    unfold recalcGo
    have := recalcX_r fr hT hx hd h
    exact ih this.1 this.2

theorem isContributing_r (ct : ClipType) (fr : FillRule) {e : Edge K} {f : Edge L} (h : EdgeR e f) : isContributing ct fr e = isContributing ct fr f := by
  unfold isContributing
  rw [h.windCnt, h.windCnt2, h.ptype]

theorem insertFrom_r {α β : Type} {P : α → β → Prop} {v : α → α → Bool} {v' : β → β → Bool} (hv : ∀ a b a' b', P a a' → P b b' → v a b = v' a' b')
    {n : α} {n' : β} (hn : P n n') {l : List α} {l' : List β} (h : List.Forall₂ P l l') : List.Forall₂ P (insertFrom v n l) (insertFrom v' n' l') := by
  induction h with
  | nil => exact .cons hn .nil
  | cons h t ih =>
    unfold insertFrom
    rw [hv _ _ _ _ h hn]; split
    · exact .cons h ih
    · exact .cons hn (.cons h t)

theorem insertAel_r {α β : Type} {P : α → β → Prop} {v : α → α → Bool} {v' : β → β → Bool} (hv : ∀ a b a' b', P a a' → P b b' → v a b = v' a' b')
    {n : α} {n' : β} (hn : P n n') {l : List α} {l' : List β} (h : List.Forall₂ P l l') : List.Forall₂ P (insertAel v n l) (insertAel v' n' l') := by
  cases h with
  | nil => exact .cons hn .nil
  | cons h t =>
    unfold insertAel
    simp only
    rw [hv _ _ _ _ h hn]; split
    · exact .cons h (insertFrom_r hv hn t)
    · exact .cons hn (.cons h t)

theorem insertAfterPrev_r {v : Edge K → Edge K → Bool} {v' : Edge L → Edge L → Bool} (hv : ∀ a b a' b', ER T a a' → ER T b b' → v a b = v' a' b')
    (aid : Nat) {n : Edge K} {n' : Edge L} (hn : ER T n n') {l : List (Edge K)} {l' : List (Edge L)} (h : List.Forall₂ (ER T) l l') :
    List.Forall₂ (ER T) (insertAfterPrev v aid n l) (insertAfterPrev v' aid n' l') := by
  unfold insertAfterPrev
  rw [List.span_eq_takeWhile_dropWhile, List.span_eq_takeWhile_dropWhile]
  have hq : ∀ a b, ER T a b → (a.eid != aid) = (b.eid != aid) := fun (a : Edge K) (b : Edge L) hab => by rw [hab.1.eid]
  have h1 := f2_takeWhile h hq
  have h2 := f2_dropWhile h hq
  generalize List.takeWhile _ l = x at h1
  generalize List.takeWhile _ l' = x' at h1
  generalize List.dropWhile _ l = z at h2
  generalize List.dropWhile _ l' = z' at h2
  cases h1 with
  | nil => exact insertAel_r hv hn h
  | cons h1 t => exact f2_append (.cons h1 t) (insertFrom_r hv hn h2)

end

/-! ## output -/

theorem modB_r {o : Outs K} {q : Outs L} (h : OutsR o q) (i : Nat) {f : Bound K → Bound K} {f' : Bound L → Bound L}
    (hf : ∀ a b, BoundR a b → BoundR (f a) (f' b)) : OutsR (o.modB i f) (q.modB i f') :=
  { h with bounds := f2_modify h.bounds i hf }

theorem modP_r {o : Outs K} {q : Outs L} (h : OutsR o q) (i : Nat) {f : Poly K → Poly K} {f' : Poly L → Poly L}
    (hf : ∀ a b, PolyR a b → PolyR (f a) (f' b)) : OutsR (o.modP i f) (q.modP i f') :=
  { h with polys := f2_modify h.polys i hf }

theorem push_r {o : Outs K} {q : Outs L} (h : OutsR o q) {b : Bound K} {c : Bound L} (hb : BoundR b c) {s : Seg K} {s' : Seg L} (hs : SegR R s s') :
    OutsR (o.push b s) (q.push c s') := by
  unfold Outs.push
  rw [hb.owner, hb.isUp]
  refine modP_r h _ (fun a b hab => ?_)
  split
  · exact { hab with upPath := f2_append hab.upPath (.cons hs .nil) }
  · exact { hab with downPath := f2_append hab.downPath (.cons hs .nil) }

theorem deleteObl_r {o : Outs K} {q : Outs L} (h : OutsR o q) (i : Nat) : OutsR (o.deleteObl i) (q.deleteObl i) := by
  unfold Outs.deleteObl
  have := f2_get h.bounds i
  generalize o.bounds[i]? = x at this
  generalize q.bounds[i]? = x' at this
  cases this with
  | none => exact h
  | some hb =>
    rename_i b c
    simp only
    have h1 : OutsR (match b.prev with
      | some p => o.modB p (fun x => { x with next := b.next })
      | none => { o with oblFirst := b.next }) (match c.prev with
      | some p => q.modB p (fun x => { x with next := c.next })
      | none => { q with oblFirst := c.next }) := by
      rw [hb.prev]
      split
      · exact modB_r h _ (fun a b' hab => { hab with next := hb.next })
      · exact { h with oblFirst := hb.next }
    rw [hb.next] at h1 ⊢
    split
    · exact modB_r h1 _ (fun a b' hab => { hab with prev := hb.prev })
    · exact h1

theorem newOutput_r {o : Outs K} {q : Outs L} (h : OutsR o q) {a b : Edge K} {a' b' : Edge L} (ha : EdgeR a a') (hb : EdgeR b b') :
    OutsR (o.newOutput a b) (q.newOutput a' b') := by
  have hu : (decide (a.windDx < 0)) = decide (a'.windDx < 0) := by rw [ha.windDx]
  have hbl := h.bounds.length_eq
  have hpl := h.polys.length_eq
  unfold Outs.newOutput Bound.isUp
  simp only
  rw [hu, hbl, hpl]
  refine ⟨f2_append h.bounds (.cons ⟨rfl, rfl, rfl, ?_, ha.currX, ha.windDx⟩ (.cons ⟨rfl, rfl, rfl, ?_, hb.currX, hb.windDx⟩ .nil)),
    f2_append h.polys (.cons ?_ .nil), h.oblFirst⟩
  · rw [ha.eid]
  · rw [hb.eid]
  · have h1 : V2 R a.bot a'.bot := V2.wk ha.bot
    have h2 : V2 R b.bot b'.bot := V2.wk hb.bot
    cases decide (a'.windDx < 0)
    · simp only [Bool.false_eq_true, if_false]
      refine ⟨h1, rfl, rfl, ?_, .nil, rfl⟩
      simp only
      rw [bne_r h2 h1]; split
      · exact .cons (.line h2) .nil
      · exact .nil
    · simp only [if_true]
      refine ⟨h2, rfl, rfl, ?_, .nil, rfl⟩
      simp only
      rw [bne_r h1 h2]; split
      · exact .cons (.line h1) .nil
      · exact .nil

theorem updateBound_r {o : Outs K} {q : Outs L} (h : OutsR o q) (i : Nat) {e : Edge K} {f : Edge L} (he : EdgeR e f) :
    Option.Rel OutsR (o.updateBound i e) (q.updateBound i f) := by
  unfold Outs.updateBound
  have := f2_get h.bounds i
  generalize o.bounds[i]? = x at this
  generalize q.bounds[i]? = x' at this
  cases this with
  | none => exact .none
  | some hb =>
    rename_i b c
    simp only
    refine .some (modB_r ?_ i (fun a b' hab => { hab with currEdge := ?_ }))
    · rw [Sim.eq he.currX hb.stopX, hb.isUp]
      have := V2.wk he.bot
      split
      · exact h
      · split
        · exact push_r h hb (.line this)
        · exact push_r h hb (.line ⟨hb.stopX, this.2⟩)
    · simp only; rw [he.eid]

theorem merge_r {o : Outs K} {q : Outs L} (h : OutsR o q) (u : Bool) (d s : Nat) : Option.Rel OutsR (o.merge u d s) (q.merge u d s) := by
  unfold Outs.merge
  have := f2_get h.polys s
  generalize o.polys[s]? = x at this
  generalize q.polys[s]? = x' at this
  cases this with
  | none => exact .none
  | some hp =>
    rename_i b c
    simp only
    cases u
    · simp only [Bool.false_eq_true, if_false]
      rw [hp.downBound]
      split
      · exact .none
      · refine .some (modP_r (modB_r (modP_r h _ ?_) _ ?_) _ ?_) <;> intro a b hab
        · exact { hab with downPath := f2_append (f2_append hab.downPath (f2_reverse hp.upPath)) hp.downPath, downBound := rfl }
        · exact { hab with owner := rfl }
        · exact { hab with upPath := .nil, downPath := .nil, upBound := rfl, downBound := rfl, complete := rfl }
    · simp only [if_true]
      rw [hp.upBound]
      split
      · exact .none
      · refine .some (modP_r (modB_r (modP_r h _ ?_) _ ?_) _ ?_) <;> intro a b hab
        · exact { hab with upPath := f2_append (f2_append hab.upPath (f2_reverse hp.downPath)) hp.upPath, upBound := rfl }
        · exact { hab with owner := rfl }
        · exact { hab with upPath := .nil, downPath := .nil, upBound := rfl, downBound := rfl, complete := rfl }

theorem join_r {o : Outs K} {q : Outs L} (h : OutsR o q) (i j : Nat) {y : K} {y' : L} (hy : R y y') : Option.Rel OutsR (o.join i j y) (q.join i j y') := by
  unfold Outs.join
  have h0 : OutsR ((o.modB i (fun x => { x with currEdge := none })).modB j (fun x => { x with currEdge := none }))
      ((q.modB i (fun x => { x with currEdge := none })).modB j (fun x => { x with currEdge := none })) := by
    refine modB_r (modB_r h i ?_) j ?_ <;> intro a b hab <;> exact { hab with currEdge := rfl }
  simp only
  generalize (o.modB i (fun x => { x with currEdge := none })).modB j (fun x => { x with currEdge := none }) = o0 at h0
  generalize (q.modB i (fun x => { x with currEdge := none })).modB j (fun x => { x with currEdge := none }) = q0 at h0
  have hi := f2_get h0.bounds i
  have hj := f2_get h0.bounds j
  generalize o0.bounds[i]? = x at hi
  generalize q0.bounds[i]? = x' at hi
  generalize o0.bounds[j]? = z at hj
  generalize q0.bounds[j]? = z' at hj
  cases hi with
  | none => exact .none
  | some hi =>
    rename_i a a'
    cases hj with
    | none => exact .none
    | some hj =>
      rename_i b b'
      simp only
      have h1 : OutsR (if a.stopX ==. b.stopX then o0 else if a.isUp then o0.push a (Seg.line ⟨b.stopX, y⟩) else o0.push a (Seg.line ⟨a.stopX, y⟩))
          (if a'.stopX ==. b'.stopX then q0 else if a'.isUp then q0.push a' (Seg.line ⟨b'.stopX, y'⟩) else q0.push a' (Seg.line ⟨a'.stopX, y'⟩)) := by
        rw [Sim.eq hi.stopX hj.stopX, hi.isUp]
        split
        · exact h0
        · split
          · exact push_r h0 hi (.line ⟨hj.stopX, hy⟩)
          · exact push_r h0 hi (.line ⟨hi.stopX, hy⟩)
      generalize (if a.stopX ==. b.stopX then o0 else if a.isUp then o0.push a (Seg.line ⟨b.stopX, y⟩) else o0.push a (Seg.line ⟨a.stopX, y⟩)) = o1 at h1
      generalize (if a'.stopX ==. b'.stopX then q0 else if a'.isUp then q0.push a' (Seg.line ⟨b'.stopX, y'⟩) else q0.push a' (Seg.line ⟨a'.stopX, y'⟩)) = q1 at h1
      rw [hi.owner, hj.owner, hi.isUp, hj.isUp]
      split
      · refine .some (deleteObl_r (deleteObl_r (modP_r h1 _ ?_) i) j)
        intro a b hab; exact { hab with complete := rfl }
      · refine orel_map (P := OutsR) ?_ (fun a b hab => deleteObl_r (deleteObl_r hab i) j)
        split
        · exact merge_r h1 _ _ _
        · exact merge_r h1 _ _ _

end Sim
end River
