import Verif.Spec.Viewer
import Verif.Spec.General

/-!
# The debug viewer (C83, C84): shapes arrive as they were sent, in the order of each program, whatever the threads do
-/

namespace River
namespace Viewer

section
variable {K : Type}

theorem getPoint_back (f : Formats K) (h : f.Faithful) (p : Vec2 K) (r : List UInt8) : getPoint f (putPoint f p ++ r) = (p, r) := by
  have hn := h.1
  simp [getPoint, putPoint, List.append_assoc, hn _ _]

theorem getSeg_back (f : Formats K) (h : f.Faithful) (l : Seg K) (r : List UInt8) : getSeg f (putSeg f l ++ r) = (l, r) := by
  simp [getSeg, putSeg, List.append_assoc, getPoint_back f h]

theorem getBox_back (f : Formats K) (h : f.Faithful) (b : Box K) (r : List UInt8) : getBox f (putBox f b ++ r) = (b, r) := by
  have hn := h.1
  simp [getBox, putBox, List.append_assoc, hn _ _]

variable [FNum K]

/-- A request reaches the handler exactly if it is sent to the address that the sender of shapes writes, and what follows is the type. -/
theorem route_iff (url type : List Char) : route url = some type ↔ url = address ++ type := by
  have hd : listener ++ handlerPath = address := by decide +kernel
  unfold route
  rw [hd]
  constructor
  · intro h
    split_ifs at h with hp
    obtain ⟨t, rfl⟩ := List.isPrefixOf_iff_prefix.1 hp
    simpa using h
  · rintro rfl
    simp

/-- **C83**: the request made for a shape is taken by the handler, answered with `success`, and makes the window draw exactly that shape. -/
theorem shape_arrives (f : Formats K) (h : f.Faithful) (s : Shape K) : ∃ type, route (s.post f).url = some type ∧
    getFile (some [(s.post f).file]) type = (some ((s.post f).file, type), true) ∧ paserFile f (s.post f).file type = some s.look := by
  have hp := h.2.1
  have hb := h.2.2
  have hp' : ∀ a, f.pen.get (f.pen.put a) = (a, []) := fun a => by have := hp a []; rwa [List.append_nil] at this
  have hb' : ∀ a, f.brush.get (f.brush.put a) = (a, []) := fun a => by have := hb a []; rwa [List.append_nil] at this
  cases s with
  | line l pen =>
    refine ⟨"line".toList, (route_iff _ _).2 rfl, rfl, ?_⟩
    simp [Shape.post, showLine, paserFile, getSeg_back f h, hp', drawLine, Pen.setCosmetic, Shape.look]
  | rect r pen brush =>
    refine ⟨"rect".toList, (route_iff _ _).2 rfl, rfl, ?_⟩
    simp [Shape.post, showRect, paserFile, List.append_assoc, getBox_back f h, hp _ _, hb', drawRect, Pen.setCosmetic, Shape.look]
  | cubic p0 p1 p2 p3 pen =>
    refine ⟨"cubic".toList, (route_iff _ _).2 rfl, rfl, ?_⟩
    simp [Shape.post, showCubic, paserFile, List.append_assoc, getPoint_back f h, hp', drawCubic, Pen.setCosmetic, Shape.look]
  | point p pen =>
    refine ⟨"point".toList, (route_iff _ _).2 rfl, rfl, ?_⟩
    simp [Shape.post, showPoint, paserFile, getPoint_back f h, hp', drawPoint, Shape.look, Box.ofCorners, Vec2.sub, Vec2.add]

/-- A request with no file, with several or one that cannot be parsed draws nothing and is refused. -/
theorem bad_request (files : Option (List (List UInt8))) (type : List Char) (h : ∀ b, files ≠ some [b]) : getFile files type = (none, false) := by
  unfold getFile
  split
  · exact absurd rfl (h _)
  · rfl

/-- A file with an unknown type draws nothing. -/
theorem unknown_type (f : Formats K) (b : List UInt8) (type : List Char)
    (h : type ∉ ["line".toList, "rect".toList, "cubic".toList, "point".toList]) : paserFile f b type = none := by
  simp only [List.mem_cons, not_or] at h
  unfold paserFile
  rw [if_neg h.1, if_neg h.2.1, if_neg h.2.2.1, if_neg h.2.2.2.1]

end

/-! ## All schedules -/

section
variable {K : Type} [FNum K] {f : Formats K} {pen : Pen K} {zero : Seg K}

/-- What a waiting request will draw. -/
def pending (f : Formats K) (p : Post) : Option (Item K) := (route p.url).bind fun type => paserFile f p.file type

theorem pending_post (h : f.Faithful) (s : Shape K) : pending f (s.post f) = some s.look := by
  obtain ⟨t, h1, _, h3⟩ := shape_arrives f h s
  simp [pending, h1, h3]

theorem tried_snoc (i : ℕ) (ls : List (Label K)) (l : Label K) : tried i (ls ++ [l]) = tried i ls ++ tried i [l] := by
  simp [tried, List.filterMap_append]
theorem sent_snoc (i : ℕ) (ls : List (Label K)) (l : Label K) : sent i (ls ++ [l]) = sent i ls ++ sent i [l] := by
  simp [sent, List.filterMap_append]
theorem drawn_snoc (i : ℕ) (ls : List (Label K)) (l : Label K) : drawn i (ls ++ [l]) = drawn i ls ++ drawn i [l] := by
  simp [drawn, List.filterMap_append]

/-- The waiting signals of program `i`. -/
def queued (i : ℕ) (q : List (ℕ × List UInt8 × List Char)) : List (List UInt8 × List Char) :=
  q.filterMap fun e => if e.1 = i then some e.2 else none

/-- The waiting requests of program `i`. -/
def coming (i : ℕ) (a : List (ℕ × Post)) : List Post := a.filterMap fun e => if e.1 = i then some e.2 else none

/-- What holds at every moment, for program `i`. -/
structure Inv (f : Formats K) (progs : ℕ → List (Shape K)) (i : ℕ) (ls : List (Label K)) (s : VState K) : Prop where
  work : tried i ls ++ s.todo i = progs i
  flow : (sent i ls).map (fun x => some x.look) =
    drawn i ls ++ (queued i s.queue).map (fun e => paserFile f e.1 e.2) ++ (coming i s.arrived).map (pending f)
  one : (coming i s.arrived).length + s.handled.count i = if s.wait i then 1 else 0
  good : ∀ p ∈ coming i s.arrived, ∃ x : Shape K, p = x.post f

theorem coming_append (i : ℕ) (a b : List (ℕ × Post)) : coming i (a ++ b) = coming i a ++ coming i b := by simp [coming]
theorem queued_append (i : ℕ) (a b : List (ℕ × List UInt8 × List Char)) : queued i (a ++ b) = queued i a ++ queued i b := by simp [queued]

theorem Inv.step (hf : f.Faithful) {progs : ℕ → List (Shape K)} {i : ℕ} {ls : List (Label K)} {s t : VState K} {l : Label K}
    (h : Inv f progs i ls s) (hs : Step f pen zero s l (some t)) : Inv f progs i (ls ++ [l]) t := by
  generalize hr : some t = r at hs
  cases hs with
  | send j x rest hw ht =>
    cases hr
    by_cases hj : j = i
    · subst hj
      have hone := h.one
      rw [hw] at hone
      simp only [Bool.false_eq_true, if_false, Nat.add_eq_zero_iff, List.length_eq_zero_iff] at hone
      refine ⟨?_, ?_, ?_, ?_⟩
      · rw [tried_snoc, ← h.work, ht]
        simp [tried]
      · rw [sent_snoc, drawn_snoc]
        have := h.flow
        rw [hone.1] at this
        simp [sent, drawn, coming_append, hone.1] at this ⊢
        rw [this]
        simp [coming, pending_post hf]
      · simp [coming_append, hone.1, hone.2]
        simp [coming]
      · intro p hp
        simp [coming_append, hone.1] at hp
        simp [coming] at hp
        exact ⟨x, hp⟩
    · have hj' : ¬ i = j := fun e => hj e.symm
      have hc : coming i (s.arrived ++ [(j, x.post f)]) = coming i s.arrived := by simp [coming, hj]
      refine ⟨?_, ?_, ?_, ?_⟩
      · rw [tried_snoc]
        simp [tried, hj, hj']
        exact h.work
      · rw [sent_snoc, drawn_snoc, hc]
        simpa [sent, drawn, hj] using h.flow
      · rw [hc]
        simpa [hj'] using h.one
      · rw [hc]; exact h.good
  | refuse j x rest hw ht =>
    cases hr
    refine ⟨?_, ?_, h.one, h.good⟩
    · rw [tried_snoc]
      by_cases hj : j = i
      · subst hj
        rw [← h.work, ht]
        simp [tried]
      · have hj' : ¬ i = j := fun e => hj e.symm
        simpa [tried, hj, hj'] using h.work
    · rw [sent_snoc, drawn_snoc]
      simpa [sent, drawn] using h.flow
  | handle j p a b ha =>
    cases hr
    by_cases hj : j = i
    · subst hj
      have hone := h.one
      have hgood := h.good
      have hflow := h.flow
      have hc : coming j s.arrived = coming j a ++ p :: coming j b := by rw [ha]; simp [coming]
      rw [hc] at hone hgood hflow
      obtain ⟨x, hx⟩ := hgood p (by simp)
      have h0 : coming j a = [] ∧ coming j b = [] ∧ s.handled.count j = 0 ∧ s.wait j = true := by
        by_cases hw : s.wait j = true
        · rw [hw] at hone
          simp only [List.length_append, List.length_cons, if_true] at hone
          refine ⟨List.length_eq_zero_iff.1 (by omega), List.length_eq_zero_iff.1 (by omega), by omega, hw⟩
        · rw [if_neg hw] at hone
          simp only [List.length_append, List.length_cons] at hone
          omega
      obtain ⟨h1, h2, h3, h4⟩ := h0
      obtain ⟨type, t1, t2, t3⟩ := shape_arrives f hf x
      refine ⟨?_, ?_, ?_, ?_⟩
      · rw [tried_snoc]; simpa [tried] using h.work
      · rw [sent_snoc, drawn_snoc]
        rw [h1, h2, hx] at hflow
        simp only [coming_append, h1, h2, queued_append, hx, t1, Option.bind_some, t2, Option.map_some, Option.toList_some]
        simp [sent, drawn, queued, t3, pending_post hf] at hflow ⊢
        exact hflow
      · simp [coming_append, h1, h2, h3, h4]
      · simp [coming_append, h1, h2]
    · have hc : coming i (a ++ b) = coming i s.arrived := by rw [ha]; simp [coming, hj]
      refine ⟨?_, ?_, ?_, ?_⟩
      · rw [tried_snoc]; simpa [tried] using h.work
      · rw [sent_snoc, drawn_snoc, hc, queued_append]
        have : queued i ((((route p.url).bind fun type => (getFile (some [p.file]) type).1).map fun e => (j, e)).toList) = [] := by
          unfold queued
          rw [List.filterMap_eq_nil_iff]
          intro e he
          rw [Option.mem_toList, Option.map_eq_some_iff] at he
          obtain ⟨e', _, rfl⟩ := he
          simp [hj]
        rw [this]
        simpa [sent, drawn] using h.flow
      · rw [hc]
        simpa [List.count_append, List.count_singleton, hj] using h.one
      · rw [hc]; exact h.good
  | answer j a b ha =>
    cases hr
    refine ⟨?_, ?_, ?_, h.good⟩
    · rw [tried_snoc]; simpa [tried] using h.work
    · rw [sent_snoc, drawn_snoc]; simpa [sent, drawn] using h.flow
    · have hone := h.one
      rw [ha] at hone
      simp only [List.count_append, List.count_cons] at hone ⊢
      by_cases hj : j = i
      · subst hj
        simp only [beq_self_eq_true, if_true] at hone ⊢
        simp only [if_true, Bool.false_eq_true, if_false]
        split_ifs at hone <;> omega
      · have hj' : ¬ i = j := fun e => hj e.symm
        have hb : (j == i) = false := by simpa using hj
        rw [hb] at hone
        simpa [hj'] using hone
  | draw j buffer type q hq =>
    cases hr
    refine ⟨?_, ?_, h.one, h.good⟩
    · rw [tried_snoc]; simpa [tried] using h.work
    · rw [sent_snoc, drawn_snoc]
      have := h.flow
      rw [hq] at this
      by_cases hj : j = i
      · subst hj
        simpa [sent, drawn, queued] using this
      · simpa [sent, drawn, queued, hj] using this
  | clear =>
    cases hr
    refine ⟨?_, ?_, h.one, h.good⟩
    · rw [tried_snoc]; simpa [tried] using h.work
    · rw [sent_snoc, drawn_snoc]; simpa [sent, drawn] using h.flow
  | mouse o c e =>
    rw [eq_comm, Option.map_eq_some_iff] at hr
    obtain ⟨v, _, rfl⟩ := hr
    refine ⟨?_, ?_, h.one, h.good⟩
    · rw [tried_snoc]; simpa [tried] using h.work
    · rw [sent_snoc, drawn_snoc]; simpa [sent, drawn] using h.flow

theorem Run.inv (hf : f.Faithful) {progs : ℕ → List (Shape K)} {ls : List (Label K)} {s : VState K}
    (h : Run f pen zero (start progs) ls (some s)) (i : ℕ) : Inv f progs i ls s := by
  generalize hr : some s = r at h
  induction h generalizing s with
  | nil => cases hr; exact ⟨rfl, rfl, rfl, by simp [start, coming]⟩
  | snoc ls l s' r h hs ih => subst hr; exact (ih rfl).step hf hs

/-- **C84**: whatever the programs, the threads of the server and the window do, in whatever order: what the window has drawn for a program is
a beginning of what the program has sent, in the order in which it was sent, nothing twice, nothing left out, each shape looking as it should; the
program has gone through its calls in order; and when nothing is on its way, all that was sent is drawn. -/
theorem viewer_order (hf : f.Faithful) {progs : ℕ → List (Shape K)} {ls : List (Label K)} {s : VState K}
    (h : Run f pen zero (start progs) ls (some s)) (i : ℕ) :
    tried i ls ++ s.todo i = progs i ∧ drawn i ls <+: (sent i ls).map (fun x => some x.look) ∧
    (s.wait i = false → s.queue = [] → drawn i ls = (sent i ls).map fun x => some x.look) := by
  have hi := h.inv hf i
  refine ⟨hi.work, ?_, fun hw hq => ?_⟩
  · rw [hi.flow, List.append_assoc]; exact List.prefix_append _ _
  · have hone := hi.one
    rw [hw] at hone
    simp only [Bool.false_eq_true, if_false, Nat.add_eq_zero_iff, List.length_eq_zero_iff] at hone
    rw [hi.flow, hone.1, hq]
    simp [queued]

omit [FNum K] in
/-- What has been sent is what was tried, without what was refused. -/
theorem sent_sublist (i : ℕ) (ls : List (Label K)) : (sent i ls).Sublist (tried i ls) := by
  induction ls with
  | nil => exact List.Sublist.refl _
  | cons l ls ih =>
    cases l with
    | sent j x =>
      by_cases hj : j = i
      · simpa [sent, tried, hj] using ih
      · simpa [sent, tried, hj] using ih
    | refused j x =>
      by_cases hj : j = i
      · simpa [sent, tried, hj] using ih.trans (List.sublist_cons_self _ _)
      · simpa [sent, tried, hj] using ih
    | _ => simpa [sent, tried] using ih

omit [FNum K] in
theorem sent_eq_tried (i : ℕ) (ls : List (Label K)) (h : ∀ x, Label.refused i x ∉ ls) : sent i ls = tried i ls := by
  induction ls with
  | nil => rfl
  | cons l ls ih =>
    have ih := ih fun x hx => h x (List.mem_cons_of_mem _ hx)
    cases l with
    | sent j x =>
      by_cases hj : j = i
      · simpa [sent, tried, hj] using ih
      · simpa [sent, tried, hj] using ih
    | refused j x =>
      by_cases hj : j = i
      · exact absurd (by rw [hj]; exact List.mem_cons_self) (h x)
      · simpa [sent, tried, hj] using ih
    | _ => simpa [sent, tried] using ih

/-- **C84**: when a program has made all its calls, none refused, and nothing is on its way, the window has drawn its whole drawing in order. -/
theorem viewer_complete (hf : f.Faithful) {progs : ℕ → List (Shape K)} {ls : List (Label K)} {s : VState K}
    (h : Run f pen zero (start progs) ls (some s)) (i : ℕ) (hr : ∀ x, Label.refused i x ∉ ls) (ht : s.todo i = []) (hw : s.wait i = false)
    (hq : s.queue = []) : drawn i ls = (progs i).map fun x => some x.look := by
  obtain ⟨h1, _, h3⟩ := viewer_order hf h i
  rw [h3 hw hq, sent_eq_tried i ls hr, ← h1, ht, List.append_nil]

/-! ## The scene -/

omit [FNum K] in
/-- The lines of the cross-hair with their addresses. -/
def crossAt (os : List (ℕ × Obj K)) : List (ℕ × Seg K) := os.filterMap fun
  | (a, .cross l _) => some (a, l)
  | _ => none

omit [FNum K] in
/-- Either there is no cross-hair, or both pointers point to the two lines of it. -/
def Pane.Sound (v : Pane K) : Prop := (v.lineX = none ∧ v.lineY = none ∧ crossAt v.objs = []) ∨
  ∃ x y l m, x ≠ y ∧ v.lineX = some x ∧ v.lineY = some y ∧ crossAt v.objs = [(x, l), (y, m)]

omit [FNum K] in
theorem crosses_eq (v : Pane K) : v.crosses = (crossAt v.objs).map Prod.snd := by
  unfold Pane.crosses crossAt
  rw [List.map_filterMap]
  congr 1
  funext o
  rcases o with ⟨a, _ | ⟨l, p⟩⟩ <;> rfl

omit [FNum K] in
theorem setLine_spec (v : Pane K) (a : ℕ) (l m : Seg K) (h : (a, m) ∈ crossAt v.objs) : ∃ w, v.setLine a l = some w ∧ w.lineX = v.lineX ∧
    w.lineY = v.lineY ∧ w.shown = v.shown ∧ crossAt w.objs = (crossAt v.objs).map (fun c => if c.1 = a then (c.1, l) else c) := by
  have hany : v.objs.any (fun o => o.1 == a) = true := by
    rw [List.any_eq_true]
    unfold crossAt at h
    rw [List.mem_filterMap] at h
    obtain ⟨⟨b, o⟩, ho, hb⟩ := h
    refine ⟨(b, o), ho, ?_⟩
    cases o with
    | item => cases hb
    | cross l' p => cases hb; simp
  refine ⟨_, if_pos hany, rfl, rfl, ?_, ?_⟩
  · simp only [Pane.shown]
    rw [List.filterMap_map]
    congr 1
    funext o
    rcases o with ⟨b, _ | ⟨l', p⟩⟩ <;> by_cases hb : b = a <;> simp [hb]
  · simp only [crossAt]
    rw [List.filterMap_map, List.map_filterMap]
    congr 1
    funext o
    rcases o with ⟨b, _ | ⟨l', p⟩⟩ <;> by_cases hb : b = a <;> simp [hb]

omit [FNum K] in
theorem mouseMove_spec (v : Pane K) (hv : v.Sound) (o c e : Vec2 K) : ∃ w, v.mouseMove pen zero o c e = some w ∧ w.Sound ∧ w.shown = v.shown ∧
    w.crosses = [⟨⟨o.x, c.y⟩, ⟨e.x, c.y⟩⟩, ⟨⟨c.x, o.y⟩, ⟨c.x, e.y⟩⟩] := by
  rcases hv with ⟨hx, hy, hc⟩ | ⟨x, y, l, m, hxy, hx, hy, hc⟩
  · obtain ⟨u, hu⟩ : ∃ u : Pane K, u = ⟨v.objs ++ [(v.fresh, .cross zero (pen.setCosmetic true)), (v.fresh + 1, .cross zero (pen.setCosmetic true))],
      some v.fresh, some (v.fresh + 1), v.fresh + 1 + 1⟩ := ⟨_, rfl⟩
    have hcu : crossAt u.objs = [(v.fresh, zero), (v.fresh + 1, zero)] := by
      have h0 : crossAt (v.objs ++ [(v.fresh, .cross zero (pen.setCosmetic true)), (v.fresh + 1, .cross zero (pen.setCosmetic true))]) =
          crossAt v.objs ++ [(v.fresh, zero), (v.fresh + 1, zero)] := by simp [crossAt]
      rw [hu, h0, hc]; rfl
    have hsu : u.shown = v.shown := by rw [hu]; simp [Pane.shown]
    obtain ⟨w₁, h1, h2, h3, h4, h5⟩ := setLine_spec u v.fresh ⟨⟨o.x, c.y⟩, ⟨e.x, c.y⟩⟩ zero (by rw [hcu]; simp)
    have h5' : crossAt w₁.objs = [(v.fresh, ⟨⟨o.x, c.y⟩, ⟨e.x, c.y⟩⟩), (v.fresh + 1, zero)] := by rw [h5, hcu]; simp
    obtain ⟨w₂, k1, k2, k3, k4, k5⟩ := setLine_spec w₁ (v.fresh + 1) ⟨⟨c.x, o.y⟩, ⟨c.x, e.y⟩⟩ zero (by rw [h5']; simp)
    have k5' : crossAt w₂.objs = [(v.fresh, ⟨⟨o.x, c.y⟩, ⟨e.x, c.y⟩⟩), (v.fresh + 1, ⟨⟨c.x, o.y⟩, ⟨c.x, e.y⟩⟩)] := by rw [k5, h5']; simp
    refine ⟨w₂, ?_, Or.inr ⟨_, _, _, _, ?_, ?_, ?_, k5'⟩, ?_, ?_⟩
    · unfold Pane.mouseMove
      simp only [hx, hy, Pane.add, List.append_assoc, List.cons_append, List.nil_append]
      rw [← hu]
      simp only [Option.bind_eq_bind, Option.bind_some, h1]
      rw [h3, hu]
      simp only [Option.bind_some]
      exact k1
    · omega
    · rw [k2, h2, hu]
    · rw [k3, h3, hu]
    · rw [k4, h4, hsu]
    · rw [crosses_eq, k5']; rfl
  · obtain ⟨w₁, h1, h2, h3, h4, h5⟩ := setLine_spec v x ⟨⟨o.x, c.y⟩, ⟨e.x, c.y⟩⟩ l (by rw [hc]; simp)
    have h5' : crossAt w₁.objs = [(x, ⟨⟨o.x, c.y⟩, ⟨e.x, c.y⟩⟩), (y, m)] := by rw [h5, hc]; simp [hxy.symm]
    obtain ⟨w₂, k1, k2, k3, k4, k5⟩ := setLine_spec w₁ y ⟨⟨c.x, o.y⟩, ⟨c.x, e.y⟩⟩ m (by rw [h5']; simp)
    have k5' : crossAt w₂.objs = [(x, ⟨⟨o.x, c.y⟩, ⟨e.x, c.y⟩⟩), (y, ⟨⟨c.x, o.y⟩, ⟨c.x, e.y⟩⟩)] := by rw [k5, h5']; simp [hxy]
    refine ⟨w₂, ?_, Or.inr ⟨_, _, _, _, hxy, ?_, ?_, k5'⟩, ?_, ?_⟩
    · unfold Pane.mouseMove
      simp only [hx, hy, Option.bind_eq_bind, Option.bind_some, h1]
      rw [h3, hy]
      simp only [Option.bind_some]
      exact k1
    · rw [k2, h2, hx]
    · rw [k3, h3, hy]
    · rw [k4, h4]
    · rw [crosses_eq, k5']; rfl

omit [FNum K] in
theorem onScreen_snoc (ls : List (Label K)) (l : Label K) : onScreen (ls ++ [l]) = match l with
    | .drew _ (some x) => onScreen ls ++ [x]
    | .cleared => []
    | _ => onScreen ls := by
  unfold onScreen
  rw [List.foldl_append]
  rcases l with _ | _ | _ | _ | ⟨_, _ | _⟩ | _ | _ <;> rfl

theorem Run.pane {progs : ℕ → List (Shape K)} {ls : List (Label K)} {r : Option (VState K)} (h : Run f pen zero (start progs) ls r) :
    ∃ s, r = some s ∧ s.pane.Sound ∧ s.pane.shown = onScreen ls := by
  induction h with
  | nil => exact ⟨_, rfl, Or.inl ⟨rfl, rfl, rfl⟩, rfl⟩
  | snoc ls l s r h hs ih =>
    obtain ⟨s', hs', h1, h2⟩ := ih
    cases hs'
    cases hs with
    | send j x rest hw ht => exact ⟨_, rfl, h1, by rw [onScreen_snoc]; exact h2⟩
    | refuse j x rest hw ht => exact ⟨_, rfl, h1, by rw [onScreen_snoc]; exact h2⟩
    | handle j p a b ha => exact ⟨_, rfl, h1, by rw [onScreen_snoc]; exact h2⟩
    | answer j a b ha => exact ⟨_, rfl, h1, by rw [onScreen_snoc]; exact h2⟩
    | draw j buffer type q hq =>
      refine ⟨_, rfl, ?_, ?_⟩
      · cases paserFile f buffer type with
        | none => exact h1
        | some it =>
          have : crossAt (s.pane.add (.item it)).objs = crossAt s.pane.objs := by simp [crossAt, Pane.add]
          unfold Pane.Sound
          rw [show (Option.elim (some it) s.pane fun it => s.pane.add (.item it)) = s.pane.add (.item it) from rfl, this]
          exact h1
      · rw [onScreen_snoc]
        cases paserFile f buffer type with
        | none => exact h2
        | some it =>
          show (s.pane.add (.item it)).shown = onScreen ls ++ [it]
          rw [← h2]
          simp [Pane.shown, Pane.add]
    | clear => exact ⟨_, rfl, Or.inl ⟨rfl, rfl, rfl⟩, by rw [onScreen_snoc]; rfl⟩
    | mouse o c e =>
      obtain ⟨w, w1, w2, w3, _⟩ := mouseMove_spec (pen := pen) (zero := zero) s.pane h1 o c e
      exact ⟨{ s with pane := w }, by rw [w1]; rfl, w2, by rw [onScreen_snoc, ← h2]; exact w3⟩

/-- **C85**: whatever is drawn, cleared and wherever the mouse goes, in any order, the cross-hair is never reached through a pointer to an object the scene
has deleted; and the scene holds exactly what was drawn since it was last cleared. -/
theorem viewer_safe {progs : ℕ → List (Shape K)} {ls : List (Label K)} : ¬ Run f pen zero (start progs) ls none := by
  intro h
  obtain ⟨s, h, _⟩ := h.pane
  cases h

/-- **C84, C85**: the scene shows exactly what was drawn since it was last cleared, in order. -/
theorem viewer_screen {progs : ℕ → List (Shape K)} {ls : List (Label K)} {s : VState K} (h : Run f pen zero (start progs) ls (some s)) :
    s.pane.shown = onScreen ls := by
  obtain ⟨s', hs, _, h2⟩ := h.pane
  cases hs
  exact h2

/-- **C85**: after the mouse has moved, the scene has one cross-hair, through the mouse and across the view; there is never more than one. -/
theorem viewer_cross {progs : ℕ → List (Shape K)} {ls : List (Label K)} {s : VState K} (h : Run f pen zero (start progs) ls (some s)) :
    s.pane.crosses.length ≤ 2 ∧ ∀ o c e t, Step f pen zero s (.moved o c e) t → ∃ t', t = some t' ∧
      t'.pane.crosses = [⟨⟨o.x, c.y⟩, ⟨e.x, c.y⟩⟩, ⟨⟨c.x, o.y⟩, ⟨c.x, e.y⟩⟩] ∧ t'.pane.shown = s.pane.shown := by
  obtain ⟨s', hs, h1, _⟩ := h.pane
  cases hs
  refine ⟨?_, fun o c e t ht => ?_⟩
  · rw [crosses_eq, List.length_map]
    rcases h1 with ⟨_, _, hc⟩ | ⟨x, y, l, m, _, _, _, hc⟩ <;> rw [hc] <;> simp
  · cases ht
    obtain ⟨w, w1, _, w3, w4⟩ := mouseMove_spec (pen := pen) (zero := zero) s.pane h1 o c e
    exact ⟨{ s with pane := w }, by rw [w1]; rfl, w4, w3⟩

end
end Viewer
end River
