import Verif.Spec.Output
import Verif.Model.Process
import Verif.Props.Path
import Verif.RatTrans

/-! # C39, C47: what `process` hands to the callbacks -/

namespace River
variable {K σ : Type}

/-- The command for a segment. -/
def Seg.cmd : Seg K → Cmd K
  | .line t => .lineto t
  | .cubic c1 c2 t => .cubicto c1 c2 t

/-- The polygons that are written. -/
def Poly.written (p : Poly K) : Bool := p.complete && !(p.upPath.isEmpty && p.downPath.isEmpty)

/-- The commands for a polygon. -/
def Poly.cmds (p : Poly K) : List (Cmd K) := .moveto p.origin :: (p.upPath ++ p.downPath.reverse).map Seg.cmd

/-- A callback, undefined behaviour if it is null. -/
def strict (f : Funcs K σ) (u : σ) (ev : Event K) : Option σ := if f.has ev.cmd then some (Path.deliver f u ev) else none

theorem writePath_eq (f : Funcs K σ) (l : List (Seg K)) (last : Vec2 K) (u : σ) :
    writePath f l last u = ((eventsFrom last (l.map Seg.cmd)).foldlM (strict f) u).map
      (fun u' => ((l.getLast?.map Seg.target).getD last, u')) := by
  induction l generalizing last u with
  | nil => rfl
  | cons s l ih =>
    have hl : ∀ s : Seg K, ((s :: l).getLast?.map Seg.target).getD last = (l.getLast?.map Seg.target).getD s.target := by
      intro s
      rw [List.getLast?_cons]
      cases l.getLast? <;> rfl
    cases s with
    | line t =>
      simp only [writePath, List.map_cons, Seg.cmd, eventsFrom, List.foldlM_cons, hl, Cmd.target]
      cases hf : f.line_to with
      | none => simp [strict, Funcs.has, hf]
      | some g => simp [strict, Funcs.has, hf, Path.deliver, ih, Seg.target]
    | cubic c1 c2 t =>
      simp only [writePath, List.map_cons, Seg.cmd, eventsFrom, List.foldlM_cons, hl, Cmd.target]
      cases hf : f.cubic_to with
      | none => simp [strict, Funcs.has, hf]
      | some g => simp [strict, Funcs.has, hf, Path.deliver, ih, Seg.target]

theorem eventsFrom_append (p : Vec2 K) (a b : List (Cmd K)) :
    eventsFrom p (a ++ b) = eventsFrom p a ++ eventsFrom ((a.getLast?.map Cmd.target).getD p) b := by
  induction a generalizing p with
  | nil => rfl
  | cons c a ih =>
    simp only [List.cons_append, eventsFrom, ih]
    rw [List.getLast?_cons]
    cases a.getLast? <;> rfl

section
variable [FNum K]

/-- The point `(0, 0)`. -/
def zeroPt : Vec2 K := ⟨FNum.lit 0, FNum.lit 0⟩

theorem writePoly_eq (f : Funcs K σ) (p : Poly K) (u : σ) :
    writePoly f p u = if p.written then (eventsFrom zeroPt p.cmds).foldlM (strict f) u else some u := by
  rw [writePoly, Poly.written]
  by_cases h : (p.complete && !(p.upPath.isEmpty && p.downPath.isEmpty)) = true
  · rw [if_pos h, if_pos h, Poly.cmds]
    simp only [eventsFrom, List.foldlM_cons, Cmd.target, List.map_append, eventsFrom_append, List.foldlM_append]
    cases hf : f.move_to with
    | none => simp [strict, Funcs.has, hf]
    | some g =>
      have hs : strict f u ⟨zeroPt, Cmd.moveto p.origin⟩ = some (g zeroPt p.origin u) := by
        simp [strict, Funcs.has, hf, Path.deliver]
      have ht : ((p.upPath.map Seg.cmd).getLast?.map Cmd.target).getD p.origin = (p.upPath.getLast?.map Seg.target).getD p.origin := by
        rw [List.getLast?_map, Option.map_map]
        cases p.upPath.getLast? with
        | none => rfl
        | some s => cases s <;> rfl
      simp only [hs, Option.bind_some, writePath_eq, ht]
      simp only [Option.bind_eq_bind, Option.bind_some]
      change Option.bind (Option.map _ ((eventsFrom p.origin (p.upPath.map Seg.cmd)).foldlM (strict f) (g zeroPt p.origin u))) _ = _
      cases (eventsFrom p.origin (p.upPath.map Seg.cmd)).foldlM (strict f) (g zeroPt p.origin u) with
      | none => rfl
      | some u1 => simp
  · rw [if_neg h, if_neg h]

/-- The callbacks made by `build_output`, in order. -/
def contours (polys : List (Poly K)) : List (List (Event K)) := (polys.filter Poly.written).map (fun p => eventsFrom zeroPt p.cmds)

theorem buildOutput_eq (f : Funcs K σ) (polys : List (Poly K)) (u : σ) :
    buildOutput f polys u = (contours polys).flatten.foldlM (strict f) u := by
  rw [buildOutput]
  induction polys generalizing u with
  | nil => rfl
  | cons p ps ih =>
    rw [List.foldlM_cons, writePoly_eq, contours, List.filter_cons]
    by_cases h : p.written = true
    · rw [if_pos h, if_pos h, List.map_cons, List.flatten_cons, List.foldlM_append]
      have : ∀ u', List.foldlM (fun u p => writePoly f p u) u' ps = List.foldlM (strict f) u' (contours ps).flatten := fun u' => ih u'
      simp only [this]
      rfl
    · rw [if_neg h, if_neg h]
      exact ih u

omit [FNum K] in
theorem foldlM_strict_iff (f : Funcs K σ) (es : List (Event K)) (u : σ) :
    es.foldlM (strict f) u = if (∀ e ∈ es, f.has e.cmd = true) then some (es.foldl (Path.deliver f) u) else none := by
  induction es generalizing u with
  | nil => simp
  | cons e es ih =>
    rw [List.foldlM_cons, strict]
    by_cases h : f.has e.cmd = true
    · rw [if_pos h]
      simp only [Option.bind_eq_bind, Option.bind_some, ih, List.mem_cons, forall_eq_or_imp, h, true_and, List.foldl_cons]
    · rw [if_neg h]
      simp [h]

theorem poly_contour (p : Poly K) (h : p.written = true) : IsContour zeroPt (eventsFrom zeroPt p.cmds) := by
  refine ⟨p.origin, (p.upPath ++ p.downPath.reverse).map Seg.cmd, rfl, ?_, ?_⟩
  · intro hh
    simp only [List.map_eq_nil_iff, List.append_eq_nil_iff, List.reverse_eq_nil_iff] at hh
    simp [Poly.written, hh.1, hh.2] at h
  · intro c hc
    obtain ⟨s, _, rfl⟩ := List.mem_map.1 hc
    cases s <;> rfl

omit [FNum K] in
theorem foldl_recorder (es u : List (Event K)) : es.foldl (Path.deliver Path.recorder) u = u ++ es := by
  induction es generalizing u with
  | nil => simp
  | cons e es ih =>
    rw [List.foldl_cons, ih]
    obtain ⟨a, c⟩ := e
    cases c <;> simp [Path.deliver, Path.recorder]

/-- The callbacks recorded by `build_output`: the contours of the polygons that are finished and not empty, in the order
of their creation. -/
theorem buildOutput_recorder (polys : List (Poly K)) (u : List (Event K)) :
    buildOutput Path.recorder polys u = some (u ++ (contours polys).flatten) := by
  rw [buildOutput_eq, foldlM_strict_iff, if_pos, foldl_recorder]
  intro e _
  cases e.cmd <;> rfl

/-- Polygons that are not finished, and those merged into others (finished, paths cleared), are not written. -/
theorem contours_length (polys : List (Poly K)) :
    (contours polys).length = (polys.filter (fun p => p.complete && (decide (p.upPath ≠ []) || decide (p.downPath ≠ [])))).length := by
  rw [contours, List.length_map]
  congr 1
  apply List.filter_congr
  intro p _
  simp only [Poly.written]
  cases p.upPath <;> cases p.downPath <;> simp

omit [FNum K] in
theorem modify_concat {α : Type} (l : List α) (a : α) (f : α → α) : (l ++ [a]).modify l.length f = l ++ [f a] := by
  induction l with
  | nil => rfl
  | cons b l ih => simp [ih]

/-- The path written for a contour. -/
theorem pathsWriter_contour (ps : List (Path K)) (p : Poly K) :
    (eventsFrom zeroPt p.cmds).foldl (Path.deliver pathsWriter) ps = ps ++ [Path.build p.cmds] := by
  have key : ∀ (cs : List (Cmd K)) (q : Path K) (a : Vec2 K), (∀ c ∈ cs, c.draws = true) →
      (eventsFrom a cs).foldl (Path.deliver pathsWriter) (ps ++ [q]) = ps ++ [cs.foldl Path.issue q] := by
    intro cs
    induction cs with
    | nil => intro q a _; rfl
    | cons c cs ih =>
      intro q a h
      have hd := h c List.mem_cons_self
      have hm : ∀ f : Path K → Path K, (ps ++ [q]).modify ((ps ++ [q]).length - 1) f = ps ++ [f q] := by
        intro f
        rw [List.length_append, List.length_singleton, Nat.add_sub_cancel]
        exact modify_concat ps q f
      cases c with
      | moveto t => simp [Cmd.draws] at hd
      | lineto t =>
        simp only [eventsFrom, List.foldl_cons, Path.deliver, pathsWriter]
        rw [hm]
        exact ih _ _ (fun c hc => h c (List.mem_cons_of_mem _ hc))
      | cubicto c1 c2 t =>
        simp only [eventsFrom, List.foldl_cons, Path.deliver, pathsWriter]
        rw [hm]
        exact ih _ _ (fun c hc => h c (List.mem_cons_of_mem _ hc))
  simp only [Poly.cmds, eventsFrom, List.foldl_cons, Path.deliver, Path.build, Path.issue]
  refine key _ _ _ ?_
  intro c hc
  obtain ⟨s, _, rfl⟩ := List.mem_map.1 hc
  cases s <;> rfl

theorem buildOutput_paths (polys : List (Poly K)) (ps : List (Path K)) :
    buildOutput pathsWriter polys ps = some (ps ++ (polys.filter Poly.written).map (fun p => Path.build p.cmds)) := by
  rw [buildOutput_eq, foldlM_strict_iff, if_pos]
  · congr 1
    rw [contours]
    generalize polys.filter Poly.written = l
    induction l generalizing ps with
    | nil => simp
    | cons p l ih =>
      rw [List.map_cons, List.flatten_cons, List.foldl_append, pathsWriter_contour, ih]
      simp
  · intro e _
    cases e.cmd <;> rfl

end

/-! ## statements about `process` -/

variable [FTrans K]

/-- How the outcome of `process` depends on the callbacks: all polygons are determined without them. -/
theorem process_cases (env : Env K) (msort : List (LocMin K) → List (LocMin K)) (fuel : Nat) (c : Clipper K) (ct : ClipType)
    (fr : FillRule) :
    (∀ (σ : Type) (f : Funcs K σ) (u : σ), c.process env msort fuel ct fr f u = none) ∨
    (∀ (σ : Type) (f : Funcs K σ) (u : σ), c.process env msort fuel ct fr f u = some none) ∨
    ∃ c' polys, ∀ (σ : Type) (f : Funcs K σ) (u : σ),
      c.process env msort fuel ct fr f u = (buildOutput f polys u).map (fun u' => some (c', u')) := by
  simp only [Clipper.process]
  cases hp : processIntersect env c.rings with
  | none => left; intros; rfl
  | some rings =>
    simp only [Option.bind_some]
    cases hq : popScan (FNum.neg FNum.maxNum) (resetSt msort rings c.out c.changes c.scan).scan with
    | none => exact Or.inr (Or.inr ⟨_, [], fun σ f u => rfl⟩)
    | some ys =>
      simp only
      cases hs : sweep rings ct fr fuel ys.1 { resetSt msort rings c.out c.changes c.scan with scan := ys.2 } with
      | none => left; intros; rfl
      | some r =>
        cases r with
        | none => right; left; intros; rfl
        | some st' => exact Or.inr (Or.inr ⟨_, st'.out.polys, fun σ f u => rfl⟩)

/-- **C39**: the sequence of callbacks made by `process` is a concatenation of contours: each one `move_to` followed by at
least one `line_to`/`cubic_to`, the `from` argument of every callback being the point where the one before it ended. -/
theorem process_wellformed (env : Env K) (msort : List (LocMin K) → List (LocMin K)) (fuel : Nat) (c c' : Clipper K)
    (ct : ClipType) (fr : FillRule) (es : List (Event K))
    (h : c.process env msort fuel ct fr Path.recorder [] = some (some (c', es))) :
    ∃ cs : List (List (Event K)), es = cs.flatten ∧ ∀ x ∈ cs, IsContour zeroPt x := by
  rcases process_cases env msort fuel c ct fr with h1 | h1 | ⟨c1, polys, h1⟩
  · rw [h1] at h; cases h
  · rw [h1] at h; cases h
  · rw [h1, buildOutput_recorder] at h
    simp only [List.nil_append, Option.map_some, Option.some.injEq, Prod.mk.injEq] at h
    refine ⟨contours polys, h.2.symm, ?_⟩
    intro x hx
    obtain ⟨p, hp, rfl⟩ := List.mem_map.1 hx
    exact poly_contour p (List.mem_filter.1 hp).2

/-- **C47**: `process` with callbacks makes exactly the callbacks that traversing the paths written by `process` into
`paths` makes, provided no callback needed is null. -/
theorem process_callbacks (env : Env K) (msort : List (LocMin K) → List (LocMin K)) (fuel : Nat) (c c' : Clipper K)
    (ct : ClipType) (fr : FillRule) (f : Funcs K σ) (u u' : σ)
    (h : c.process env msort fuel ct fr f u = some (some (c', u'))) :
    ∃ new : List (Path K), (∀ output, c.processPaths env msort fuel ct fr output = some (some (c', output ++ new))) ∧
      new.foldlM (fun u p => Path.traverse f p u) u = some u' := by
  rcases process_cases env msort fuel c ct fr with h1 | h1 | ⟨c1, polys, h1⟩
  · rw [h1] at h; cases h
  · rw [h1] at h; cases h
  · rw [h1] at h
    obtain ⟨u1, hb, h2⟩ := Option.map_eq_some_iff.1 h
    simp only [Option.some.injEq, Prod.mk.injEq] at h2
    obtain ⟨rfl, rfl⟩ := h2
    refine ⟨(polys.filter Poly.written).map (fun p => Path.build p.cmds), ?_, ?_⟩
    · intro output
      rw [Clipper.processPaths, h1, buildOutput_paths]; rfl
    · rw [buildOutput_eq, foldlM_strict_iff] at hb
      split at hb
      · simp only [Option.some.injEq] at hb
        rw [← hb, contours]
        clear hb h
        generalize polys.filter Poly.written = l
        induction l generalizing u with
        | nil => rfl
        | cons p l ih =>
          rw [List.map_cons, List.foldlM_cons, Path.traverse, Path.traverse_build]
          simp only [Option.map_some, List.map_cons, List.flatten_cons, List.foldl_append]
          exact ih _
      · cases hb

/-- **C47**: `process` calls a null callback (undefined behaviour) exactly when the contours need it. -/
theorem process_null_callback (env : Env K) (msort : List (LocMin K) → List (LocMin K)) (fuel : Nat) (c c' : Clipper K)
    (ct : ClipType) (fr : FillRule) (f : Funcs K σ) (u : σ) (es : List (Event K))
    (h : c.process env msort fuel ct fr Path.recorder [] = some (some (c', es))) :
    c.process env msort fuel ct fr f u = none ↔ ∃ e ∈ es, f.has e.cmd = false := by
  rcases process_cases env msort fuel c ct fr with h1 | h1 | ⟨c1, polys, h1⟩
  · rw [h1] at h; cases h
  · rw [h1] at h; cases h
  · rw [h1, buildOutput_recorder] at h
    simp only [List.nil_append, Option.map_some, Option.some.injEq, Prod.mk.injEq] at h
    rw [h1, buildOutput_eq, foldlM_strict_iff, h.2]
    by_cases hall : ∀ e ∈ es, f.has e.cmd = true
    · rw [if_pos hall]
      simp only [Option.map_some, reduceCtorEq, false_iff, not_exists, not_and]
      intro e he; rw [hall e he]; simp
    · rw [if_neg hall]
      simp only [Option.map_none, true_iff]
      push Not at hall
      obtain ⟨e, he, h⟩ := hall
      exact ⟨e, he, by simpa using h⟩

end River
