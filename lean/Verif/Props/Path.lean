import Verif.Model.Path
import Verif.Spec.Path

/-! # C01-C04: paths

Level: any arithmetic. -/

namespace River
namespace Path
variable {K σ : Type}

/-- Issue one API call. -/
def issue (p : Path K) : Cmd K → Path K
  | .moveto a => p.moveto a
  | .lineto a => p.lineto a
  | .cubicto c1 c2 a => p.cubicto c1 c2 a

/-- A path built by a sequence of API calls on an empty path. -/
def build (cs : List (Cmd K)) : Path K := cs.foldl issue Path.empty

/-- What the user's callbacks do with an event; a null callback ignores it. -/
def deliver (f : Funcs K σ) (u : σ) (ev : Event K) : σ :=
  match ev.cmd with
  | .moveto p => match f.move_to with | some g => g ev.source p u | none => u
  | .lineto p => match f.line_to with | some g => g ev.source p u | none => u
  | .cubicto c1 c2 p => match f.cubic_to with | some g => g ev.source c1 c2 p u | none => u

/-! ## helper lemmas -/

/-- element tag of a command -/
def tag : Cmd K → Nat
  | .moveto _ => 0
  | .lineto _ => 1
  | .cubicto .. => 3
/-- stored coordinates of a command -/
def coords : Cmd K → List K
  | .moveto p => [p.x, p.y]
  | .lineto p => [p.x, p.y]
  | .cubicto c1 c2 p => [c1.x, c1.y, c2.x, c2.y, p.x, p.y]

theorem foldl_issue (cs : List (Cmd K)) (p : Path K) :
    cs.foldl issue p = ⟨p.data ++ cs.flatMap coords, p.types ++ cs.map tag⟩ := by
  induction cs generalizing p with
  | nil => simp
  | cons c cs ih =>
    rw [List.foldl_cons, ih]
    cases c <;> simp [issue, moveto, lineto, cubicto, coords, tag]

theorem build_eq (cs : List (Cmd K)) : build cs = ⟨cs.flatMap coords, cs.map tag⟩ := by
  simp [build, foldl_issue, empty]

theorem traverseLoop_build (f : Funcs K σ) (cs : List (Cmd K)) (pre : List K) (last : Vec2 K) (u : σ) :
    traverseLoop f (pre ++ cs.flatMap coords) (cs.map tag) pre.length last u
      = some ((eventsFrom last cs).foldl (deliver f) u, pre.length + (cs.flatMap coords).length) := by
  induction cs generalizing pre last u with
  | nil => simp [traverseLoop, eventsFrom]
  | cons c cs ih =>
    have key := ih (pre ++ coords c) c.target (deliver f u ⟨last, c⟩)
    have g : ∀ (k : Nat), (pre ++ (coords c ++ cs.flatMap coords))[pre.length + k]?
        = (coords c ++ cs.flatMap coords)[k]? := by
      intro k; rw [List.getElem?_append_right (by omega)]; congr 1; omega
    cases c with
    | moveto p =>
      simp only [List.map_cons, List.flatMap_cons, tag, traverseLoop, if_true, g]
      simp only [coords, List.append_assoc, List.length_append, List.length_cons, List.length_nil] at key ⊢
      cases hm : f.move_to <;> simp [eventsFrom, Cmd.target, deliver, hm] at key ⊢ <;> simpa [Nat.add_assoc, Nat.add_comm, Nat.add_left_comm] using key
    | lineto p =>
      simp only [List.map_cons, List.flatMap_cons, tag, traverseLoop, g]
      simp only [coords, List.append_assoc, List.length_append, List.length_cons, List.length_nil] at key ⊢
      cases hm : f.line_to <;> simp [eventsFrom, Cmd.target, deliver, hm] at key ⊢ <;> simpa [Nat.add_assoc, Nat.add_comm, Nat.add_left_comm] using key
    | cubicto c1 c2 p =>
      simp only [List.map_cons, List.flatMap_cons, tag, traverseLoop, g]
      simp only [coords, List.append_assoc, List.length_append, List.length_cons, List.length_nil] at key ⊢
      cases hm : f.cubic_to <;> simp [eventsFrom, Cmd.target, deliver, hm] at key ⊢ <;> simpa [Nat.add_assoc, Nat.add_comm, Nat.add_left_comm] using key

/-! ## C01, C02: replay -/

variable [FNum K]

/-- The three recording callbacks: append the event to a log. -/
def recorder : Funcs K (List (Event K)) where
  move_to := some fun a b u => u ++ [⟨a, .moveto b⟩]
  line_to := some fun a b u => u ++ [⟨a, .lineto b⟩]
  cubic_to := some fun a c1 c2 b u => u ++ [⟨a, .cubicto c1 c2 b⟩]

/-- **C01/C02/C03**: for any callbacks (null or not) and any user state, traversal of an API-built path is the fold
of the expected events, reads nothing out of bounds and consumes the whole buffer. -/
theorem traverse_build (f : Funcs K σ) (cs : List (Cmd K)) (u : σ) :
    traverseIdx f (build cs) u
      = some ((eventsFrom ⟨FNum.lit 0, FNum.lit 0⟩ cs).foldl (deliver f) u, (build cs).data.length) := by
  have h := traverseLoop_build f cs [] ⟨FNum.lit 0, FNum.lit 0⟩ u
  simp only [List.nil_append, List.length_nil, Nat.zero_add] at h
  rw [traverseIdx, build_eq]; exact h

/-- **C01**: a recording traversal of an API-built path logs exactly the issued commands, in order, each with the
previous end point as `from`. -/
theorem traverse_replays (cs : List (Cmd K)) :
    traverse recorder (build cs) [] = some (eventsFrom ⟨FNum.lit 0, FNum.lit 0⟩ cs) := by
  have h : ∀ (l : List (Event K)) (a : List (Event K)), l.foldl (deliver recorder) a = a ++ l := by
    intro l; induction l with
    | nil => simp
    | cons e l ih =>
      intro a
      rw [List.foldl_cons, ih]
      rcases e with ⟨s, c⟩
      cases c <;> simp [deliver, recorder]
  simp [traverse, traverse_build, h]

/-- **C01**: the replayed commands are exactly the issued ones. -/
theorem traverse_replays_cmds (cs : List (Cmd K)) :
    (traverse recorder (build cs) []).map (List.map Event.cmd) = some cs := by
  rw [traverse_replays, Option.map_some]
  congr 1
  generalize (⟨FNum.lit 0, FNum.lit 0⟩ : Vec2 K) = o
  induction cs generalizing o with
  | nil => rfl
  | cons c cs ih => simp [eventsFrom, ih]

/-- Keep the callbacks selected by the three flags, replace the others by null. -/
def maskFuncs (m l c : Bool) (f : Funcs K σ) : Funcs K σ where
  move_to := if m then f.move_to else none
  line_to := if l then f.line_to else none
  cubic_to := if c then f.cubic_to else none

/-- Is the event of a selected kind? -/
def selected (m l c : Bool) (e : Event K) : Bool :=
  match e.cmd with
  | .moveto _ => m
  | .lineto _ => l
  | .cubicto .. => c

/-- **C02**: nulling any subset of the callbacks is safe, and the remaining ones receive exactly the same events with
the same arguments as before. -/
theorem traverse_null_callbacks (m l c : Bool) (cs : List (Cmd K)) :
    traverse (maskFuncs m l c recorder) (build cs) []
      = (traverse recorder (build cs) []).map (List.filter (selected m l c)) := by
  have h : ∀ (es a : List (Event K)), es.foldl (deliver (maskFuncs m l c recorder)) a
      = a ++ es.filter (selected m l c) := by
    intro es; induction es with
    | nil => simp
    | cons e es ih =>
      intro a
      rw [List.foldl_cons, ih]
      rcases e with ⟨s, cmd⟩
      cases cmd <;> cases m <;> cases l <;> cases c <;> simp [deliver, recorder, maskFuncs, selected, List.filter_cons]
  rw [traverse_replays]
  simp [traverse, traverse_build, h]

/-! ## C03: exact memory-safety condition -/

/-- Number of coordinates an element tag needs. -/
def stride (e : Nat) : Nat := if e = 0 then 2 else if e = 1 then 2 else if e = 3 then 6 else 0

/-- Number of coordinates a tag list needs. -/
def need (es : List Nat) : Nat := (es.map stride).sum

omit [FNum K] in
theorem traverseLoop_isSome (f : Funcs K σ) (data : List K) (es : List Nat) (di : Nat) (last : Vec2 K) (u : σ)
    (hdi : di ≤ data.length) :
    (traverseLoop f data es di last u).isSome ↔ di + need es ≤ data.length := by
  induction es generalizing di last u with
  | nil => simp [traverseLoop, need, hdi]
  | cons e es ih =>
    have hneed : need (e :: es) = stride e + need es := by simp [need]
    rw [hneed]
    unfold traverseLoop
    by_cases h0 : e = 0
    · rw [if_pos h0]
      have hs : stride e = 2 := by simp [stride, h0]
      rw [hs]
      by_cases hl : di + 1 < data.length
      · simp only [Nat.add_zero, List.getElem?_eq_getElem hl, List.getElem?_eq_getElem (show di < data.length by omega),
          Option.bind_eq_bind, Option.bind_some]
        rw [ih _ _ _ (by omega)]; omega
      · have : data[di + 1]? = none := List.getElem?_eq_none (by omega)
        simp only [this]
        constructor
        · cases data[di + 0]? <;> simp
        · intro h; omega
    · rw [if_neg h0]
      by_cases h1 : e = 1
      · rw [if_pos h1]
        have hs : stride e = 2 := by simp [stride, h1]
        rw [hs]
        by_cases hl : di + 1 < data.length
        · simp only [Nat.add_zero, List.getElem?_eq_getElem hl, List.getElem?_eq_getElem (show di < data.length by omega),
            Option.bind_eq_bind, Option.bind_some]
          rw [ih _ _ _ (by omega)]; omega
        · have : data[di + 1]? = none := List.getElem?_eq_none (by omega)
          simp only [this]
          constructor
          · cases data[di + 0]? <;> simp
          · intro h; omega
      · rw [if_neg h1]
        by_cases h3 : e = 3
        · rw [if_pos h3]
          have hs : stride e = 6 := by simp [stride, h3]
          rw [hs]
          by_cases hl : di + 5 < data.length
          · simp only [Nat.add_zero, List.getElem?_eq_getElem hl, List.getElem?_eq_getElem (show di < data.length by omega),
              List.getElem?_eq_getElem (show di + 1 < data.length by omega), List.getElem?_eq_getElem (show di + 2 < data.length by omega),
              List.getElem?_eq_getElem (show di + 3 < data.length by omega), List.getElem?_eq_getElem (show di + 4 < data.length by omega),
              Option.bind_eq_bind, Option.bind_some]
            rw [ih _ _ _ (by omega)]; omega
          · have : data[di + 5]? = none := List.getElem?_eq_none (by omega)
            simp only [this]
            constructor
            · cases data[di + 0]? <;> cases data[di + 1]? <;> cases data[di + 2]? <;> cases data[di + 3]? <;>
                cases data[di + 4]? <;> simp
            · intro h; omega
        · rw [if_neg h3]
          have hs : stride e = 0 := by simp [stride, h0, h1, h3]
          rw [hs, ih _ _ _ hdi]; omega

/-- **C03**: for arbitrary (also tampered) buffers, traversal is free of out-of-range reads exactly when there are
at least as many coordinates as the element tags call for. -/
theorem traverse_safe_iff (f : Funcs K σ) (p : Path K) (u : σ) :
    (traverse f p u).isSome ↔ need p.types ≤ p.data.length := by
  have := traverseLoop_isSome f p.data p.types 0 ⟨FNum.lit 0, FNum.lit 0⟩ u (Nat.zero_le _)
  simpa [traverse, traverseIdx] using this

/-- **C03**: a path built through the API is traversed without out-of-range reads and all stored coordinates are
consumed. -/
theorem traverse_build_safe (f : Funcs K σ) (cs : List (Cmd K)) (u : σ) :
    ∃ u', traverseIdx f (build cs) u = some (u', (build cs).data.length) :=
  ⟨_, traverse_build f cs u⟩

/-! ## C04: moving -/

/-- **C04**: the moved-to path traverses like the source did before, the source is empty afterwards and its traversal
calls nothing. -/
theorem moveConstruct_spec (f : Funcs K σ) (p : Path K) (u : σ) :
    traverse f (moveConstruct p).1 u = traverse f p u ∧ (moveConstruct p).2 = empty ∧
      traverse f (moveConstruct p).2 u = some u := by
  refine ⟨rfl, rfl, rfl⟩

/-! ## concrete cases -/

/-- A non-trivial command list: both kinds of strides occur. -/
def exampleCmds : List (Cmd Rat) :=
  [.moveto ⟨1, 2⟩, .cubicto ⟨3, 4⟩ ⟨5, 6⟩ ⟨7, 8⟩, .lineto ⟨9, 10⟩]

example : traverse recorder (build exampleCmds) [] =
    some [⟨⟨0, 0⟩, .moveto ⟨1, 2⟩⟩, ⟨⟨1, 2⟩, .cubicto ⟨3, 4⟩ ⟨5, 6⟩ ⟨7, 8⟩⟩, ⟨⟨7, 8⟩, .lineto ⟨9, 10⟩⟩] := by
  rw [traverse_replays]; simp [exampleCmds, eventsFrom, Cmd.target]

/-- A tampered path really is unsafe. -/
example : traverse recorder (⟨[1, 2, 3], [0, 1]⟩ : Path Rat) [] = none := by
  rw [← Option.not_isSome_iff_eq_none, traverse_safe_iff]; decide

end Path
end River
