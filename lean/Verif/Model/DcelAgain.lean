import Verif.Model.Walk

/-! # Calling `dcel::process` again (`/repo/src/src/decl.cpp:300-434`)

`Model/Walk.lean` treats the first call of `process`: all links are null. Here a call finds the links, `face` fields and faces that
earlier calls have left. `process_break` deletes the half edges it breaks (`decl.cpp:330`); links and faces of earlier calls may
still name them, and following such a pointer is undefined. -/

namespace River
variable {K : Type}

/-- Before the first call: null links, no faces (`dcel.h:91-93, 174`). -/
def WalkSt.fresh : WalkSt := ⟨⟨fun _ => none, fun _ => none, fun _ => 0⟩, fun _ => none, []⟩

/-- The links that can be followed when only the half edges `alive` exist. In `split_face` (`decl.cpp:442-465`) a half edge read from
`next` is accessed in the next step, so a link to a deleted half edge counts as one that cannot be followed. -/
def FaceGraph.only (alive : Nat → Bool) (g : FaceGraph) : FaceGraph :=
  { g with next := fun i => if alive i then (g.next i).filter alive else none }

/-- Whether half edge number `i` exists (`dcel.h:173`). -/
def Dcel.alive (d : Dcel K) (i : Nat) : Bool := (d.edges[i]?.join).isSome

/-- `dcel::build_face` (`decl.cpp:344-405`) after earlier calls have left `s`. The walk itself only visits half edges that exist: it
takes them from the set and from the lists of the points, and looks whether links are null without following them. -/
def Dcel.buildFaceAgain (o : DOrder K) (d : Dcel K) (s : WalkSt) : Option WalkSt :=
  (walkAll (d.around o) d.startOf (d.live.length + 1) (o.iter d.live) { s with g := { s.g with fin := d.graph.fin } }).bind (fun w =>
    (splitAll (w.g.only d.alive) d.live.length (2 * d.live.length) w.faces.reverse []).map (fun r => { w with g := r.1, faces := r.2 }))

/-- `dcel::process` (`decl.cpp:300-305`) after earlier calls have left `s`. The twins are set anew for all half edges
(`decl.cpp:338-341`). -/
def Dcel.processAgain [FNum K] (o : DOrder K) (d : Dcel K) (s : WalkSt) : Option (Dcel K × WalkSt) :=
  (d.processBreak o).bind (fun d => (d.buildTwins (o.iter d.live)).bind (fun d => (d.buildFaceAgain o s).map (fun s => (d, s))))

end River
