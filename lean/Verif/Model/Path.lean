import Verif.Model.Vec2

/-!
# The exchange format `river::path` (`/repo/src/include/river.h:45-66`, `/repo/src/src/path.cpp`)

Undefined behaviour (an out-of-range `data[...]`) is the distinct outcome `none`.
-/

namespace River

/-- `struct path { std::vector<num> data; std::vector<char> element_types; }` (`river.h:45-48`).  Element tags are
the values of `enum class seg_type` (`segment.h:17-23`): moveto 0, lineto 1, arcto 2, cubicto 3; any other value is
representable as well. -/
structure Path (K : Type) where
  data : List K
  types : List Nat
deriving DecidableEq, Repr

namespace Path
variable {K : Type}

/-- `path() = default` (`river.h:50`). -/
def empty : Path K := ⟨[], []⟩

/-- `path::moveto` (`path.cpp:10-18`). -/
def moveto (p : Path K) (tp : Vec2 K) : Path K :=
  { types := p.types ++ [0], data := p.data ++ [tp.x, tp.y] }

/-- `path::lineto` (`path.cpp:20-28`). -/
def lineto (p : Path K) (tp : Vec2 K) : Path K :=
  { types := p.types ++ [1], data := p.data ++ [tp.x, tp.y] }

/-- `path::cubicto` (`path.cpp:36-44`). -/
def cubicto (p : Path K) (c1 c2 e : Vec2 K) : Path K :=
  { types := p.types ++ [3], data := p.data ++ [c1.x, c1.y, c2.x, c2.y, e.x, e.y] }

/-- `path::path(path&& l)` (`path.cpp:5-8`): swaps the fresh empty buffers with those of `l`; returns the new path
and what is left in `l`. -/
def moveConstruct (l : Path K) : Path K × Path K := (⟨l.data, l.types⟩, ⟨[], []⟩)

end Path

/-- `struct path_traverse_funcs` (`river.h:30-36`) with the `void* user` argument turned into a state that the
callbacks transform.  `none` is a null function pointer.  `arc_to` is never called by the code and left out. -/
structure Funcs (K σ : Type) where
  move_to : Option (Vec2 K → Vec2 K → σ → σ)
  line_to : Option (Vec2 K → Vec2 K → σ → σ)
  cubic_to : Option (Vec2 K → Vec2 K → Vec2 K → Vec2 K → σ → σ)

namespace Path
variable {K σ : Type}

/-- The loop of `path::traverse` (`path.cpp:64-109`): `di` is `data_i`, `last` is `last_p` (equal to `cur_p` at the
top of the loop).  The three null tests of `path.cpp:55-59` become `Option.elim` with the empty function. Returns the
user state, the final `data_i`; `none` if some `data[...]` is out of range. -/
def traverseLoop (f : Funcs K σ) (data : List K) : List Nat → Nat → Vec2 K → σ → Option (σ × Nat)
  | [], di, _, u => some (u, di)
  | e :: es, di, last, u =>
    if e = 0 then do
      let x ← data[di + 0]?
      let y ← data[di + 1]?
      let cur : Vec2 K := ⟨x, y⟩
      traverseLoop f data es (di + 2) cur (f.move_to.elim u (fun g => g last cur u))
    else if e = 1 then do
      let x ← data[di + 0]?
      let y ← data[di + 1]?
      let cur : Vec2 K := ⟨x, y⟩
      traverseLoop f data es (di + 2) cur (f.line_to.elim u (fun g => g last cur u))
    else if e = 3 then do
      let x1 ← data[di + 0]?
      let y1 ← data[di + 1]?
      let x2 ← data[di + 2]?
      let y2 ← data[di + 3]?
      let x ← data[di + 4]?
      let y ← data[di + 5]?
      let cur : Vec2 K := ⟨x, y⟩
      traverseLoop f data es (di + 6) cur (f.cubic_to.elim u (fun g => g last ⟨x1, y1⟩ ⟨x2, y2⟩ cur u))
    else
      -- `case arcto: break;` and `default: break;` (`path.cpp:85-90, 104-105`)
      traverseLoop f data es di last u

variable [FNum K]

/-- `path::traverse` (`path.cpp:53-110`), also returning the number of coordinates consumed. -/
def traverseIdx (f : Funcs K σ) (p : Path K) (u : σ) : Option (σ × Nat) :=
  traverseLoop f p.data p.types 0 ⟨FNum.lit 0, FNum.lit 0⟩ u

/-- `path::traverse` (`path.cpp:53-110`): the user state after all callbacks, `none` on an out-of-range read. -/
def traverse (f : Funcs K σ) (p : Path K) (u : σ) : Option σ := (traverseIdx f p u).map (·.1)

end Path
end River
