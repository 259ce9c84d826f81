import Verif.Model.Path

/-!
# The debug viewer: what is sent, what is drawn (`/repo/debug_util/debug_util.cpp`, `/repo/test/*.cpp`)

A program built with graphical debugging sends each shape as a file over HTTP to a viewer (a Qt window with a web server in it). Not modelled:
Qt, curl and drogon themselves. Of Qt's stream operators only their shape is used (`Wire`): writing gives bytes, reading takes bytes and gives
a value and what is left, whatever the bytes are.
-/

namespace River
namespace Viewer

/-- A pair of stream operators `<<`, `>>` of `QDataStream` for one type (used in `debug_util.cpp:97-125`, `qtview.cpp:35-58`). -/
structure Wire (α : Type) where
  put : α → List UInt8
  get : List UInt8 → α × List UInt8

/-- `QPen`: colour, width, style, whether the width is independent of the scale (`setCosmetic`). Simplification: caps, joins and dash patterns
are left out (used in `debug_util.cpp:93-121`). -/
structure Pen (K : Type) where
  color : ℕ
  width : K
  style : ℕ
  cosmetic : Bool
deriving DecidableEq, Repr

/-- `QBrush`: colour and style (`Qt::SolidPattern` is 1) (used in `debug_util.cpp:102`). -/
structure Brush where
  color : ℕ
  style : ℕ
deriving DecidableEq, Repr

/-- `QLineF` (used in `debug_util.cpp:93`). -/
structure Seg (K : Type) where
  p1 : Vec2 K
  p2 : Vec2 K
deriving DecidableEq, Repr

/-- `QRectF`: a corner and the two sides (used in `debug_util.cpp:102`). -/
structure Box (K : Type) where
  x : K
  y : K
  w : K
  h : K
deriving DecidableEq, Repr

/-- The formats of the values out of which the shapes are put together (`debug_util.cpp:97, 106, 116, 125`). -/
structure Formats (K : Type) where
  num : Wire K
  pen : Wire (Pen K)
  brush : Wire Brush

section
variable {K : Type}

/-- `QDataStream << QPointF` (Qt: `x`, then `y`) (used in `debug_util.cpp:116, 125`). -/
def putPoint (f : Formats K) (p : Vec2 K) : List UInt8 := f.num.put p.x ++ f.num.put p.y
/-- `QDataStream >> QPointF` (used in `qtview.cpp:51, 58`). -/
def getPoint (f : Formats K) (b : List UInt8) : Vec2 K × List UInt8 :=
  (⟨(f.num.get b).1, (f.num.get (f.num.get b).2).1⟩, (f.num.get (f.num.get b).2).2)
/-- `QDataStream << QLineF` (Qt: `p1`, then `p2`) (used in `debug_util.cpp:97`). -/
def putSeg (f : Formats K) (l : Seg K) : List UInt8 := putPoint f l.p1 ++ putPoint f l.p2
/-- `QDataStream >> QLineF` (used in `qtview.cpp:35`). -/
def getSeg (f : Formats K) (b : List UInt8) : Seg K × List UInt8 :=
  (⟨(getPoint f b).1, (getPoint f (getPoint f b).2).1⟩, (getPoint f (getPoint f b).2).2)
/-- `QDataStream << QRectF` (Qt: `x`, `y`, width, height) (used in `debug_util.cpp:106`). -/
def putBox (f : Formats K) (r : Box K) : List UInt8 := f.num.put r.x ++ f.num.put r.y ++ f.num.put r.w ++ f.num.put r.h
/-- `QDataStream >> QRectF` (used in `qtview.cpp:44`). -/
def getBox (f : Formats K) (b : List UInt8) : Box K × List UInt8 :=
  let x := f.num.get b
  let y := f.num.get x.2
  let w := f.num.get y.2
  let h := f.num.get w.2
  (⟨x.1, y.1, w.1, h.1⟩, h.2)

/-- What `push_data` (`debug_util.cpp:70-91`) posts: one part with a file name, to an address. The result of `curl_easy_perform` is thrown away. -/
structure Post where
  file : List UInt8
  url : List Char
deriving DecidableEq, Repr

/-- The common part of the addresses in `debug_util.cpp:99, 108, 118, 127`. -/
def address : List Char := "127.0.0.1:5569/debug_util/v1/user/".toList

/-- `show_line` (`debug_util.cpp:93-100`). -/
def showLine (f : Formats K) (l : Seg K) (pen : Pen K) : Post := ⟨putSeg f l ++ f.pen.put pen, address ++ "line".toList⟩
/-- `show_rect` (`debug_util.cpp:102-110`). -/
def showRect (f : Formats K) (r : Box K) (pen : Pen K) (brush : Brush) : Post :=
  ⟨putBox f r ++ f.pen.put pen ++ f.brush.put brush, address ++ "rect".toList⟩
/-- `show_cubic` (`debug_util.cpp:112-119`). -/
def showCubic (f : Formats K) (p0 p1 p2 p3 : Vec2 K) (pen : Pen K) : Post :=
  ⟨putPoint f p0 ++ putPoint f p1 ++ putPoint f p2 ++ putPoint f p3 ++ f.pen.put pen, address ++ "cubic".toList⟩
/-- `show_point` (`debug_util.cpp:121-128`). -/
def showPoint (f : Formats K) (p : Vec2 K) (pen : Pen K) : Post := ⟨putPoint f p ++ f.pen.put pen, address ++ "point".toList⟩

/-- Where the server listens: `addListener("127.0.0.1", 5569)` (`web_server.cpp:49`). -/
def listener : List Char := "127.0.0.1".toList ++ ':' :: (Nat.repr 5569).toList

/-- The path of the only handler: namespaces and class (`http_server.h:8-12`), then `"/{1}"` (`http_server.h:18`). Simplification: drogon
compares paths without regard to case; the path is written in small letters here. -/
def handlerPath : List Char := "/debug_util/v1/user/".toList

/-- The address a request was sent to, seen from the server: the rest of the path is the argument `type` (`http_server.h:18`, `web_server.cpp:49`). -/
def route (url : List Char) : Option (List Char) :=
  if (listener ++ handlerPath).isPrefixOf url then some (url.drop (listener ++ handlerPath).length) else none

/-- `User::get_file` (`http_server.cpp:12-32`): `files` are the files of the request, `none` if it cannot be parsed. The signal to the window,
if any, and whether the answer is `success`. -/
def getFile (files : Option (List (List UInt8))) (type : List Char) : Option (List UInt8 × List Char) × Bool :=
  match files with
  | some [buffer] => (some (buffer, type), true)
  | _ => (none, false)

/-- What the window shows of a shape (`QGraphicsScene::addLine`, `addRect`, `addPath`, `addEllipse`) (`qtview.cpp:76, 83, 94, 103`). -/
inductive Item (K : Type) where
  | line (l : Seg K) (pen : Pen K)
  | rect (r : Box K) (pen : Pen K) (brush : Brush)
  | cubic (p0 p1 p2 p3 : Vec2 K) (pen : Pen K)
  | ellipse (r : Box K) (pen : Pen K) (brush : Brush)
deriving DecidableEq, Repr

/-- `QPen::setCosmetic` (`qtview.cpp:74, 82, 90`). -/
def Pen.setCosmetic (p : Pen K) (b : Bool) : Pen K := { p with cosmetic := b }

/-- `QtView::draw_line` (`qtview.cpp:71-77`). -/
def drawLine (l : Seg K) (pen : Pen K) : Item K := .line l (pen.setCosmetic true)
/-- `QtView::draw_rect` (`qtview.cpp:79-84`). -/
def drawRect (r : Box K) (pen : Pen K) (brush : Brush) : Item K := .rect r (pen.setCosmetic true) brush
/-- `QtView::draw_cubic` (`qtview.cpp:86-94`). -/
def drawCubic (p0 p1 p2 p3 : Vec2 K) (pen : Pen K) : Item K := .cubic p0 p1 p2 p3 (pen.setCosmetic true)

variable [FNum K]

/-- `QRectF(const QPointF& topLeft, const QPointF& bottomRight)` (Qt) (used in `qtview.cpp:100`). -/
def Box.ofCorners (a b : Vec2 K) : Box K := ⟨a.x, a.y, b.x -. a.x, b.y -. a.y⟩

/-- `QtView::draw_point` (`qtview.cpp:96-103`). -/
def drawPoint (p : Vec2 K) (pen : Pen K) : Item K :=
  let offset : Vec2 K := ⟨FNum.lit (1 / 2), FNum.lit (1 / 2)⟩
  .ellipse (Box.ofCorners (p.sub offset) (p.add offset)) pen ⟨pen.color, 1⟩

/-- `QtView::paser_file` (`qtview.cpp:29-61`): nothing is drawn for an unknown `type`; the stream's state is not looked at. -/
def paserFile (f : Formats K) (buffer : List UInt8) (type : List Char) : Option (Item K) :=
  if type = "line".toList then
    let line := getSeg f buffer
    let pen := f.pen.get line.2
    some (drawLine line.1 pen.1)
  else if type = "rect".toList then
    let rect := getBox f buffer
    let pen := f.pen.get rect.2
    let brush := f.brush.get pen.2
    some (drawRect rect.1 pen.1 brush.1)
  else if type = "cubic".toList then
    let p0 := getPoint f buffer
    let p1 := getPoint f p0.2
    let p2 := getPoint f p1.2
    let p3 := getPoint f p2.2
    let pen := f.pen.get p3.2
    some (drawCubic p0.1 p1.1 p2.1 p3.1 pen.1)
  else if type = "point".toList then
    let p := getPoint f buffer
    let pen := f.pen.get p.2
    some (drawPoint p.1 pen.1)
  else none

end

/-! ## The scene and the cross-hair -/

/-- An object of the scene (`qtview.cpp:76-103, 126-137`). -/
inductive Obj (K : Type) where
  | item (i : Item K)
  | cross (l : Seg K) (pen : Pen K)
deriving DecidableEq, Repr

/-- The scene (`QGraphicsScene`, which owns its objects) and the pointers `line_x`, `line_y` (`qtview.h:40-41`). Simplification: addresses are
never used again (`fresh` counts up), so that a pointer to a deleted object never points to another one by chance. -/
structure Pane (K : Type) where
  objs : List (ℕ × Obj K)
  lineX : Option ℕ
  lineY : Option ℕ
  fresh : ℕ

section
variable {K : Type}

/-- `scene()->addLine` and the like, `scene()->addItem` (`qtview.cpp:76, 83, 94, 103, 130, 136`). -/
def Pane.add (v : Pane K) (o : Obj K) : Pane K := { v with objs := v.objs ++ [(v.fresh, o)], fresh := v.fresh + 1 }

/-- `QtView::clear` (`qtview.cpp:63-69`): `scene()->clear()` deletes all objects. -/
def Pane.clear (v : Pane K) : Pane K := { v with objs := [], lineX := none, lineY := none }

/-- `QGraphicsLineItem::setLine` through a pointer; `none` if the object does not exist any more (`qtview.cpp:139-140`). -/
def Pane.setLine (v : Pane K) (a : ℕ) (l : Seg K) : Option (Pane K) :=
  if v.objs.any (fun o => o.1 == a) then
    some { v with objs := v.objs.map (fun o => if o.1 = a then (o.1, match o.2 with | .cross _ p => .cross l p | x => x) else o) }
  else none

/-- `QtView::mouseMoveEvent` (`qtview.cpp:118-143`) with the three points mapped to the scene (`qtview.cpp:120-122`) and the default pen of Qt
as arguments. -/
def Pane.mouseMove (v : Pane K) (pen : Pen K) (zero : Seg K) (origin center corner : Vec2 K) : Option (Pane K) := do
  let v := match v.lineX with
    | none => { v.add (.cross zero (pen.setCosmetic true)) with lineX := some v.fresh }
    | some _ => v
  let v := match v.lineY with
    | none => { v.add (.cross zero (pen.setCosmetic true)) with lineY := some v.fresh }
    | some _ => v
  let x ← v.lineX
  let v ← v.setLine x ⟨⟨origin.x, center.y⟩, ⟨corner.x, center.y⟩⟩
  let y ← v.lineY
  v.setLine y ⟨⟨center.x, origin.y⟩, ⟨center.x, corner.y⟩⟩

end

/-! ## Programs, server and window at the same time -/

/-- A call of one of the four functions of `debug_util.h:11-14`. -/
inductive Shape (K : Type) where
  | line (l : Seg K) (pen : Pen K)
  | rect (r : Box K) (pen : Pen K) (brush : Brush)
  | cubic (p0 p1 p2 p3 : Vec2 K) (pen : Pen K)
  | point (p : Vec2 K) (pen : Pen K)
deriving DecidableEq, Repr

/-- The request a call makes (`debug_util.cpp:93-128`). -/
def Shape.post {K : Type} (f : Formats K) : Shape K → Post
  | .line l pen => showLine f l pen
  | .rect r pen brush => showRect f r pen brush
  | .cubic p0 p1 p2 p3 pen => showCubic f p0 p1 p2 p3 pen
  | .point p pen => showPoint f p pen

/-- Some programs draw, the server has several threads (`web_server.cpp:50`), the window has its own. `todo i`: calls program `i` has still to
make; `wait i`: it is inside `curl_easy_perform`; `arrived`: requests no thread of the server has handled yet; `handled`: requests whose answer is on
its way; `queue`: signals waiting for the window (`new_file` is emitted in a thread of the server, so the connection made in `qtview.cpp:20`
is a queued one). The number of the program that goes along with a signal is for the statement only. -/
structure VState (K : Type) where
  todo : ℕ → List (Shape K)
  wait : ℕ → Bool
  arrived : List (ℕ × Post)
  handled : List ℕ
  queue : List (ℕ × List UInt8 × List Char)
  pane : Pane K

/-- What happens in a step, as seen from outside (`http_server.cpp:12-32`, `qtview.cpp:24-70`). -/
inductive Label (K : Type) where
  | sent (i : ℕ) (s : Shape K)
  | refused (i : ℕ) (s : Shape K)
  | handled (i : ℕ)
  | answered (i : ℕ)
  | drew (i : ℕ) (x : Option (Item K))
  | cleared
  | moved (origin center corner : Vec2 K)

/-- One step of one of the threads; `none` is undefined behaviour.
* `send`: a program posts its next shape and waits (`debug_util.cpp:85`); `refuse`: the viewer does not answer, the program goes on
  (`debug_util.cpp:86-88`);
* `handle`: some thread of the server takes one of the requests that have arrived (`http_server.cpp:12-32`): in any order; `answer`: an answer
  reaches its program;
* `draw`: the window takes the first signal (`qtview.cpp:29-61`); `clear`: the button (`central_widget.cpp:44-46`); `mouse`. -/
inductive Step {K : Type} [FNum K] (f : Formats K) (pen : Pen K) (zero : Seg K) : VState K → Label K → Option (VState K) → Prop where
  | send (s : VState K) (i : ℕ) (x : Shape K) (rest : List (Shape K)) (hw : s.wait i = false) (ht : s.todo i = x :: rest) :
      Step f pen zero s (.sent i x) (some { s with
        todo := fun j => if j = i then rest else s.todo j
        wait := fun j => if j = i then true else s.wait j
        arrived := s.arrived ++ [(i, x.post f)] })
  | refuse (s : VState K) (i : ℕ) (x : Shape K) (rest : List (Shape K)) (hw : s.wait i = false) (ht : s.todo i = x :: rest) :
      Step f pen zero s (.refused i x) (some { s with todo := fun j => if j = i then rest else s.todo j })
  | handle (s : VState K) (i : ℕ) (p : Post) (a b : List (ℕ × Post)) (ha : s.arrived = a ++ (i, p) :: b) :
      Step f pen zero s (.handled i) (some { s with
        arrived := a ++ b
        handled := s.handled ++ [i]
        queue := s.queue ++ (((route p.url).bind fun type => (getFile (some [p.file]) type).1).map fun e => (i, e)).toList })
  | answer (s : VState K) (i : ℕ) (a b : List ℕ) (ha : s.handled = a ++ i :: b) :
      Step f pen zero s (.answered i) (some { s with handled := a ++ b, wait := fun j => if j = i then false else s.wait j })
  | draw (s : VState K) (i : ℕ) (buffer : List UInt8) (type : List Char) (q : List (ℕ × List UInt8 × List Char))
      (hq : s.queue = (i, buffer, type) :: q) :
      Step f pen zero s (.drew i (paserFile f buffer type)) (some { s with
        queue := q
        pane := (paserFile f buffer type).elim s.pane fun it => s.pane.add (.item it) })
  | clear (s : VState K) : Step f pen zero s .cleared (some { s with pane := s.pane.clear })
  | mouse (s : VState K) (o c e : Vec2 K) :
      Step f pen zero s (.moved o c e) ((s.pane.mouseMove pen zero o c e).map fun v => { s with pane := v })

/-- The beginning: nothing sent, an empty scene (`qtview.cpp:21`). -/
def start {K : Type} (progs : ℕ → List (Shape K)) : VState K := ⟨progs, fun _ => false, [], [], [], ⟨[], none, none, 0⟩⟩

/-- A sequence of steps, of all threads in any order (threads of `web_server.cpp:46-52` and of the window). -/
inductive Run {K : Type} [FNum K] (f : Formats K) (pen : Pen K) (zero : Seg K) (s₀ : VState K) : List (Label K) → Option (VState K) → Prop where
  | nil : Run f pen zero s₀ [] (some s₀)
  | snoc (ls : List (Label K)) (l : Label K) (s : VState K) (r : Option (VState K)) (h : Run f pen zero s₀ ls (some s))
      (hs : Step f pen zero s l r) : Run f pen zero s₀ (ls ++ [l]) r

end Viewer
end River
