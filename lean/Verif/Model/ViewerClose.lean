import Mathlib.Data.Nat.Notation

/-!
# Starting and closing the viewer (`/repo/test/main.cpp`, `/repo/test/web_server.cpp`)

The main thread has the window and a `web_server_controller` on its stack; the server runs in a thread of its own and calls the window through the global
pointer `view`.
-/

namespace River
namespace Viewer

/-- How far `main` has got (`test/main.cpp:7-17`): the event loop runs, `app.exec()` has returned, `~web_server_controller` has run, `~main_window` (which
deletes the view) has run, the process has ended. -/
inductive Phase where
  | looping | left | noController | noWindow | ended
deriving DecidableEq, Repr

/-- The worker object (`web_server.h:15-25`): the thread runs, the thread has finished, the object has been deleted. -/
inductive Worker where
  | running | finished | deleted
deriving DecidableEq, Repr

/-- `worker`: what the pointer of the controller (`web_server.h:33`) points to, `none` if it is null; `quit`: `drogon::app().quit()` has been called;
`inside`: requests the server has accepted and has not handed to the view yet (`http_server.cpp:15-27`). -/
structure Close where
  phase : Phase
  worker : Option Worker
  quit : Bool
  inside : ℕ
deriving DecidableEq, Repr

/-- What can happen (`web_server.cpp:55-95`, `test/main.cpp:7-17`). -/
inductive Act where
  | start | accept | hand | interrupt | finish | delete | close | dropController | dropWindow | exit
deriving DecidableEq, Repr

/-- The beginning of `main`: the window is there, the controller is constructed (`test/main.cpp:9-13`). -/
def Close.init : Close := ⟨.looping, none, false, 0⟩

/-- Which acts are possible, and what they do. `none`: not possible now. `some none`: undefined behaviour.
* `start`: `web_server_controller::start` (`web_server.cpp:63-72`), called by `main` and possible again while the event loop runs;
* `accept`: a thread of the server begins with a request; `hand`: it calls `view->paser_file_thread` (`http_server.cpp:27`);
* `interrupt`: a signal to the process makes drogon quit; `finish`: `drogon::app().run()` returns after `quit` (`web_server.cpp:52`), when its threads
  have done with their requests (simplification in favour of the code);
* `delete`: the event loop carries out `deleteLater` (`web_server.cpp:70`);
* `close`: the window is closed, `app.exec()` returns; `dropController`: `~web_server_controller` (`web_server.cpp:55-61`) with `quit_loop`
  (`web_server.cpp:90-95`), which does not wait for the thread; `dropWindow`: `~main_window`; `exit`: `main` returns. -/
def Close.act (s : Close) : Act → Option (Option Close)
  | .start => if s.phase = .looping then
      match s.worker with
      | some _ => some (some s)
      | none => some (some { s with worker := some .running })
    else none
  | .accept => if s.phase ≠ .ended ∧ s.worker = some .running then some (some { s with inside := s.inside + 1 }) else none
  | .hand => if s.phase ≠ .ended ∧ 0 < s.inside then
      if s.phase = .noWindow then some none else some (some { s with inside := s.inside - 1 })
    else none
  | .interrupt => if s.phase ≠ .ended ∧ s.worker = some .running then some (some { s with quit := true }) else none
  | .finish => if s.phase ≠ .ended ∧ s.quit = true ∧ s.worker = some .running ∧ s.inside = 0 then
      some (some { s with worker := some .finished }) else none
  | .delete => if s.phase = .looping ∧ s.worker = some .finished then some (some { s with worker := some .deleted }) else none
  | .close => if s.phase = .looping then some (some { s with phase := .left }) else none
  | .dropController => if s.phase = .left then
      match s.worker with
      | none => some (some { s with phase := .noController })
      | some .deleted => some none
      | some .running => some (some { s with phase := .noController, quit := true })
      | some .finished => some (some { s with phase := .noController })
    else none
  | .dropWindow => if s.phase = .noController then some (some { s with phase := .noWindow }) else none
  | .exit => if s.phase = .noWindow then some (some { s with phase := .ended }) else none

/-- A sequence of acts: `none` if one of them is not possible, `some none` if it ends in undefined behaviour (`web_server.cpp:55-95`, `test/main.cpp:7-17`). -/
def Close.acts (s : Close) : List Act → Option (Option Close)
  | [] => some (some s)
  | a :: as => match s.act a with
    | none => none
    | some none => if as = [] then some none else none
    | some (some t) => t.acts as

end Viewer
end River
