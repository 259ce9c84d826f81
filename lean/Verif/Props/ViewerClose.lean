import Verif.Model.ViewerClose
import Mathlib.Tactic.Common

/-!
# Closing the viewer (C86): false in general; when it is safe

The property "the viewer can be closed at any time" is false of the code: closing it while a program is drawing lets a thread of the server call a view
that has been destroyed, and closing it after the server has been stopped by a signal uses a worker that has been deleted.
-/

namespace River
namespace Viewer

/-- **C86** does not hold: the window is closed while a request is being handled. `quit_loop` does not wait for the server; the view is destroyed; the
thread calls it. -/
theorem close_while_drawing : Close.init.acts [.start, .accept, .close, .dropController, .dropWindow, .hand] = some none := by decide

/-- **C86** does not hold: a signal stops the server, its thread ends, the event loop deletes the worker, the controller still has a pointer to it. -/
theorem close_after_signal : Close.init.acts [.start, .interrupt, .finish, .delete, .close, .dropController] = some none := by decide

/-- The server cannot be started again once its thread has ended. -/
theorem no_restart : ∃ s, Close.init.acts [.start, .interrupt, .finish, .start] = some (some s) ∧ s.worker = some .finished := by
  exact ⟨_, rfl, rfl⟩

/-- Starting twice does not make a second server. -/
theorem start_twice (s t : Close) (h : s.act .start = some (some t)) : t.worker.isSome ∧ t.act .start = some (some t) := by
  unfold Close.act at h ⊢
  dsimp only at h ⊢
  split_ifs at h with hp
  cases hw : s.worker with
  | none => rw [hw] at h; cases h; simp [hp]
  | some w => rw [hw] at h; cases h; simp [hp, hw]

theorem acts_append (s : Close) (as bs : List Act) (r : Option Close) : s.acts (as ++ bs) = some r → bs ≠ [] →
    ∃ t, s.acts as = some (some t) ∧ t.acts bs = some r := by
  intro h hb
  induction as generalizing s with
  | nil => exact ⟨s, rfl, h⟩
  | cons a as ih =>
    rw [List.cons_append, Close.acts] at h
    rw [Close.acts]
    cases ha : s.act a with
    | none => rw [ha] at h; cases h
    | some x =>
      rw [ha] at h
      cases x with
      | none =>
        dsimp only at h
        rw [if_neg (by simp [hb])] at h
        cases h
      | some t => exact ih t h

theorem inside_count (s t : Close) (as : List Act) (h : s.acts as = some (some t)) :
    t.inside + as.count .hand = s.inside + as.count .accept := by
  induction as generalizing s with
  | nil => cases h; rfl
  | cons a as ih =>
    rw [Close.acts] at h
    cases ha : s.act a with
    | none => rw [ha] at h; cases h
    | some x =>
      rw [ha] at h
      cases x with
      | none => dsimp only at h; split_ifs at h; cases h
      | some u =>
        have := ih u h
        have hu : u.inside + (if a = .hand then 1 else 0) = s.inside + (if a = .accept then 1 else 0) := by
          cases a <;> unfold Close.act at ha <;> dsimp only at ha <;> split_ifs at ha <;> (try cases ha) <;> (try rfl)
          · cases hw : s.worker with
            | none => rw [hw] at ha; cases ha; rfl
            | some w => rw [hw] at ha; cases ha; rfl
          · simp only [if_true, reduceCtorEq, if_false]; omega
          · cases hw : s.worker with
            | none => rw [hw] at ha; cases ha; rfl
            | some w => rw [hw] at ha; cases w <;> cases ha <;> rfl
        simp only [List.count_cons, beq_iff_eq] at this ⊢
        omega

/-- What is true of the worker and the phase when no signal arrives. -/
theorem no_delete (s t : Close) (as : List Act) (hi : Act.interrupt ∉ as) (h : s.acts as = some (some t))
    (hs : (s.quit = true → s.phase ≠ .looping ∧ s.phase ≠ .left) ∧ (s.worker = some .finished → s.quit = true) ∧ s.worker ≠ some .deleted) :
    (t.quit = true → t.phase ≠ .looping ∧ t.phase ≠ .left) ∧ (t.worker = some .finished → t.quit = true) ∧ t.worker ≠ some .deleted := by
  induction as generalizing s with
  | nil => cases h; exact hs
  | cons a as ih =>
    rw [Close.acts] at h
    cases ha : s.act a with
    | none => rw [ha] at h; cases h
    | some x =>
      rw [ha] at h
      cases x with
      | none => dsimp only at h; split_ifs at h; cases h
      | some u =>
        refine ih u (fun hm => hi (List.mem_cons_of_mem _ hm)) h ?_
        obtain ⟨s1, s2, s3⟩ := hs
        cases a with
        | interrupt => exact absurd List.mem_cons_self hi
        | start =>
          unfold Close.act at ha; dsimp only at ha; split_ifs at ha
          cases hw : s.worker with
          | none => rw [hw] at ha; cases ha; exact ⟨s1, by simp, by simp⟩
          | some w => rw [hw] at ha; cases ha; exact ⟨s1, s2, s3⟩
        | accept => unfold Close.act at ha; dsimp only at ha; split_ifs at ha; cases ha; exact ⟨s1, s2, s3⟩
        | hand => unfold Close.act at ha; dsimp only at ha; split_ifs at ha <;> cases ha; exact ⟨s1, s2, s3⟩
        | finish =>
          unfold Close.act at ha; dsimp only at ha; split_ifs at ha with hc; cases ha; exact ⟨s1, fun _ => hc.2.1, by simp⟩
        | delete =>
          unfold Close.act at ha; dsimp only at ha; split_ifs at ha with hc; cases ha
          exact absurd hc.1 (s1 (s2 hc.2)).1
        | close =>
          unfold Close.act at ha; dsimp only at ha; split_ifs at ha with hc; cases ha
          exact ⟨fun hq => absurd hc (s1 hq).1, s2, s3⟩
        | dropController =>
          unfold Close.act at ha; dsimp only at ha; split_ifs at ha
          cases hw : s.worker with
          | none => rw [hw] at ha; cases ha; exact ⟨by simp, by simp, by simp⟩
          | some w =>
            rw [hw] at ha s2 s3
            cases w <;> cases ha
            · exact ⟨by simp, by simp, by simp⟩
            · exact ⟨by simp, fun _ => s2 rfl, by simp⟩
        | dropWindow => unfold Close.act at ha; dsimp only at ha; split_ifs at ha; cases ha; exact ⟨by simp, s2, s3⟩
        | exit => unfold Close.act at ha; dsimp only at ha; split_ifs at ha; cases ha; exact ⟨by simp, s2, s3⟩

/-- Before the window has been destroyed the phase is not `noWindow`. -/
theorem window_there (s t : Close) (as : List Act) (h : s.acts as = some (some t)) (hd : Act.dropWindow ∉ as) (hs : s.phase ≠ .noWindow) :
    t.phase ≠ .noWindow := by
  induction as generalizing s with
  | nil => cases h; exact hs
  | cons a as ih =>
    rw [Close.acts] at h
    cases ha : s.act a with
    | none => rw [ha] at h; cases h
    | some x =>
      rw [ha] at h
      cases x with
      | none => dsimp only at h; split_ifs at h; cases h
      | some u =>
        refine ih u h (fun hm => hd (List.mem_cons_of_mem _ hm)) ?_
        cases a with
        | dropWindow => exact absurd List.mem_cons_self hd
        | start =>
          unfold Close.act at ha; dsimp only at ha; split_ifs at ha
          cases hw : s.worker with
          | none => rw [hw] at ha; cases ha; exact hs
          | some w => rw [hw] at ha; cases ha; exact hs
        | dropController =>
          unfold Close.act at ha; dsimp only at ha; split_ifs at ha
          cases hw : s.worker with
          | none => rw [hw] at ha; cases ha; simp
          | some w => rw [hw] at ha; cases w <;> cases ha <;> simp
        | _ =>
          unfold Close.act at ha; dsimp only at ha; split_ifs at ha <;> cases ha <;> first | exact hs | simp

/-- **C86**, the part that is true: closing is safe when no signal arrives, and when every request accepted has been handed to the view before the window
is destroyed and none is accepted afterwards. Missing: the cases of `close_while_drawing` and `close_after_signal`, in which it is false. -/
theorem close_safe_partial (as : List Act) (hi : Act.interrupt ∉ as)
    (hd : ∀ a b, as = a ++ .dropWindow :: b → a.count .hand = a.count .accept ∧ Act.accept ∉ b) : Close.init.acts as ≠ some none := by
  intro h
  obtain ⟨as, a, rfl⟩ : ∃ bs b, as = bs ++ [b] := by
    rcases List.eq_nil_or_concat as with rfl | ⟨bs, b, rfl⟩
    · cases h
    · exact ⟨bs, b, List.concat_eq_append⟩
  obtain ⟨t, h1, h2⟩ := acts_append _ _ _ _ h (by simp)
  have hi' : Act.interrupt ∉ as := fun hm => hi (List.mem_append_left _ hm)
  have hdel := no_delete Close.init t as hi' h1 (by simp [Close.init])
  have hc := inside_count _ _ _ h1
  rw [Close.acts] at h2
  cases ha : t.act a with
  | none => rw [ha] at h2; cases h2
  | some x =>
    rw [ha] at h2
    cases x with
    | some u => cases h2
    | none =>
      cases a with
      | hand =>
        unfold Close.act at ha; dsimp only at ha
        split_ifs at ha with hp hn
        swap
        · cases ha
        by_cases hm : Act.dropWindow ∈ as
        · obtain ⟨a', b', rfl⟩ := List.append_of_mem hm
          obtain ⟨e1, e2⟩ := hd a' (b' ++ [.hand]) (by simp)
          have hb : b'.count .accept = 0 := List.count_eq_zero.2 fun hx => e2 (List.mem_append_left _ hx)
          simp only [List.count_append, List.count_cons, Close.init] at hc
          have : 0 < t.inside := hp.2
          simp at hc
          omega
        · exact window_there _ _ _ h1 hm (by simp [Close.init]) hn
      | dropController =>
        unfold Close.act at ha; dsimp only at ha
        split_ifs at ha
        cases hw : t.worker with
        | none => rw [hw] at ha; cases ha
        | some w =>
          rw [hw] at ha
          cases w with
          | deleted => exact hdel.2.2 hw
          | running => cases ha
          | finished => cases ha
      | start =>
        unfold Close.act at ha; dsimp only at ha; split_ifs at ha
        cases hw : t.worker with
        | none => rw [hw] at ha; cases ha
        | some w => rw [hw] at ha; cases ha
      | _ => unfold Close.act at ha; dsimp only at ha; split_ifs at ha; all_goals cases ha

/-- One act: the window is gone, the worker deleted, only by the acts that do it. -/
theorem act_gone (s u : Close) (a : Act) (h : s.act a = some (some u)) :
    (u.phase = .noWindow ∨ u.phase = .ended ↔ (s.phase = .noWindow ∨ s.phase = .ended) ∨ a = .dropWindow) ∧
    (u.worker = some .deleted ↔ s.worker = some .deleted ∨ a = .delete) := by
  obtain ⟨p, w, q, i⟩ := s
  cases a <;> unfold Close.act at h <;> dsimp only at h <;> split_ifs at h with hc
  all_goals first
    | (cases h; simp_all; done)
    | (cases p <;> rcases w with _ | (_ | _ | _) <;> simp_all <;> (subst h; simp); done)

theorem acts_gone (s t : Close) (as : List Act) (h : s.acts as = some (some t)) :
    (t.phase = .noWindow ∨ t.phase = .ended ↔ (s.phase = .noWindow ∨ s.phase = .ended) ∨ Act.dropWindow ∈ as) ∧
    (t.worker = some .deleted ↔ s.worker = some .deleted ∨ Act.delete ∈ as) := by
  induction as generalizing s with
  | nil => cases h; simp
  | cons a as ih =>
    rw [Close.acts] at h
    cases ha : s.act a with
    | none => rw [ha] at h; cases h
    | some x =>
      rw [ha] at h
      cases x with
      | none => dsimp only at h; split_ifs at h; cases h
      | some u =>
        obtain ⟨i1, i2⟩ := ih u h
        obtain ⟨a1, a2⟩ := act_gone s u a ha
        rw [i1, i2, a1, a2]
        simp only [List.mem_cons, or_assoc, eq_comm, and_self]

/-- One act: when it is undefined. -/
theorem act_ub (t : Close) (a : Act) (r : Option Close) (h : t.act a = some r) :
    r = none ↔ (a = .hand ∧ (t.phase = .noWindow ∨ t.phase = .ended)) ∨ (a = .dropController ∧ t.worker = some .deleted) := by
  obtain ⟨p, w, q, i⟩ := t
  cases a <;> unfold Close.act at h <;> dsimp only at h <;> split_ifs at h with hc
  all_goals first
    | (cases h; simp_all; done)
    | (cases p <;> rcases w with _ | (_ | _ | _) <;> simp_all <;> (subst h; simp); done)

/-- **C86**, exactly: of all runs, those end in undefined behaviour whose last act is a request that reaches the view after the window has been destroyed, or the
destruction of the controller after the event loop has deleted the worker; no others. (`≠ none`: the run is possible.) -/
theorem close_safe_iff_partial (as : List Act) (a : Act) (h : Close.init.acts (as ++ [a]) ≠ none) :
    Close.init.acts (as ++ [a]) = some none ↔ (a = .hand ∧ Act.dropWindow ∈ as) ∨ (a = .dropController ∧ Act.delete ∈ as) := by
  cases hr : Close.init.acts (as ++ [a]) with
  | none => exact absurd hr h
  | some r =>
    obtain ⟨t, h1, h2⟩ := acts_append _ _ _ _ hr (by simp)
    obtain ⟨g1, g2⟩ := acts_gone _ _ _ h1
    simp only [Close.init, reduceCtorEq, or_self, false_or] at g1 g2
    rw [← g1, ← g2, Option.some.injEq]
    refine act_ub t a r ?_
    rw [Close.acts] at h2
    cases ha : t.act a with
    | none => rw [ha] at h2; cases h2
    | some x =>
      rw [ha] at h2
      cases x with
      | none => exact h2
      | some u => exact h2

/-- A run in which the server is stopped by a signal, and the window is closed before the worker has been deleted: it is possible and safe. -/
theorem close_signal_case : Close.init.acts [.start, .accept, .interrupt, .hand, .finish, .close, .dropController, .dropWindow, .exit] ≠ none ∧
    Close.init.acts [.start, .accept, .interrupt, .hand, .finish, .close, .dropController, .dropWindow, .exit] ≠ some none := by decide

/-- A concrete case: three shapes are drawn, the window is closed, the server ends. -/
theorem close_case : (∃ s, Close.init.acts [.start, .accept, .accept, .hand, .hand, .close, .accept, .hand, .dropController, .finish, .dropWindow, .exit] =
    some (some s) ∧ s.phase = .ended) := ⟨_, rfl, rfl⟩

end Viewer
end River
