import Verif.Spec.MakePath
import Verif.Model.DecLex
import Verif.Props.Path

/-! # C05-C07: `make_path`

Level: any arithmetic; the numeric primitive `qi::double_` is any `NumLex`. -/

namespace River
namespace MakePath
variable {K : Type} (L : NumLex K)

/-! ## helper lemmas: the parser functions decide the grammar -/

theorem skipSp_ws (w s : List Char) (hw : IsWs w) (hs : ∀ c t, s = c :: t → isSp c = false) :
    skipSp (w ++ s) = s := by
  induction w with
  | nil =>
    cases s with
    | nil => rfl
    | cons c t => simp [skipSp, hs c t rfl]
  | cons c w ih =>
    have hc : isSp c = true := hw c (by simp)
    simp only [List.cons_append, skipSp, hc, if_true]
    exact ih (fun d hd => hw d (by simp [hd]))

theorem skipSp_split (s : List Char) :
    ∃ w, IsWs w ∧ s = w ++ skipSp s ∧ ∀ c t, skipSp s = c :: t → isSp c = false := by
  induction s with
  | nil => exact ⟨[], by simp [IsWs], rfl, by simp [skipSp]⟩
  | cons c cs ih =>
    obtain ⟨w, hw, hs, ht⟩ := ih
    by_cases hc : isSp c = true
    · refine ⟨c :: w, ?_, ?_, ?_⟩
      · intro d hd
        rcases List.mem_cons.mp hd with rfl | hd
        · exact hc
        · exact hw d hd
      · simp only [skipSp, hc, if_true, List.cons_append, List.cons.injEq, true_and]; exact hs
      · simpa [skipSp, hc] using ht
    · refine ⟨[], by simp [IsWs], ?_, ?_⟩
      · simp [skipSp, hc]
      · intro d t h
        simp [skipSp, hc] at h
        rw [← h.1]; simpa using hc

theorem pNum_iff (s : List Char) (k : K) (r : List Char) : pNum L s = some (k, r) ↔ NumAt L s k r := by
  constructor
  · intro h
    obtain ⟨w, hw, hs, ht⟩ := skipSp_split s
    have := NumAt.mk (L := L) w (skipSp s) k r hw ht h
    rwa [← hs] at this
  · rintro ⟨w, s, _, _, hw, hs, h⟩
    rw [pNum, skipSp_ws w s hw hs, h]

theorem pPoint_iff (s : List Char) (p : Vec2 K) (r : List Char) : pPoint L s = some (p, r) ↔ PointAt L s p r := by
  constructor
  · intro h
    unfold pPoint at h
    simp only [Option.bind_eq_bind, Option.bind_eq_some_iff, Prod.exists] at h
    obtain ⟨x, s1, h1, y, s2, h2, h3⟩ := h
    simp at h3; obtain ⟨rfl, rfl⟩ := h3
    exact PointAt.mk _ _ _ _ _ ((pNum_iff L _ _ _).mp h1) ((pNum_iff L _ _ _).mp h2)
  · intro h
    cases h with
    | mk s1 _ x y h1 h2 => simp [pPoint, (pNum_iff L _ _ _).mpr h1, (pNum_iff L _ _ _).mpr h2]

theorem pChar_iff (c : Char) (hc : isSp c = false) (s r : List Char) :
    pChar c s = some r ↔ ∃ w, IsWs w ∧ s = w ++ c :: r := by
  constructor
  · intro h
    obtain ⟨w, hw, hs, ht⟩ := skipSp_split s
    refine ⟨w, hw, ?_⟩
    unfold pChar at h
    split at h
    · cases h
    · rename_i d r' heq
      split at h
      · rename_i hd; injection h with h; subst h; subst hd; rw [← heq]; exact hs
      · cases h
  · rintro ⟨w, hw, rfl⟩
    unfold pChar
    rw [skipSp_ws w (c :: r) hw (by intro d t h; injection h with h1; rw [← h1]; exact hc)]
    simp

theorem pChar_none (c d : Char) (hc : isSp c = false) (hne : c ≠ d) (w s : List Char) (hw : IsWs w) :
    pChar d (w ++ c :: s) = none := by
  unfold pChar
  rw [skipSp_ws w (c :: s) hw (by intro e t h; injection h with h1; rw [← h1]; exact hc)]
  simp [hne]

theorem pMove_iff (s : List Char) (x : TCmd K × List Char) : pMove L s = some x ↔
    ∃ w t p r, IsWs w ∧ s = w ++ 'm' :: t ∧ PointAt L t p r ∧ x = (.m p, r) := by
  unfold pMove
  simp only [Option.bind_eq_bind, Option.bind_eq_some_iff, Prod.exists]
  constructor
  · rintro ⟨s0, h0, p, s1, h1, h2⟩
    obtain ⟨w, hw, hs⟩ := (pChar_iff 'm' (by decide) _ _).mp h0
    exact ⟨w, s0, p, s1, hw, hs, (pPoint_iff L _ _ _).mp h1, by simpa using h2.symm⟩
  · rintro ⟨w, t, p, r, hw, hs, h, rfl⟩
    exact ⟨t, (pChar_iff 'm' (by decide) _ _).mpr ⟨w, hw, hs⟩, p, r, (pPoint_iff L _ _ _).mpr h, rfl⟩

theorem pLine_iff (s : List Char) (x : TCmd K × List Char) : pLine L s = some x ↔
    ∃ w t p r, IsWs w ∧ s = w ++ 'l' :: t ∧ PointAt L t p r ∧ x = (.l p, r) := by
  unfold pLine
  simp only [Option.bind_eq_bind, Option.bind_eq_some_iff, Prod.exists]
  constructor
  · rintro ⟨s0, h0, p, s1, h1, h2⟩
    obtain ⟨w, hw, hs⟩ := (pChar_iff 'l' (by decide) _ _).mp h0
    exact ⟨w, s0, p, s1, hw, hs, (pPoint_iff L _ _ _).mp h1, by simpa using h2.symm⟩
  · rintro ⟨w, t, p, r, hw, hs, h, rfl⟩
    exact ⟨t, (pChar_iff 'l' (by decide) _ _).mpr ⟨w, hw, hs⟩, p, r, (pPoint_iff L _ _ _).mpr h, rfl⟩

theorem pArc_iff (s : List Char) (x : TCmd K × List Char) : pArc L s = some x ↔
    ∃ w t p t1 q r, IsWs w ∧ s = w ++ 'a' :: t ∧ PointAt L t p t1 ∧ PointAt L t1 q r ∧ x = (.a p q, r) := by
  unfold pArc
  simp only [Option.bind_eq_bind, Option.bind_eq_some_iff, Prod.exists]
  constructor
  · rintro ⟨s0, h0, p, s1, h1, q, s2, h2, h3⟩
    obtain ⟨w, hw, hs⟩ := (pChar_iff 'a' (by decide) _ _).mp h0
    exact ⟨w, s0, p, s1, q, s2, hw, hs, (pPoint_iff L _ _ _).mp h1, (pPoint_iff L _ _ _).mp h2, by simpa using h3.symm⟩
  · rintro ⟨w, t, p, t1, q, r, hw, hs, h1, h2, rfl⟩
    exact ⟨t, (pChar_iff 'a' (by decide) _ _).mpr ⟨w, hw, hs⟩, p, t1, (pPoint_iff L _ _ _).mpr h1, q, r,
      (pPoint_iff L _ _ _).mpr h2, rfl⟩

theorem pCubic_iff (s : List Char) (x : TCmd K × List Char) : pCubic L s = some x ↔
    ∃ w t p t1 q t2 u r, IsWs w ∧ s = w ++ 'c' :: t ∧ PointAt L t p t1 ∧ PointAt L t1 q t2 ∧ PointAt L t2 u r ∧
      x = (.c p q u, r) := by
  unfold pCubic
  simp only [Option.bind_eq_bind, Option.bind_eq_some_iff, Prod.exists]
  constructor
  · rintro ⟨s0, h0, p, s1, h1, q, s2, h2, u, s3, h3, h4⟩
    obtain ⟨w, hw, hs⟩ := (pChar_iff 'c' (by decide) _ _).mp h0
    exact ⟨w, s0, p, s1, q, s2, u, s3, hw, hs, (pPoint_iff L _ _ _).mp h1, (pPoint_iff L _ _ _).mp h2,
      (pPoint_iff L _ _ _).mp h3, by simpa using h4.symm⟩
  · rintro ⟨w, t, p, t1, q, t2, u, r, hw, hs, h1, h2, h3, rfl⟩
    exact ⟨t, (pChar_iff 'c' (by decide) _ _).mpr ⟨w, hw, hs⟩, p, t1, (pPoint_iff L _ _ _).mpr h1, q, t2,
      (pPoint_iff L _ _ _).mpr h2, u, r, (pPoint_iff L _ _ _).mpr h3, rfl⟩

/-- The alternative parser decides the grammar relation. -/
theorem pCmd_iff (s : List Char) (c : TCmd K) (r : List Char) : pCmd L s = some (c, r) ↔ CmdAt L s c r := by
  constructor
  · intro h
    rcases pCmd_cases L h with h | h | h | h
    · obtain ⟨w, t, p, r', hw, rfl, hp, he⟩ := (pMove_iff L _ _).mp h
      injection he with h1 h2; subst h1; subst h2; exact .m w t _ p hw hp
    · obtain ⟨w, t, p, r', hw, rfl, hp, he⟩ := (pLine_iff L _ _).mp h
      injection he with h1 h2; subst h1; subst h2; exact .l w t _ p hw hp
    · obtain ⟨w, t, p, t1, q, r', hw, rfl, hp, hq, he⟩ := (pArc_iff L _ _).mp h
      injection he with h1 h2; subst h1; subst h2; exact .a w t t1 _ p q hw hp hq
    · obtain ⟨w, t, p, t1, q, t2, u, r', hw, rfl, hp, hq, hu, he⟩ := (pCubic_iff L _ _).mp h
      injection he with h1 h2; subst h1; subst h2; exact .c w t t1 t2 _ p q u hw hp hq hu
  · intro h
    cases h with
    | m w t _ p hw h =>
      have h1 := (pMove_iff L (w ++ 'm' :: t) (.m p, r)).mpr ⟨w, t, p, r, hw, rfl, h, rfl⟩
      simp [pCmd, h1]
    | l w t _ p hw h =>
      have h0 : pMove L (w ++ 'l' :: t) = none := by
        unfold pMove; rw [pChar_none 'l' 'm' (by decide) (by decide) w t hw]; rfl
      have h1 := (pLine_iff L (w ++ 'l' :: t) (.l p, r)).mpr ⟨w, t, p, r, hw, rfl, h, rfl⟩
      simp [pCmd, h0, h1]
    | a w t t1 _ p q hw hp hq =>
      have h0 : pMove L (w ++ 'a' :: t) = none := by
        unfold pMove; rw [pChar_none 'a' 'm' (by decide) (by decide) w t hw]; rfl
      have h1 : pLine L (w ++ 'a' :: t) = none := by
        unfold pLine; rw [pChar_none 'a' 'l' (by decide) (by decide) w t hw]; rfl
      have h2 := (pArc_iff L (w ++ 'a' :: t) (.a p q, r)).mpr ⟨w, t, p, t1, q, r, hw, rfl, hp, hq, rfl⟩
      simp [pCmd, h0, h1, h2]
    | c w t t1 t2 _ p q u hw hp hq hu =>
      have h0 : pMove L (w ++ 'c' :: t) = none := by
        unfold pMove; rw [pChar_none 'c' 'm' (by decide) (by decide) w t hw]; rfl
      have h1 : pLine L (w ++ 'c' :: t) = none := by
        unfold pLine; rw [pChar_none 'c' 'l' (by decide) (by decide) w t hw]; rfl
      have h2 : pArc L (w ++ 'c' :: t) = none := by
        unfold pArc; rw [pChar_none 'c' 'a' (by decide) (by decide) w t hw]; rfl
      have h3 := (pCubic_iff L (w ++ 'c' :: t) (.c p q u, r)).mpr
        ⟨w, t, p, t1, q, t2, u, r, hw, rfl, hp, hq, hu, rfl⟩
      simp [pCmd, h0, h1, h2, h3]

theorem cmdAt_unique {s : List Char} {c c' : TCmd K} {r r' : List Char} (h : CmdAt L s c r) (h' : CmdAt L s c' r') :
    c = c' ∧ r = r' := by
  have a := (pCmd_iff L _ _ _).mpr h
  have b := (pCmd_iff L _ _ _).mpr h'
  rw [a] at b; simpa using b

/-! ## helper lemmas: the actions -/

/-- run the actions of a command list -/
def acts (res : List (Path K)) : List (TCmd K) → Option (List (Path K))
  | [] => some res
  | c :: cs => (act res c).bind (acts · cs)

theorem loop_eq (s : List Char) (res : List (Path K)) : ∃ cs rest, CmdsAt L s cs rest ∧
    (∀ c r, ¬ CmdAt L rest c r) ∧ loop L s res = acts res cs := by
  fun_induction loop L s res with
  | case1 s res h =>
    refine ⟨[], s, .nil s, ?_, rfl⟩
    intro c r hc
    rw [(pCmd_iff L _ _ _).mpr hc] at h; cases h
  | case2 s res c r h hact =>
    -- undefined behaviour: let the parser run on to name the remaining commands
    have : ∀ n (t : List Char), t.length ≤ n → ∃ cs rest, CmdsAt L t cs rest ∧ (∀ c r, ¬ CmdAt L rest c r) := by
      intro n
      induction n with
      | zero =>
        intro t ht
        refine ⟨[], t, .nil t, ?_⟩
        intro c r hc
        have := pCmd_length L ((pCmd_iff L _ _ _).mpr hc)
        omega
      | succ n ih =>
        intro t ht
        cases hp : pCmd L t with
        | none =>
          refine ⟨[], t, .nil t, ?_⟩
          intro c r hc
          rw [(pCmd_iff L _ _ _).mpr hc] at hp; cases hp
        | some x =>
          obtain ⟨c, r⟩ := x
          have := pCmd_length L hp
          obtain ⟨cs, rest, h1, h2⟩ := ih r (by omega)
          exact ⟨c :: cs, rest, .cons t r rest c cs ((pCmd_iff L _ _ _).mp hp) h1, h2⟩
    obtain ⟨cs, rest, h1, h2⟩ := this _ r le_rfl
    exact ⟨c :: cs, rest, .cons s r rest c cs ((pCmd_iff L _ _ _).mp h) h1, h2, by simp [acts, hact]⟩
  | case3 s res c r h res' hact ih =>
    obtain ⟨cs, rest, h1, h2, h3⟩ := ih
    exact ⟨c :: cs, rest, .cons s r rest c cs ((pCmd_iff L _ _ _).mp h) h1, h2, by simp [acts, hact, h3]⟩

theorem cmdsAt_prefix {s : List Char} {cs : List (TCmd K)} {rest : List Char} (h : CmdsAt L s cs rest)
    (hmax : ∀ c r, ¬ CmdAt L rest c r) {cs' : List (TCmd K)} {rest' : List Char} (h' : CmdsAt L s cs' rest') :
    cs' <+: cs := by
  induction h' generalizing cs with
  | nil s => exact List.nil_prefix
  | cons s s1 s2 c cs' hc hcs ih =>
    cases h with
    | nil _ => exact absurd hc (hmax _ _)
    | cons _ t1 _ d ds hd hds =>
      obtain ⟨rfl, rfl⟩ := cmdAt_unique L hc hd
      exact List.cons_prefix_cons.mpr ⟨rfl, ih hds⟩

theorem onBack_append (f : Path K → Path K) (ps : List (Path K)) (p : Path K) :
    onBack f (ps ++ [p]) = some (ps ++ [f p]) := by
  induction ps with
  | nil => rfl
  | cons q ps ih =>
    cases hps : ps ++ [p] with
    | nil => simp at hps
    | cons a as => rw [List.cons_append, hps, onBack, ← hps, ih]; rfl

theorem groups_ne_nil (c : Cmd K) (cs : List (Cmd K)) : groups (c :: cs) ≠ [] := by
  unfold groups; split
  · simp
  · split <;> simp

theorem groups_mem_ne_nil (cs : List (Cmd K)) : ∀ g ∈ groups cs, g ≠ [] := by
  induction cs with
  | nil => simp [groups]
  | cons c cs ih =>
    intro g hg
    unfold groups at hg
    split at hg
    · simp at hg; simp [hg]
    · rename_i g0 gs heq
      split at hg
      · rcases List.mem_cons.mp hg with rfl | hg
        · simp
        · exact ih g (by rw [heq]; exact hg)
      · rcases List.mem_cons.mp hg with rfl | hg
        · simp
        · exact ih g (by rw [heq]; simp [hg])

theorem groups_snoc_move (cs : List (Cmd K)) (p : Vec2 K) :
    groups (cs ++ [.moveto p]) = groups cs ++ [[.moveto p]] := by
  induction cs with
  | nil => rfl
  | cons c cs ih =>
    rw [List.cons_append, groups, ih]
    cases h : groups cs with
    | nil =>
      simp only [List.nil_append]
      rw [groups, h]; rfl
    | cons g gs =>
      simp only [List.cons_append]
      rw [groups, h]
      have hg : g ≠ [] := groups_mem_ne_nil cs g (by simp [h])
      cases g with
      | nil => exact absurd rfl hg
      | cons d ds => cases d <;> rfl

theorem groups_snoc_draw (cs : List (Cmd K)) (d : Cmd K) (hd : ∀ p, d ≠ .moveto p) (hcs : cs ≠ []) :
    ∃ gs g, groups cs = gs ++ [g] ∧ groups (cs ++ [d]) = gs ++ [g ++ [d]] := by
  induction cs with
  | nil => exact absurd rfl hcs
  | cons c cs ih =>
    by_cases hn : cs = []
    · subst hn
      refine ⟨[], [c], rfl, ?_⟩
      cases d with
      | moveto p => exact absurd rfl (hd p)
      | lineto p => rfl
      | cubicto a b p => rfl
    · obtain ⟨gs, g, h1, h2⟩ := ih hn
      rw [List.cons_append]
      cases gs with
      | nil =>
        simp only [List.nil_append] at h1 h2
        cases g with
        | nil => exact absurd rfl (groups_mem_ne_nil cs [] (by simp [h1]))
        | cons e es =>
          cases e with
          | moveto q =>
            exact ⟨[[c]], Cmd.moveto q :: es, by simp [groups, h1], by simp [groups, h2]⟩
          | lineto q => exact ⟨[], c :: Cmd.lineto q :: es, by simp [groups, h1], by simp [groups, h2]⟩
          | cubicto a b q => exact ⟨[], c :: Cmd.cubicto a b q :: es, by simp [groups, h1], by simp [groups, h2]⟩
      | cons g0 gs =>
        cases g0 with
        | nil => exact absurd rfl (groups_mem_ne_nil cs [] (by simp [h1]))
        | cons e es =>
          cases e with
          | moveto q => exact ⟨[c] :: (Cmd.moveto q :: es) :: gs, g, by simp [groups, h1], by simp [groups, h2]⟩
          | lineto q => exact ⟨(c :: Cmd.lineto q :: es) :: gs, g, by simp [groups, h1], by simp [groups, h2]⟩
          | cubicto a b q => exact ⟨(c :: Cmd.cubicto a b q :: es) :: gs, g, by simp [groups, h1], by simp [groups, h2]⟩

theorem acts_nonempty (ds : List (Cmd K)) (hds : ds ≠ []) (cs : List (TCmd K)) :
    acts ((groups ds).map Path.build) cs = some ((groups (ds ++ cs.filterMap TCmd.toCmd)).map Path.build) := by
  induction cs generalizing ds with
  | nil => simp [acts]
  | cons c cs ih =>
    cases c with
    | m p =>
      have := ih (ds ++ [.moveto p]) (by simp)
      simp only [acts, act, Option.bind_some, TCmd.toCmd, List.filterMap_cons]
      rw [groups_snoc_move, List.map_append] at this
      have hb : (Path.build [Cmd.moveto p] : Path K) = Path.empty.moveto p := rfl
      simpa [hb] using this
    | l p =>
      obtain ⟨gs, g, h1, h2⟩ := groups_snoc_draw ds (.lineto p) (by simp) hds
      have := ih (ds ++ [.lineto p]) (by simp)
      simp only [acts, act, TCmd.toCmd, List.filterMap_cons]
      rw [h1, List.map_append, List.map_singleton, onBack_append, Option.bind_some]
      rw [h2] at this
      have hb : Path.build (g ++ [Cmd.lineto p]) = (Path.build g).lineto p := by
        simp [Path.build, Path.issue]
      simpa [hb] using this
    | a p q =>
      have := ih ds hds
      simpa [acts, act, TCmd.toCmd, List.filterMap_cons] using this
    | c p q r =>
      obtain ⟨gs, g, h1, h2⟩ := groups_snoc_draw ds (.cubicto p q r) (by simp) hds
      have := ih (ds ++ [.cubicto p q r]) (by simp)
      simp only [acts, act, TCmd.toCmd, List.filterMap_cons]
      rw [h1, List.map_append, List.map_singleton, onBack_append, Option.bind_some]
      rw [h2] at this
      have hb : Path.build (g ++ [Cmd.cubicto p q r]) = (Path.build g).cubicto p q r := by
        simp [Path.build, Path.issue]
      simpa [hb] using this

theorem acts_nil (cs : List (TCmd K)) : acts [] cs =
    if startsWithMove (cs.filterMap TCmd.toCmd) then some ((groups (cs.filterMap TCmd.toCmd)).map Path.build)
    else none := by
  induction cs with
  | nil => rfl
  | cons c cs ih =>
    cases c with
    | m p =>
      have := acts_nonempty [.moveto p] (by simp) cs
      simp only [acts, act, Option.bind_some, TCmd.toCmd, List.filterMap_cons, List.nil_append, startsWithMove, if_true]
      exact this
    | l p => simp [acts, act, onBack, TCmd.toCmd, startsWithMove]
    | a p q =>
      have h : acts [] (TCmd.a p q :: cs) = acts [] cs := rfl
      have h' : (TCmd.a p q :: cs).filterMap TCmd.toCmd = cs.filterMap TCmd.toCmd := rfl
      rw [h, h', ih]
    | c p q r => simp [acts, act, onBack, TCmd.toCmd, startsWithMove]

/-! ## C06, C07 -/

/-- **C06/C07**: for every string there is a longest command sequence `cs` at its front (every other command sequence
at its front is a prefix of it, and no command follows it); `make_path` never rejects the string: it returns one path
per moveto group of the drawing commands of `cs`, unless the first drawing command is not a moveto, in which case the
code calls `back()` on an empty vector. -/
theorem makePath_spec (s : List Char) : ∃ cs rest, CmdsAt L s cs rest ∧ (∀ c r, ¬ CmdAt L rest c r) ∧
    (∀ cs' rest', CmdsAt L s cs' rest' → cs' <+: cs) ∧
    makePath L s = if startsWithMove (cs.filterMap TCmd.toCmd)
      then some ((groups (cs.filterMap TCmd.toCmd)).map Path.build) else none := by
  obtain ⟨cs, rest, h1, h2, h3⟩ := loop_eq L s []
  exact ⟨cs, rest, h1, h2, fun cs' rest' h => cmdsAt_prefix L h1 h2 h, by rw [makePath, h3, acts_nil]⟩

/-- **C06**: whatever follows the longest command sequence is ignored: a string whose front parses as `cs` and whose
remainder starts with no command gives exactly the drawing of `cs`. -/
theorem makePath_of_cmdsAt (s : List Char) (cs : List (TCmd K)) (rest : List Char) (h : CmdsAt L s cs rest)
    (hmax : ∀ c r, ¬ CmdAt L rest c r) :
    makePath L s = if startsWithMove (cs.filterMap TCmd.toCmd)
      then some ((groups (cs.filterMap TCmd.toCmd)).map Path.build) else none := by
  obtain ⟨cs', rest', h1, h2, h3, h4⟩ := makePath_spec L s
  have ha := h3 _ _ h
  have hb := cmdsAt_prefix L h hmax h1
  have : cs' = cs := ha.eq_of_length_le hb.length_le |>.symm
  rw [h4, this]

/-- **C07**: `make_path` touches the back of an empty vector exactly when some command sequence at the front of the
text has a first drawing command that is not a moveto. -/
theorem makePath_ub_iff (s : List Char) : makePath L s = none ↔
    ∃ cs rest, CmdsAt L s cs rest ∧ startsWithMove (cs.filterMap TCmd.toCmd) = false := by
  obtain ⟨cs, rest, h1, h2, h3, h4⟩ := makePath_spec L s
  rw [h4]
  constructor
  · intro h
    refine ⟨cs, rest, h1, ?_⟩
    by_contra hc
    simp [Bool.not_eq_false] at hc
    simp [hc] at h
  · rintro ⟨cs', rest', h', hs⟩
    obtain ⟨t, rfl⟩ := h3 _ _ h'
    have : startsWithMove ((cs' ++ t).filterMap TCmd.toCmd) = false := by
      rw [List.filterMap_append]
      cases hf : cs'.filterMap TCmd.toCmd with
      | nil => rw [hf] at hs; simp [startsWithMove] at hs
      | cons d ds =>
        rw [hf] at hs
        cases d <;> simp_all [startsWithMove]
    rw [this]; rfl

/-! ## C05: round trip -/

variable {L} {ok : K → Prop} (P : Printer L ok)

/-- text that may follow a printed number -/
def Stop (rest : List Char) : Prop := ∀ c t, rest = c :: t → isSp c = true ∨ c ∈ ['m', 'l', 'a', 'c']

theorem stop_ws1 {w : List Char} (hw : IsWs1 w) (s : List Char) : Stop (w ++ s) := by
  intro c t h
  cases w with
  | nil => exact absurd rfl hw.2
  | cons d w =>
    injection h with h1 h2
    left; rw [← h1]; exact hw.1 d (by simp)

theorem printer_pr_ne (k : K) (hk : ok k) : P.pr k ≠ [] := by
  intro h
  have h1 := P.read k hk [] (by simp)
  rw [h] at h1
  have := L.shorter _ _ _ h1
  simp at this

theorem numAt_print (k : K) (hk : ok k) (w rest : List Char) (hw : IsWs w) (hr : Stop rest) :
    NumAt L (w ++ (P.pr k ++ rest)) k rest := by
  refine .mk w _ k rest hw ?_ (P.read k hk rest hr)
  intro c t h
  cases hp : P.pr k with
  | nil => exact absurd hp (printer_pr_ne P k hk)
  | cons d ds =>
    rw [hp] at h; injection h with h1 h2
    exact h1 ▸ P.noSp k hk d ds hp

theorem pointAt_print {p : Vec2 K} {s : List Char} (h : PrintsPoint P p s) (rest : List Char) (hr : Stop rest) :
    PointAt L (s ++ rest) p rest := by
  cases h with
  | mk x y w1 w2 hx hy h1 h2 =>
    refine .mk _ (w2 ++ (P.pr y ++ rest)) rest x y ?_ (numAt_print P y hy w2 rest h2.1 hr)
    have := numAt_print P x hx w1 (w2 ++ (P.pr y ++ rest)) h1 (stop_ws1 h2 _)
    simpa [List.append_assoc] using this

theorem prints1_prints {p : Vec2 K} {s : List Char} (h : PrintsPoint1 P p s) : PrintsPoint P p s := by
  cases h with
  | mk x y w1 w2 hx hy h1 h2 => exact .mk x y w1 w2 hx hy h1.1 h2

theorem stop_print1 {p : Vec2 K} {s : List Char} (h : PrintsPoint1 P p s) (rest : List Char) : Stop (s ++ rest) := by
  cases h with
  | mk x y w1 w2 hx hy h1 h2 =>
    simp only [List.append_assoc]
    exact stop_ws1 h1 _

/-- the text command printed for a drawing command -/
def ofCmd : Cmd K → TCmd K
  | .moveto p => .m p
  | .lineto p => .l p
  | .cubicto a b p => .c a b p

theorem cmdAt_print {c : Cmd K} {s : List Char} (h : PrintsCmd P c s) (rest : List Char) (hr : Stop rest) :
    CmdAt L (s ++ rest) (ofCmd c) rest := by
  cases h with
  | m w p s hw h =>
    have := CmdAt.m (L := L) w (s ++ rest) rest p hw (pointAt_print P h rest hr)
    simpa [List.append_assoc, ofCmd] using this
  | l w p s hw h =>
    have := CmdAt.l (L := L) w (s ++ rest) rest p hw (pointAt_print P h rest hr)
    simpa [List.append_assoc, ofCmd] using this
  | c w p q r s1 s2 s3 hw h1 h2 h3 =>
    have := CmdAt.c (L := L) w (s1 ++ (s2 ++ (s3 ++ rest))) (s2 ++ (s3 ++ rest)) (s3 ++ rest) rest p q r hw
      (pointAt_print P h1 _ (stop_print1 P h2 _))
      (pointAt_print P (prints1_prints P h2) _ (stop_print1 P h3 _))
      (pointAt_print P (prints1_prints P h3) rest hr)
    simpa [List.append_assoc, ofCmd] using this

theorem stop_ws_cons {w : List Char} (hw : IsWs w) (c : Char) (hc : c ∈ ['m', 'l', 'a', 'c']) (s : List Char) :
    Stop (w ++ c :: s) := by
  intro d t h
  cases w with
  | nil => injection h with h1 h2; right; rw [← h1]; exact hc
  | cons e w => injection h with h1 h2; left; rw [← h1]; exact hw e (by simp)

theorem stop_prints {cs : List (Cmd K)} {s : List Char} (h : Prints P cs s) (rest : List Char) (hr : Stop rest) :
    Stop (s ++ rest) := by
  cases h with
  | nil => simpa using hr
  | cons c cs s t hc hcs =>
    cases hc with
    | m w p s hw h => simp only [List.append_assoc, List.cons_append]; exact stop_ws_cons hw _ (by simp) _
    | l w p s hw h => simp only [List.append_assoc, List.cons_append]; exact stop_ws_cons hw _ (by simp) _
    | c w p q r s1 s2 s3 hw h1 h2 h3 =>
      simp only [List.append_assoc, List.cons_append]; exact stop_ws_cons hw _ (by simp) _

theorem cmdsAt_print {cs : List (Cmd K)} {s : List Char} (h : Prints P cs s) (rest : List Char) (hr : Stop rest) :
    CmdsAt L (s ++ rest) (cs.map ofCmd) rest := by
  induction h with
  | nil => exact .nil rest
  | cons c cs s t hc hcs ih =>
    refine .cons _ (t ++ rest) _ _ _ ?_ ih
    have := cmdAt_print P hc (t ++ rest) (stop_prints P hcs rest hr)
    simpa [List.append_assoc] using this

theorem filterMap_ofCmd (cs : List (Cmd K)) : (cs.map ofCmd).filterMap TCmd.toCmd = cs := by
  induction cs with
  | nil => rfl
  | cons c cs ih => cases c <;> simp [ofCmd, TCmd.toCmd, ih]

/-- **C05/C06**: printing a command list that starts with a moveto, with any white space, and any text after it that
starts no command and does not run into the last number, is read back as exactly these commands, one path per
moveto. -/
theorem makePath_print_junk (cs : List (Cmd K)) (s : List Char) (h : Prints P cs s) (hm : startsWithMove cs = true)
    (junk : List Char) (hj : Stop junk) (hj' : ∀ c r, ¬ CmdAt L junk c r) :
    makePath L (s ++ junk) = some ((groups cs).map Path.build) := by
  have h1 := cmdsAt_print P h junk hj
  rw [makePath_of_cmdsAt L _ _ _ h1 hj', filterMap_ofCmd]; simp [hm]

theorem not_cmdAt_nil (c : TCmd K) (r : List Char) : ¬ CmdAt L [] c r := by
  intro h
  have := pCmd_length L ((pCmd_iff L _ _ _).mpr h)
  simp at this

/-- **C05**: text round trip. -/
theorem makePath_print (cs : List (Cmd K)) (s : List Char) (h : Prints P cs s) (hm : startsWithMove cs = true) :
    makePath L s = some ((groups cs).map Path.build) := by
  have := makePath_print_junk P cs s h hm [] (by intro c t h; cases h) not_cmdAt_nil
  simpa using this

/-- The groups are a partition of the command list: nothing is lost, nothing reordered. -/
theorem groups_flatten (cs : List (Cmd K)) : (groups cs).flatten = cs := by
  induction cs with
  | nil => rfl
  | cons c cs ih =>
    unfold groups
    split
    · rename_i h; rw [h] at ih; simp at ih; simp [ih]
    · rename_i g gs h
      rw [h] at ih
      split
      · simp at ih ⊢; exact ih
      · simp at ih ⊢; exact ih

/-- Every group of a list starting with a moveto starts with a moveto and has no other moveto. -/
theorem groups_shape (cs : List (Cmd K)) (hm : startsWithMove cs = true) :
    ∀ g ∈ groups cs, ∃ p ds, g = .moveto p :: ds ∧ ∀ d ∈ ds, ∀ q, d ≠ .moveto q := by
  have key : ∀ (cs : List (Cmd K)), ∀ g ∈ groups cs, ∃ d ds, g = d :: ds ∧ (∀ e ∈ ds, ∀ q, e ≠ .moveto q) := by
    intro cs
    induction cs with
    | nil => simp [groups]
    | cons c cs ih =>
      intro g hg
      unfold groups at hg
      split at hg
      · simp at hg; subst hg; exact ⟨c, [], rfl, by simp⟩
      · rename_i g0 gs heq
        split at hg
        · rcases List.mem_cons.mp hg with rfl | hg
          · exact ⟨c, [], rfl, by simp⟩
          · exact ih g (by rw [heq]; exact hg)
        · rename_i hnm
          rcases List.mem_cons.mp hg with rfl | hg
          · obtain ⟨d, ds, h1, h2⟩ := ih g0 (by simp [heq])
            refine ⟨c, g0, rfl, ?_⟩
            intro e he q hq
            subst hq; subst h1
            rcases List.mem_cons.mp he with h | h
            · exact hnm q ds (by rw [← h])
            · exact h2 _ h q rfl
          · exact ih g (by rw [heq]; simp [hg])
  have tl : ∀ (cs : List (Cmd K)), ∀ g ∈ (groups cs).tail, ∃ p ds, g = .moveto p :: ds := by
    intro cs
    induction cs with
    | nil => simp [groups]
    | cons c cs ih =>
      intro g hg
      unfold groups at hg
      split at hg
      · simp at hg
      · rename_i g0 gs heq
        rw [heq] at ih
        split at hg
        · simp only [List.tail_cons, List.mem_cons] at hg
          rcases hg with rfl | hg
          · exact ⟨_, _, rfl⟩
          · exact ih g (by simpa using hg)
        · exact ih g (by simpa using hg)
  intro g hg
  obtain ⟨d, ds, h1, h2⟩ := key cs g hg
  cases hgs : groups cs with
  | nil => rw [hgs] at hg; cases hg
  | cons g0 gs =>
    rw [hgs] at hg
    rcases List.mem_cons.mp hg with rfl | hg'
    · have hf := groups_flatten cs
      rw [hgs] at hf
      subst h1
      cases cs with
      | nil => simp [groups] at hgs
      | cons c cs =>
        simp at hf
        cases c with
        | moveto p => rw [hf.1] at *; exact ⟨p, ds, by rw [hf.1], h2⟩
        | lineto p => simp [startsWithMove] at hm
        | cubicto a b p => simp [startsWithMove] at hm
    · obtain ⟨p, ds', h3⟩ := tl cs g (by rw [hgs]; exact hg')
      subst h1; injection h3 with h4 h5; subst h4; subst h5
      exact ⟨p, ds, rfl, h2⟩

/-! ## the hypotheses are met -/

open DecLex in
/-- A text with two contours, an ignored arc and trailing junk, read with the concrete decimal reader. -/
example : makePath decLex "m 0 0 l 1.5 -2e1 c1 2 3 4 5 6 a 1 1 2 2\tl 7 8m+1 .5xyz".toList =
    some [(((Path.empty.moveto ⟨0, 0⟩).lineto ⟨3 / 2, -20⟩).cubicto ⟨1, 2⟩ ⟨3, 4⟩ ⟨5, 6⟩).lineto ⟨7, 8⟩,
      Path.empty.moveto ⟨1, 1 / 2⟩] := by decide +kernel

open DecLex in
/-- A text that draws before the first moveto reaches `back()` of an empty vector. -/
example : makePath decLex " a 1 2 3 4 l 5 6".toList = none := by decide +kernel

open DecLex in
/-- A printed command list as in `makePath_print` exists. -/
example : ∃ s, Prints decPrinter [.moveto ⟨1 / 2, -3⟩, .lineto ⟨4, 5⟩, .moveto ⟨0, 0⟩] s := by
  have d : ∀ (m : Int) (k : Nat), IsDecimal ((m : Rat) * (10 : Rat) ^ (-(k : Int))) := fun m k => ⟨m, k, rfl⟩
  have h1 : IsDecimal (1 / 2) := by have := d 5 1; norm_num at this; exact this
  have h2 : IsDecimal (-3) := by have := d (-3) 0; norm_num at this; exact this
  have h3 : IsDecimal 4 := by have := d 4 0; norm_num at this; exact this
  have h4 : IsDecimal 5 := by have := d 5 0; norm_num at this; exact this
  have h5 : IsDecimal 0 := by have := d 0 0; norm_num at this; exact this
  have hw : IsWs1 [' '] := ⟨by intro c hc; simp at hc; subst hc; rfl, by simp⟩
  exact ⟨_, .cons _ _ _ _ (.m [] _ _ (by simp [IsWs]) (.mk _ _ [' '] [' '] h1 h2 hw.1 hw))
    (.cons _ _ _ _ (.l [] _ _ (by simp [IsWs]) (.mk _ _ [] [' '] h3 h4 (by simp [IsWs]) hw))
    (.cons _ _ _ _ (.m [' '] _ _ hw.1 (.mk _ _ [] [' '] h5 h5 (by simp [IsWs]) hw)) .nil))⟩

end MakePath
end River
