import Verif.Model.Path

/-!
# `river::make_path` (`/repo/src/src/river.cpp:17-69`)

The grammar is a Boost.Spirit.Qi grammar run by `phrase_parse` with the skipper `ascii::space`.  Modelled: pre-skipping
before every primitive parser, ordered alternatives with backtracking to the start of the alternative, the Kleene star
(which never fails), and the moment the semantic actions run (`move_p`, `line_p`: after the point, which is the last
element of the sequence; `cubic_p`, `arc_p`: after the whole sequence).

`double_` is third-party code: it is a parameter `NumLex` (a function from the input to a value and the rest of the
input, consuming at least one character).  `Verif/Model/DecLex.lean` gives a concrete decimal instance.
-/

namespace River

/-- The numeric primitive `qi::double_`: value and rest of the input, `none` if no number starts here (`river.cpp:53`). -/
structure NumLex (K : Type) where
  lex : List Char → Option (K × List Char)
  shorter : ∀ s k r, lex s = some (k, r) → r.length < s.length

/-- `ascii::space` (`river.cpp:64`), the characters of `isspace` in the C locale. -/
def isSp (c : Char) : Bool :=
  c == ' ' || c == '\t' || c == '\n' || c == '\x0b' || c == '\x0c' || c == '\r'

/-- The skipper applied before every primitive (`river.cpp:64`). -/
def skipSp : List Char → List Char
  | [] => []
  | c :: cs => if isSp c then skipSp cs else c :: cs

/-- A command of the text syntax. `arc` is parsed but its action is empty (`river.cpp:38-40`). -/
inductive TCmd (K : Type) where
  | m (p : Vec2 K)
  | l (p : Vec2 K)
  | a (p q : Vec2 K)
  | c (p q r : Vec2 K)
deriving DecidableEq, Repr

namespace MakePath
variable {K : Type} (L : NumLex K)

/-- `char_(c)` with pre-skip (`river.cpp:54-59`). -/
def pChar (c : Char) (s : List Char) : Option (List Char) :=
  match skipSp s with
  | [] => none
  | d :: r => if d = c then some r else none

/-- `double_` with pre-skip (`river.cpp:53`). -/
def pNum (s : List Char) : Option (K × List Char) := L.lex (skipSp s)

/-- `point_p %= double_ >> double_` (`river.cpp:53`). -/
def pPoint (s : List Char) : Option (Vec2 K × List Char) := do
  let (x, s1) ← pNum L s
  let (y, s2) ← pNum L s1
  return (⟨x, y⟩, s2)

/-- `move_p = char_('m') >> point_p[...]` (`river.cpp:54-55`). -/
def pMove (s : List Char) : Option (TCmd K × List Char) := do
  let s0 ← pChar 'm' s
  let (p, s1) ← pPoint L s0
  return (.m p, s1)

/-- `line_p = char_('l') >> point_p[...]` (`river.cpp:56-57`). -/
def pLine (s : List Char) : Option (TCmd K × List Char) := do
  let s0 ← pChar 'l' s
  let (p, s1) ← pPoint L s0
  return (.l p, s1)

/-- `arc_p %= (char_('a') >> point_p >> point_p)[...]` (`river.cpp:58`). -/
def pArc (s : List Char) : Option (TCmd K × List Char) := do
  let s0 ← pChar 'a' s
  let (p, s1) ← pPoint L s0
  let (q, s2) ← pPoint L s1
  return (.a p q, s2)

/-- `cubic_p %= (char_('c') >> point_p >> point_p >> point_p)[...]` (`river.cpp:59`). -/
def pCubic (s : List Char) : Option (TCmd K × List Char) := do
  let s0 ← pChar 'c' s
  let (p, s1) ← pPoint L s0
  let (q, s2) ← pPoint L s1
  let (r, s3) ← pPoint L s2
  return (.c p q r, s3)

/-- `move_p | line_p | arc_p | cubic_p` (`river.cpp:64`). -/
def pCmd (s : List Char) : Option (TCmd K × List Char) :=
  match pMove L s with
  | some r => some r
  | none => match pLine L s with
    | some r => some r
    | none => match pArc L s with
      | some r => some r
      | none => pCubic L s

theorem pCmd_cases {s : List Char} {x : TCmd K × List Char} (h : pCmd L s = some x) :
    pMove L s = some x ∨ pLine L s = some x ∨ pArc L s = some x ∨ pCubic L s = some x := by
  unfold pCmd at h
  split at h
  · left; rw [← h]; assumption
  · split at h
    · right; left; rw [← h]; assumption
    · split at h
      · right; right; left; rw [← h]; assumption
      · right; right; right; exact h

/-- Append to the last path, `back()` (`river.cpp:34`); `none` = `back()` of an empty vector, undefined behaviour. -/
def onBack (f : Path K → Path K) : List (Path K) → Option (List (Path K))
  | [] => none
  | [p] => some [f p]
  | p :: q :: ps => (onBack f (q :: ps)).map (p :: ·)

/-- The semantic actions of `struct writer` (`river.cpp:31-44`). -/
def act (res : List (Path K)) : TCmd K → Option (List (Path K))
  | .m p => some (res ++ [Path.empty.moveto p])
  | .l p => onBack (·.lineto p) res
  | .a _ _ => some res
  | .c p q r => onBack (·.cubicto p q r) res

theorem skipSp_length (s : List Char) : (skipSp s).length ≤ s.length := by
  induction s with
  | nil => simp [skipSp]
  | cons c cs ih => unfold skipSp; split <;> simp; omega

theorem pChar_length {c : Char} {s r : List Char} (h : pChar c s = some r) : r.length < s.length := by
  unfold pChar at h
  have := skipSp_length s
  split at h
  · cases h
  · rename_i d r' heq
    split at h
    · injection h with h; subst h; rw [heq] at this; simp at this; omega
    · cases h

theorem pNum_length {s r : List Char} {k : K} (h : pNum L s = some (k, r)) : r.length < s.length := by
  have := L.shorter _ _ _ h
  have := skipSp_length s
  omega

theorem pPoint_length {s r : List Char} {p : Vec2 K} (h : pPoint L s = some (p, r)) : r.length < s.length := by
  unfold pPoint at h
  simp only [Option.bind_eq_bind, Option.bind_eq_some_iff, Prod.exists] at h
  obtain ⟨x, s1, h1, y, s2, h2, h3⟩ := h
  have := pNum_length L h1
  have := pNum_length L h2
  simp at h3
  obtain ⟨_, rfl⟩ := h3
  omega

theorem pCmd_length {s r : List Char} {c : TCmd K} (h : pCmd L s = some (c, r)) : r.length < s.length := by
  rcases pCmd_cases L h with h | h | h | h
  · unfold pMove at h
    simp only [Option.bind_eq_bind, Option.bind_eq_some_iff, Prod.exists] at h
    obtain ⟨s0, h0, p, s1, h1, h2⟩ := h
    have := pChar_length h0; have := pPoint_length L h1
    simp at h2; obtain ⟨_, rfl⟩ := h2; omega
  · unfold pLine at h
    simp only [Option.bind_eq_bind, Option.bind_eq_some_iff, Prod.exists] at h
    obtain ⟨s0, h0, p, s1, h1, h2⟩ := h
    have := pChar_length h0; have := pPoint_length L h1
    simp at h2; obtain ⟨_, rfl⟩ := h2; omega
  · unfold pArc at h
    simp only [Option.bind_eq_bind, Option.bind_eq_some_iff, Prod.exists] at h
    obtain ⟨s0, h0, p, s1, h1, q, s2, h2, h3⟩ := h
    have := pChar_length h0; have := pPoint_length L h1; have := pPoint_length L h2
    simp at h3; obtain ⟨_, rfl⟩ := h3; omega
  · unfold pCubic at h
    simp only [Option.bind_eq_bind, Option.bind_eq_some_iff, Prod.exists] at h
    obtain ⟨s0, h0, p, s1, h1, q, s2, h2, r', s3, h3, h4⟩ := h
    have := pChar_length h0; have := pPoint_length L h1; have := pPoint_length L h2; have := pPoint_length L h3
    simp at h4; obtain ⟨_, rfl⟩ := h4; omega

/-- `phrase_parse(begin, end, *(...), ascii::space)` (`river.cpp:64`): repeat the alternative, running the actions as
commands are recognised; stop, successfully, at the first position where no alternative matches.  The Kleene star
always succeeds, so the `res.clear()` of `river.cpp:65` is never reached and has no counterpart. -/
def loop (s : List Char) (res : List (Path K)) : Option (List (Path K)) :=
  match _h : pCmd L s with
  | none => some res
  | some (c, r) =>
    match act res c with
    | none => none
    | some res' => loop r res'
  termination_by s.length
  decreasing_by exact pCmd_length L _h

/-- `paths make_path(const char* s)` (`river.cpp:17-69`); `none` = undefined behaviour. -/
def makePath (s : List Char) : Option (List (Path K)) := loop L s []

end MakePath
end River
