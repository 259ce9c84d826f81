import Verif.Model.SvgText
import Verif.Spec.SvgDoc
import Verif.Props.SvgProcess
import Verif.Props.Format

/-! # C94: the file the test program writes, read again -/

namespace River
open MakePath DecLex

/-! ## the characters of numbers -/

/-- The characters `%f` writes. -/
def numChars : List Char := "-.0123456789infa".toList

theorem digit_mem {c : Char} (h : c.isDigit = true) : c ∈ "-.0123456789".toList := by
  have h1 : 48 ≤ c.toNat ∧ c.toNat ≤ 57 := by
    simp only [Char.isDigit, Bool.and_eq_true, decide_eq_true_eq] at h
    exact ⟨h.1, h.2⟩
  obtain ⟨n, hn⟩ : ∃ n, n = c.toNat := ⟨_, rfl⟩
  have hc : c = Char.ofNat n := by rw [hn]; exact (Char.ofNat_toNat c).symm
  rw [← hn] at h1
  obtain ⟨a, b⟩ := h1
  interval_cases n <;> subst hc <;> decide

theorem fmtMag_chars (m : ℚ) : ∀ c ∈ fmtMag m, c ∈ "-.0123456789".toList := by
  intro c hc
  unfold fmtMag at hc
  rcases List.mem_append.1 hc with hc | hc
  · exact digit_mem (natDigits_isDigit _ c hc)
  · rcases List.mem_cons.1 hc with rfl | hc
    · decide
    · exact digit_mem (padDigits_isDigit _ _ c hc)

theorem fmtF_chars (x : Dbl) : ∀ c ∈ fmtF x, c ∈ numChars := by
  intro c hc
  have sub : ∀ c ∈ "-.0123456789".toList, c ∈ numChars := by decide
  cases x with
  | num s m =>
    rcases List.mem_append.1 hc with hc | hc
    · cases s
      · simp at hc
      · simp at hc; subst hc; decide
    · exact sub c (fmtMag_chars m c hc)
  | inf s =>
    rcases List.mem_append.1 hc with hc | hc
    · cases s
      · simp at hc
      · simp at hc; subst hc; decide
    · have : ∀ c ∈ "inf".toList, c ∈ numChars := by decide
      exact this c hc
  | nan =>
    have : ∀ c ∈ "nan".toList, c ∈ numChars := by decide
    exact this c hc

theorem fmtF_finite_chars {x : Dbl} (hx : x.Finite) : ∀ c ∈ fmtF x, c ∈ "-.0123456789".toList := by
  obtain ⟨s, m, rfl, -⟩ := hx
  intro c hc
  rcases List.mem_append.1 hc with hc | hc
  · cases s
    · simp at hc
    · simp at hc; subst hc; decide
  · exact fmtMag_chars m c hc

/-- The characters of the data of a path. -/
def dataChars : List Char := "-.0123456789infa MLCZ".toList

theorem numChars_data : ∀ c ∈ numChars, c ∈ dataChars := by decide

theorem fmtPoint_chars (p : Vec2 Dbl) : ∀ c ∈ fmtPoint p, c ∈ dataChars := by
  intro c hc
  rcases List.mem_append.1 hc with hc | hc
  · exact numChars_data c (fmtF_chars _ c hc)
  · rcases List.mem_cons.1 hc with rfl | hc
    · decide
    · exact numChars_data c (fmtF_chars _ c hc)

theorem str_chars (t : SvgTok Dbl) : ∀ c ∈ t.str, c ∈ dataChars := by
  cases t with
  | m p =>
    intro c hc
    rcases List.mem_cons.1 hc with rfl | hc
    · decide
    · rcases List.mem_append.1 hc with hc | hc
      · exact fmtPoint_chars p c hc
      · simp at hc; subst hc; decide
  | l p =>
    intro c hc
    rcases List.mem_cons.1 hc with rfl | hc
    · decide
    · rcases List.mem_append.1 hc with hc | hc
      · exact fmtPoint_chars p c hc
      · simp at hc; subst hc; decide
  | c a b p =>
    intro c hc
    rcases List.mem_cons.1 hc with rfl | hc
    · decide
    · rcases List.mem_append.1 hc with hc | hc
      · exact fmtPoint_chars a c hc
      · rcases List.mem_cons.1 hc with rfl | hc
        · decide
        · rcases List.mem_append.1 hc with hc | hc
          · exact fmtPoint_chars b c hc
          · rcases List.mem_cons.1 hc with rfl | hc
            · decide
            · rcases List.mem_append.1 hc with hc | hc
              · exact fmtPoint_chars p c hc
              · simp at hc; subst hc; decide
  | z => intro c hc; revert c; decide

theorem data_chars (l : List (SvgTok Dbl)) : ∀ c ∈ l.flatMap SvgTok.str, c ∈ dataChars := by
  intro c hc
  obtain ⟨t, _, hc⟩ := List.mem_flatMap.1 hc
  exact str_chars t c hc

/-! ## tags and attributes -/

theorem tags_skip (a b : List Char) (h : ∀ c ∈ a, c ≠ '<') : tags (a ++ b) = tags b := by
  induction a with
  | nil => rfl
  | cons c a ih =>
    rw [List.cons_append, tags, if_neg (h c (by simp)), ih (fun d hd => h d (by simp [hd]))]

theorem takeWhile_stop (a b : List Char) (e : Char) (h : ∀ c ∈ a, c ≠ e) : (a ++ e :: b).takeWhile (· ≠ e) = a := by
  induction a with
  | nil => simp
  | cons c a ih =>
    rw [List.cons_append, List.takeWhile_cons_of_pos (by simpa using h c (by simp)), ih (fun d hd => h d (by simp [hd]))]

theorem tags_tag (a b : List Char) (h : ∀ c ∈ a, c ≠ '<' ∧ c ≠ '>') : tags ('<' :: (a ++ '>' :: b)) = a :: tags b := by
  rw [tags, if_pos rfl, takeWhile_stop a b '>' (fun c hc => (h c hc).2)]
  have := tags_skip (a ++ ['>']) b (by
    intro c hc
    rcases List.mem_append.1 hc with hc | hc
    · exact (h c hc).1
    · simp at hc; subst hc; decide)
  rw [List.append_assoc, List.singleton_append] at this
  rw [this]

theorem attr_skip (n0 : Char) (ns a b : List Char) (b0 : Char) (ha : ∀ c ∈ a, c ≠ n0) (hb : b0 ≠ n0) :
    attr (n0 :: ns) (a ++ b0 :: b) = attr (n0 :: ns) (b0 :: b) := by
  induction a with
  | nil => rfl
  | cons c a ih =>
    have ih := ih (fun d hd => ha d (by simp [hd]))
    rw [List.cons_append, attr]
    have hne : ¬ ((' ' :: (n0 :: ns ++ ['=', '"'])).isPrefixOf (c :: (a ++ b0 :: b)) = true) := by
      cases a with
      | nil => simp [List.isPrefixOf, hb.symm]
      | cons d a => simp [List.isPrefixOf, (ha d (by simp)).symm]
    rw [if_neg hne, ih]

theorem attr_here (name v b : List Char) (h : ∀ c ∈ v, c ≠ '"') :
    attr name (' ' :: (name ++ '=' :: '"' :: (v ++ '"' :: b))) = some v := by
  rw [attr]
  have hp : (' ' :: (name ++ ['=', '"'])).isPrefixOf (' ' :: (name ++ '=' :: '"' :: (v ++ '"' :: b))) = true := by
    rw [List.isPrefixOf_iff_prefix]
    exact ⟨v ++ '"' :: b, by simp⟩
  rw [if_pos hp]
  have hd : (name ++ '=' :: '"' :: (v ++ '"' :: b)).drop (name.length + 2) = v ++ '"' :: b := by
    rw [List.drop_append]
    simp
  rw [hd, takeWhile_stop v b '"' h]

/-! ## the parts of the file -/

/-- The tag of a `path` element. -/
def figTag (f : List (SvgTok Dbl) × SvgKind) : List Char := "path d=\"".toList ++ (f.1.flatMap SvgTok.str ++ (f.2.prop ++ " /".toList))

theorem figStr_tag (f : List (SvgTok Dbl) × SvgKind) : figStr f = '<' :: (figTag f ++ '>' :: [' ']) := by
  have e1 : "<path d=\"".toList = '<' :: "path d=\"".toList := by decide
  have e2 : " /> ".toList = " /".toList ++ ['>', ' '] := by decide
  unfold figStr figTag
  rw [e1, e2]
  simp only [List.append_assoc, List.cons_append]

theorem dataChars_ok : ∀ c ∈ dataChars, c ≠ '<' ∧ c ≠ '>' ∧ c ≠ '"' ∧ c ≠ 's' := by decide

theorem numChars_ok : ∀ c ∈ numChars, c ≠ '<' ∧ c ≠ '>' ∧ c ≠ '"' ∧ c ≠ 'x' ∧ c ≠ 'y' ∧ c ≠ 'w' ∧ c ≠ 'h' ∧ c ≠ 's' := by decide

theorem prop_ok (k : SvgKind) : ∀ c ∈ k.prop, c ≠ '<' ∧ c ≠ '>' := by cases k <;> decide

theorem mem_app {a b : List Char} {P : Char → Prop} (ha : ∀ c ∈ a, P c) (hb : ∀ c ∈ b, P c) : ∀ c ∈ a ++ b, P c := by
  intro c hc
  rcases List.mem_append.1 hc with hc | hc
  · exact ha c hc
  · exact hb c hc

theorem mem_con {a : Char} {b : List Char} {P : Char → Prop} (ha : P a) (hb : ∀ c ∈ b, P c) : ∀ c ∈ a :: b, P c := by
  intro c hc
  rcases List.mem_cons.1 hc with rfl | hc
  · exact ha
  · exact hb c hc

theorem figTag_ok (f : List (SvgTok Dbl) × SvgKind) : ∀ c ∈ figTag f, c ≠ '<' ∧ c ≠ '>' :=
  mem_app (by decide) (mem_app (fun c hc => ⟨(dataChars_ok c (data_chars _ c hc)).1, (dataChars_ok c (data_chars _ c hc)).2.1⟩)
    (mem_app (prop_ok _) (by decide)))

theorem num_clean (x : Dbl) : ∀ c ∈ fmtF x, c ≠ '<' ∧ c ≠ '>' := fun c hc => ⟨(numChars_ok c (fmtF_chars x c hc)).1, (numChars_ok c (fmtF_chars x c hc)).2.1⟩

/-- The tag of a `rect` element. -/
def markTag (m : Vec2 Dbl × Dbl × Dbl) : List Char :=
  "rect x=\"".toList ++ (fmtF m.1.x ++ ("\" y=\"".toList ++ (fmtF m.1.y ++ ("\" width=\"".toList ++ (fmtF m.2.1 ++
    ("\" height=\"".toList ++ (fmtF m.2.2 ++ "\" fill=\"blue\" /".toList)))))))

theorem markStr_tag (m : Vec2 Dbl × Dbl × Dbl) : markStr m = '<' :: (markTag m ++ '>' :: []) := by
  have e1 : "<rect x=\"".toList = '<' :: "rect x=\"".toList := by decide
  have e2 : "\" fill=\"blue\" />".toList = "\" fill=\"blue\" /".toList ++ ['>'] := by decide
  unfold markStr markTag
  rw [e1, e2]
  simp only [List.append_assoc, List.cons_append]

theorem markTag_ok (m : Vec2 Dbl × Dbl × Dbl) : ∀ c ∈ markTag m, c ≠ '<' ∧ c ≠ '>' :=
  mem_app (by decide) (mem_app (num_clean _) (mem_app (by decide) (mem_app (num_clean _) (mem_app (by decide) (mem_app (num_clean _)
    (mem_app (by decide) (mem_app (num_clean _) (by decide))))))))

/-- The tag of a `line` element. -/
def hintTag (h : Vec2 Dbl × Vec2 Dbl) : List Char :=
  "line x1=\"".toList ++ (fmtF h.1.x ++ ("\" y1=\"".toList ++ (fmtF h.1.y ++ ("\" x2=\"".toList ++ (fmtF h.2.x ++
    ("\" y2=\"".toList ++ (fmtF h.2.y ++ "\" stroke=\"blue\"/".toList)))))))

theorem hintStr_tag (h : Vec2 Dbl × Vec2 Dbl) : hintStr h = '<' :: (hintTag h ++ '>' :: []) := by
  have e1 : "<line x1=\"".toList = '<' :: "line x1=\"".toList := by decide
  have e2 : "\" stroke=\"blue\"/>".toList = "\" stroke=\"blue\"/".toList ++ ['>'] := by decide
  unfold hintStr hintTag
  rw [e1, e2]
  simp only [List.append_assoc, List.cons_append]

theorem hintTag_ok (h : Vec2 Dbl × Vec2 Dbl) : ∀ c ∈ hintTag h, c ≠ '<' ∧ c ≠ '>' :=
  mem_app (by decide) (mem_app (num_clean _) (mem_app (by decide) (mem_app (num_clean _) (mem_app (by decide) (mem_app (num_clean _)
    (mem_app (by decide) (mem_app (num_clean _) (by decide))))))))

/-- The tag of the document. -/
def headTag (D : Drawing Dbl) : List Char :=
  "svg version=\"1.1\" viewBox=\"".toList ++ (fmtF D.view.1.x ++ (',' :: (fmtF D.view.1.y ++ (',' :: (fmtF D.view.2.1 ++ (',' :: (fmtF D.view.2.2 ++
    ("\" width=\"".toList ++ (fmtF D.size.1 ++ ("\" height=\"".toList ++ (fmtF D.size.2 ++ "\" xmlns=\"http://www.w3.org/2000/svg\"".toList)))))))))))

theorem svgHead_tag (D : Drawing Dbl) : svgHead D = '<' :: (headTag D ++ '>' :: []) := by
  have e1 : "<svg version=\"1.1\" viewBox=\"".toList = '<' :: "svg version=\"1.1\" viewBox=\"".toList := by decide
  have e2 : "\" xmlns=\"http://www.w3.org/2000/svg\">".toList = "\" xmlns=\"http://www.w3.org/2000/svg\"".toList ++ ['>'] := by decide
  unfold svgHead headTag
  rw [e1, e2]
  simp only [List.append_assoc, List.cons_append]

theorem headTag_ok (D : Drawing Dbl) : ∀ c ∈ headTag D, c ≠ '<' ∧ c ≠ '>' :=
  mem_app (by decide) (mem_app (num_clean _) (mem_con (by decide) (mem_app (num_clean _) (mem_con (by decide) (mem_app (num_clean _)
    (mem_con (by decide) (mem_app (num_clean _) (mem_app (by decide) (mem_app (num_clean _) (mem_app (by decide) (mem_app (num_clean _) (by decide))))))))))))

/-- The tag of the group. -/
def groupTag (D : Drawing Dbl) : List Char :=
  "g transform = \"scale(1,-1) translate(0,".toList ++ (fmtF D.trans.2.2 ++ (") \" stroke-width=\"".toList ++ (fmtF D.stroke ++ "\"".toList)))

theorem svgGroup_tag (D : Drawing Dbl) : svgGroup D = '<' :: (groupTag D ++ '>' :: [' ']) := by
  have e1 : "<g transform = \"scale(1,-1) translate(0,".toList = '<' :: "g transform = \"scale(1,-1) translate(0,".toList := by decide
  have e2 : "\"> ".toList = "\"".toList ++ ['>', ' '] := by decide
  unfold svgGroup groupTag
  rw [e1, e2]
  simp only [List.append_assoc, List.cons_append]

theorem groupTag_ok (D : Drawing Dbl) : ∀ c ∈ groupTag D, c ≠ '<' ∧ c ≠ '>' :=
  mem_app (by decide) (mem_app (num_clean _) (mem_app (by decide) (mem_app (num_clean _) (by decide))))

theorem tags_part {α : Type} (str tag : α → List Char) (w : List Char) (hw : ∀ c ∈ w, c ≠ '<') (h1 : ∀ a, str a = '<' :: (tag a ++ '>' :: w))
    (h2 : ∀ a, ∀ c ∈ tag a, c ≠ '<' ∧ c ≠ '>') (l : List α) (b : List Char) : tags (l.flatMap str ++ b) = l.map tag ++ tags b := by
  induction l with
  | nil => rfl
  | cons a l ih =>
    rw [List.flatMap_cons, List.map_cons, List.append_assoc, h1, List.cons_append, List.append_assoc, List.cons_append, tags_tag _ _ (h2 a),
      tags_skip w _ hw, ih]
    rfl

/-- The tags of the file. -/
theorem tags_str (D : Drawing Dbl) : tags D.str = headTag D :: groupTag D :: (D.figs.map figTag ++ (D.marks.map markTag ++ (D.hints.map hintTag ++
    ["/g".toList, "/svg".toList]))) := by
  unfold Drawing.str
  rw [svgHead_tag, svgGroup_tag, List.cons_append, List.append_assoc, List.cons_append, tags_tag _ _ (headTag_ok D), List.nil_append,
    List.cons_append, List.append_assoc, List.cons_append, tags_tag _ _ (groupTag_ok D), tags_skip [' '] _ (by decide),
    tags_part figStr figTag [' '] (by decide) figStr_tag figTag_ok,
    tags_part markStr markTag [] (by decide) markStr_tag markTag_ok,
    tags_part hintStr hintTag [] (by decide) hintStr_tag hintTag_ok]
  rfl

/-! ## the attributes -/

theorem attr_ne (name : List Char) (c : Char) (t : List Char) (h : c ≠ ' ') : attr name (c :: t) = attr name t := by
  rw [attr, if_neg]
  simp [List.isPrefixOf, h.symm]

theorem attr_sp (n0 : Char) (ns : List Char) (d : Char) (t : List Char) (h : d ≠ n0) : attr (n0 :: ns) (' ' :: d :: t) = attr (n0 :: ns) (d :: t) := by
  rw [attr, if_neg]
  simp [List.isPrefixOf, h.symm]

theorem attr_sp2 (n0 n1 : Char) (ns : List Char) (d e : Char) (t : List Char) (h : e ≠ n1) :
    attr (n0 :: n1 :: ns) (' ' :: d :: e :: t) = attr (n0 :: n1 :: ns) (d :: e :: t) := by
  rw [attr, if_neg]
  simp [List.isPrefixOf, h.symm]

/-- No attribute begins inside a value. -/
theorem attr_value (name a b : List Char) (hn : ∀ c ∈ name, c ≠ '"') (ha : ∀ c ∈ a, c ≠ '"' ∧ c ≠ '=') :
    attr name (a ++ '"' :: b) = attr name ('"' :: b) := by
  induction a with
  | nil => rfl
  | cons c a ih =>
    rw [List.cons_append, attr, if_neg, ih (fun d hd => ha d (by simp [hd]))]
    rw [List.isPrefixOf_iff_prefix]
    rintro ⟨t, ht⟩
    have h1 : ((' ' :: name ++ ['=']) ++ '"' :: t).takeWhile (· ≠ '"') = ' ' :: name ++ ['='] := takeWhile_stop _ _ _ (by
      intro d hd
      simp only [List.cons_append, List.mem_cons, List.mem_append, List.not_mem_nil, or_false] at hd
      rcases hd with rfl | hd | rfl
      · decide
      · exact hn d hd
      · decide)
    have h2 := takeWhile_stop (c :: a) b '"' (fun d hd => (ha d hd).1)
    have e : (' ' :: name ++ ['=']) ++ '"' :: t = (c :: a) ++ '"' :: b := by
      simpa using ht
    rw [e, h2] at h1
    exact (ha '=' (by rw [h1]; simp)).2 rfl

theorem num_value (x : Dbl) : ∀ c ∈ fmtF x, c ≠ '"' ∧ c ≠ '=' := by
  have : ∀ c ∈ numChars, c ≠ '"' ∧ c ≠ '=' := by decide
  exact fun c hc => this c (fmtF_chars x c hc)

theorem data_value (l : List (SvgTok Dbl)) : ∀ c ∈ l.flatMap SvgTok.str, c ≠ '"' ∧ c ≠ '=' := by
  have : ∀ c ∈ dataChars, c ≠ '"' ∧ c ≠ '=' := by decide
  exact fun c hc => this c (data_chars l c hc)

theorem figTag_attr (f : List (SvgTok Dbl) × SvgKind) : isTag "path".toList (figTag f) = true ∧ attr "d".toList (figTag f) = some (f.1.flatMap SvgTok.str) ∧
    attr "stroke".toList (figTag f) = some f.2.colours.1 ∧ attr "fill".toList (figTag f) = some f.2.colours.2 := by
  obtain ⟨l, k⟩ := f
  have e0 : "path d=\"".toList = ['p', 'a', 't', 'h', ' ', 'd', '=', '"'] := by decide
  have e1 : "d".toList = ['d'] := by decide
  have e2 : "stroke".toList = ['s', 't', 'r', 'o', 'k', 'e'] := by decide
  have e3 : "fill".toList = ['f', 'i', 'l', 'l'] := by decide
  have e4 : "path".toList = ['p', 'a', 't', 'h'] := by decide
  obtain ⟨q, hq⟩ : ∃ q, k.prop ++ " /".toList = '"' :: q := by cases k <;> exact ⟨_, rfl⟩
  have hs : attr "stroke".toList (k.prop ++ " /".toList) = some k.colours.1 ∧ attr "fill".toList (k.prop ++ " /".toList) = some k.colours.2 := by
    cases k <;> decide
  rw [hq] at hs
  unfold figTag
  simp only
  rw [hq, e0]
  refine ⟨?_, ?_, ?_, ?_⟩
  · rw [e4]; rfl
  · rw [e1]
    exact (attr_skip 'd' [] ['p', 'a', 't', 'h'] _ ' ' (by decide) (by decide)).trans (attr_here ['d'] _ _ (fun c hc => (data_value l c hc).1))
  · rw [← hs.1, ← attr_value "stroke".toList _ q (by decide) (data_value l), e2]
    simp only [List.cons_append, List.nil_append]
    repeat first | rw [attr_ne _ _ _ (by decide)] | rw [attr_sp _ _ _ _ (by decide)]
  · rw [← hs.2, ← attr_value "fill".toList _ q (by decide) (data_value l), e3]
    simp only [List.cons_append, List.nil_append]
    repeat first | rw [attr_ne _ _ _ (by decide)] | rw [attr_sp _ _ _ _ (by decide)]

theorem markTag_attr (m : Vec2 Dbl × Dbl × Dbl) : isTag "rect".toList (markTag m) = true ∧ attr "x".toList (markTag m) = some (fmtF m.1.x) ∧
    attr "y".toList (markTag m) = some (fmtF m.1.y) ∧ attr "width".toList (markTag m) = some (fmtF m.2.1) ∧
    attr "height".toList (markTag m) = some (fmtF m.2.2) ∧ attr "fill".toList (markTag m) = some "blue".toList := by
  have e0 : "rect x=\"".toList = ['r', 'e', 'c', 't', ' ', 'x', '=', '"'] := by decide
  have e1 : "\" y=\"".toList = ['"', ' ', 'y', '=', '"'] := by decide
  have e2 : "\" width=\"".toList = ['"', ' ', 'w', 'i', 'd', 't', 'h', '=', '"'] := by decide
  have e3 : "\" height=\"".toList = ['"', ' ', 'h', 'e', 'i', 'g', 'h', 't', '=', '"'] := by decide
  have e4 : "\" fill=\"blue\" /".toList = ['"', ' ', 'f', 'i', 'l', 'l', '=', '"', 'b', 'l', 'u', 'e', '"', ' ', '/'] := by decide
  have n0 : "rect".toList = ['r', 'e', 'c', 't'] := by decide
  have n1 : "x".toList = ['x'] := by decide
  have n2 : "y".toList = ['y'] := by decide
  have n3 : "width".toList = ['w', 'i', 'd', 't', 'h'] := by decide
  have n4 : "height".toList = ['h', 'e', 'i', 'g', 'h', 't'] := by decide
  have n5 : "fill".toList = ['f', 'i', 'l', 'l'] := by decide
  have n6 : "blue".toList = ['b', 'l', 'u', 'e'] := by decide
  have q := fun x : Dbl => (fun c hc => (num_value x c hc).1 : ∀ c ∈ fmtF x, c ≠ '"')
  unfold markTag
  rw [e0, e1, e2, e3, e4, n0, n1, n2, n3, n4, n5, n6]
  simp only [List.cons_append, List.nil_append]
  refine ⟨rfl, ?_, ?_, ?_, ?_, ?_⟩
  · repeat rw [attr_ne _ _ _ (by decide)]
    exact attr_here ['x'] _ _ (q _)
  · repeat first | rw [attr_value _ _ _ (by decide) (num_value _)] | rw [attr_ne _ _ _ (by decide)] | rw [attr_sp _ _ _ _ (by decide)]
    exact attr_here ['y'] _ _ (q _)
  · repeat first | rw [attr_value _ _ _ (by decide) (num_value _)] | rw [attr_ne _ _ _ (by decide)] | rw [attr_sp _ _ _ _ (by decide)]
    exact attr_here ['w', 'i', 'd', 't', 'h'] _ _ (q _)
  · repeat first | rw [attr_value _ _ _ (by decide) (num_value _)] | rw [attr_ne _ _ _ (by decide)] | rw [attr_sp _ _ _ _ (by decide)]
    exact attr_here ['h', 'e', 'i', 'g', 'h', 't'] _ _ (q _)
  · repeat first | rw [attr_value _ _ _ (by decide) (num_value _)] | rw [attr_ne _ _ _ (by decide)] | rw [attr_sp _ _ _ _ (by decide)]
    rfl

theorem hintTag_attr (h : Vec2 Dbl × Vec2 Dbl) : isTag "line".toList (hintTag h) = true ∧
    attr "x1".toList (hintTag h) = some (fmtF h.1.x) ∧
    attr "y1".toList (hintTag h) = some (fmtF h.1.y) ∧
    attr "x2".toList (hintTag h) = some (fmtF h.2.x) ∧
    attr "y2".toList (hintTag h) = some (fmtF h.2.y) := by
  have e0 : "line x1=\"".toList = ['l', 'i', 'n', 'e', ' ', 'x', '1', '=', '"'] := by decide
  have e1 : "\" y1=\"".toList = ['"', ' ', 'y', '1', '=', '"'] := by decide
  have e2 : "\" x2=\"".toList = ['"', ' ', 'x', '2', '=', '"'] := by decide
  have e3 : "\" y2=\"".toList = ['"', ' ', 'y', '2', '=', '"'] := by decide
  have e4 : "\" stroke=\"blue\"/".toList = ['"', ' ', 's', 't', 'r', 'o', 'k', 'e', '=', '"', 'b', 'l', 'u', 'e', '"', '/'] := by decide
  have e5 : "line".toList = ['l', 'i', 'n', 'e'] := by decide
  have e6 : "x1".toList = ['x', '1'] := by decide
  have e7 : "y1".toList = ['y', '1'] := by decide
  have e8 : "x2".toList = ['x', '2'] := by decide
  have e9 : "y2".toList = ['y', '2'] := by decide
  have q := fun x : Dbl => (fun c hc => (num_value x c hc).1 : ∀ c ∈ fmtF x, c ≠ '"')
  unfold hintTag
  rw [e0, e1, e2, e3, e4, e5, e6, e7, e8, e9]
  simp only [List.cons_append, List.nil_append]
  refine ⟨rfl, ?_, ?_, ?_, ?_⟩
  · repeat first | rw [attr_value _ _ _ (by decide) (num_value _)] | rw [attr_ne _ _ _ (by decide)] | rw [attr_sp _ _ _ _ (by decide)] | rw [attr_sp2 _ _ _ _ _ _ (by decide)]
    exact attr_here ['x', '1'] _ _ (q _)
  · repeat first | rw [attr_value _ _ _ (by decide) (num_value _)] | rw [attr_ne _ _ _ (by decide)] | rw [attr_sp _ _ _ _ (by decide)] | rw [attr_sp2 _ _ _ _ _ _ (by decide)]
    exact attr_here ['y', '1'] _ _ (q _)
  · repeat first | rw [attr_value _ _ _ (by decide) (num_value _)] | rw [attr_ne _ _ _ (by decide)] | rw [attr_sp _ _ _ _ (by decide)] | rw [attr_sp2 _ _ _ _ _ _ (by decide)]
    exact attr_here ['x', '2'] _ _ (q _)
  · repeat first | rw [attr_value _ _ _ (by decide) (num_value _)] | rw [attr_ne _ _ _ (by decide)] | rw [attr_sp _ _ _ _ (by decide)] | rw [attr_sp2 _ _ _ _ _ _ (by decide)]
    exact attr_here ['y', '2'] _ _ (q _)

theorem groupTag_attr (D : Drawing Dbl) : isTag "g".toList (groupTag D) = true ∧
    attr "stroke-width".toList (groupTag D) = some (fmtF D.stroke) := by
  have e0 : "g transform = \"scale(1,-1) translate(0,".toList = ['g', ' ', 't', 'r', 'a', 'n', 's', 'f', 'o', 'r', 'm', ' ', '=', ' ', '"', 's', 'c', 'a', 'l', 'e', '(', '1', ',', '-', '1', ')', ' ', 't', 'r', 'a', 'n', 's', 'l', 'a', 't', 'e', '(', '0', ','] := by decide
  have e1 : ") \" stroke-width=\"".toList = [')', ' ', '"', ' ', 's', 't', 'r', 'o', 'k', 'e', '-', 'w', 'i', 'd', 't', 'h', '=', '"'] := by decide
  have e2 : "\"".toList = ['"'] := by decide
  have e3 : "g".toList = ['g'] := by decide
  have e4 : "stroke-width".toList = ['s', 't', 'r', 'o', 'k', 'e', '-', 'w', 'i', 'd', 't', 'h'] := by decide
  have q := fun x : Dbl => (fun c hc => (num_value x c hc).1 : ∀ c ∈ fmtF x, c ≠ '"')
  have hv : ∀ c ∈ fmtF D.trans.2.2 ++ [')', ' '], c ≠ '"' ∧ c ≠ '=' := mem_app (num_value _) (by decide)
  have hr : ∀ b, fmtF D.trans.2.2 ++ ')' :: ' ' :: b = (fmtF D.trans.2.2 ++ [')', ' ']) ++ b := by simp
  unfold groupTag
  rw [e0, e1, e2, e3, e4]
  simp only [List.cons_append, List.nil_append]
  refine ⟨rfl, ?_⟩
  · repeat first | rw [attr_value _ _ _ (by decide) (num_value _)] | rw [attr_ne _ _ _ (by decide)] | rw [attr_sp _ _ _ _ (by decide)] | rw [attr_sp2 _ _ _ _ _ _ (by decide)]
    rw [hr, attr_value _ _ _ (by decide) hv, attr_ne _ _ _ (by decide)]
    exact attr_here ['s', 't', 'r', 'o', 'k', 'e', '-', 'w', 'i', 'd', 't', 'h'] _ _ (q _)

theorem headTag_attr (D : Drawing Dbl) : isTag "svg".toList (headTag D) = true ∧
    attr "viewBox".toList (headTag D) = some (fmtF D.view.1.x ++ ',' :: (fmtF D.view.1.y ++ ',' :: (fmtF D.view.2.1 ++ ',' :: fmtF D.view.2.2))) ∧
    attr "width".toList (headTag D) = some (fmtF D.size.1) ∧
    attr "height".toList (headTag D) = some (fmtF D.size.2) := by
  have e0 : "svg version=\"1.1\" viewBox=\"".toList = ['s', 'v', 'g', ' ', 'v', 'e', 'r', 's', 'i', 'o', 'n', '=', '"', '1', '.', '1', '"', ' ', 'v', 'i', 'e', 'w', 'B', 'o', 'x', '=', '"'] := by decide
  have e1 : "\" width=\"".toList = ['"', ' ', 'w', 'i', 'd', 't', 'h', '=', '"'] := by decide
  have e2 : "\" height=\"".toList = ['"', ' ', 'h', 'e', 'i', 'g', 'h', 't', '=', '"'] := by decide
  have e3 : "\" xmlns=\"http://www.w3.org/2000/svg\"".toList = ['"', ' ', 'x', 'm', 'l', 'n', 's', '=', '"', 'h', 't', 't', 'p', ':', '/', '/', 'w', 'w', 'w', '.', 'w', '3', '.', 'o', 'r', 'g', '/', '2', '0', '0', '0', '/', 's', 'v', 'g', '"'] := by decide
  have e4 : "svg".toList = ['s', 'v', 'g'] := by decide
  have e5 : "viewBox".toList = ['v', 'i', 'e', 'w', 'B', 'o', 'x'] := by decide
  have e6 : "width".toList = ['w', 'i', 'd', 't', 'h'] := by decide
  have e7 : "height".toList = ['h', 'e', 'i', 'g', 'h', 't'] := by decide
  have q := fun x : Dbl => (fun c hc => (num_value x c hc).1 : ∀ c ∈ fmtF x, c ≠ '"')
  have hv : ∀ c ∈ fmtF D.view.1.x ++ ',' :: (fmtF D.view.1.y ++ ',' :: (fmtF D.view.2.1 ++ ',' :: fmtF D.view.2.2)), c ≠ '"' ∧ c ≠ '=' :=
    mem_app (num_value _) (mem_con (by decide) (mem_app (num_value _) (mem_con (by decide) (mem_app (num_value _) (mem_con (by decide) (num_value _))))))
  have hr : ∀ b, fmtF D.view.1.x ++ ',' :: (fmtF D.view.1.y ++ ',' :: (fmtF D.view.2.1 ++ ',' :: (fmtF D.view.2.2 ++ b))) =
      (fmtF D.view.1.x ++ ',' :: (fmtF D.view.1.y ++ ',' :: (fmtF D.view.2.1 ++ ',' :: fmtF D.view.2.2))) ++ b := by simp
  unfold headTag
  rw [e0, e1, e2, e3, e4, e5, e6, e7]
  simp only [List.cons_append, List.nil_append]
  refine ⟨rfl, ?_, ?_, ?_⟩
  · repeat first | rw [attr_value _ _ _ (by decide) (num_value _)] | rw [attr_ne _ _ _ (by decide)] | rw [attr_sp _ _ _ _ (by decide)] | rw [attr_sp2 _ _ _ _ _ _ (by decide)]
    rw [hr]
    exact attr_here ['v', 'i', 'e', 'w', 'B', 'o', 'x'] _ _ (fun c hc => (hv c hc).1)
  · repeat first | rw [attr_value _ _ _ (by decide) (num_value _)] | rw [attr_ne _ _ _ (by decide)] | rw [attr_sp _ _ _ _ (by decide)] | rw [attr_sp2 _ _ _ _ _ _ (by decide)]
    rw [hr, attr_value _ _ _ (by decide) hv, attr_ne _ _ _ (by decide)]
    exact attr_here ['w', 'i', 'd', 't', 'h'] _ _ (q _)
  · repeat first | rw [attr_value _ _ _ (by decide) (num_value _)] | rw [attr_ne _ _ _ (by decide)] | rw [attr_sp _ _ _ _ (by decide)] | rw [attr_sp2 _ _ _ _ _ _ (by decide)]
    rw [hr, attr_value _ _ _ (by decide) hv]
    repeat first | rw [attr_value _ _ _ (by decide) (num_value _)] | rw [attr_ne _ _ _ (by decide)] | rw [attr_sp _ _ _ _ (by decide)]
    exact attr_here ['h', 'e', 'i', 'g', 'h', 't'] _ _ (q _)

/-! ## the data of a path, read by `make_path` -/

/-- The command of the text syntax. -/
def Cmd.sixthT : Cmd Dbl → TCmd ℚ
  | .moveto p => .m (sixthPt p)
  | .lineto p => .l (sixthPt p)
  | .cubicto a b p => .c (sixthPt a) (sixthPt b) (sixthPt p)

theorem lower_num (x : Dbl) : (fmtF x).map Char.toLower = fmtF x := by
  have h : ∀ c ∈ numChars, Char.toLower c = c := by decide
  rw [List.map_congr_left (g := id) (fun c hc => h c (fmtF_chars x c hc)), List.map_id]

theorem lower_point (p : Vec2 Dbl) : (fmtPoint p).map Char.toLower = fmtPoint p := by
  unfold fmtPoint
  rw [List.map_append, List.map_cons, lower_num, lower_num]
  rfl

theorem pointAt_first {p : Vec2 Dbl} (h : FinitePt p) (rest : List Char) (hr : ∀ c t, rest = c :: t → c.isDigit = false ∧ c ≠ 'e' ∧ c ≠ 'E') :
    PointAt decLex (fmtPoint p ++ rest) (sixthPt p) rest := by
  have ws : IsWs [' '] := by intro c hc; rw [List.mem_singleton] at hc; subst hc; decide
  have h1 : NumAt decLex ([] ++ (fmtF p.x ++ (' ' :: (fmtF p.y ++ rest)))) (River.sixth p.x) (' ' :: (fmtF p.y ++ rest)) :=
    .mk _ _ _ _ (by intro c hc; cases hc) (fmtF_head h.1 _) (lex_fmtF h.1 _ (sp_rest _))
  have h2 : NumAt decLex ([' '] ++ (fmtF p.y ++ rest)) (River.sixth p.y) rest := .mk _ _ _ _ ws (fmtF_head h.2 _) (lex_fmtF h.2 _ hr)
  have := PointAt.mk _ _ _ _ _ h1 h2
  simpa [fmtPoint, sixthPt] using this

theorem cmdAt_str (w : List Char) (hw : IsWs w) (c : Cmd Dbl) (h : ∀ p ∈ c.points, FinitePt p) (rest : List Char) :
    CmdAt decLex (w ++ (c.svg.str.map Char.toLower ++ rest)) c.sixthT (' ' :: rest) := by
  cases c with
  | moveto p =>
    have := CmdAt.m w _ _ _ hw (pointAt_first (h p (by simp [Cmd.points])) (' ' :: rest) (sp_rest _))
    simpa [Cmd.svg, SvgTok.str, Cmd.sixthT, lower_point] using this
  | lineto p =>
    have := CmdAt.l w _ _ _ hw (pointAt_first (h p (by simp [Cmd.points])) (' ' :: rest) (sp_rest _))
    simpa [Cmd.svg, SvgTok.str, Cmd.sixthT, lower_point] using this
  | cubicto a b p =>
    have ha := h a (by simp [Cmd.points])
    have hb := h b (by simp [Cmd.points])
    have hp := h p (by simp [Cmd.points])
    have p3 := pointAt_fmt hp.1 hp.2 (' ' :: rest) (sp_rest _)
    have p2 := pointAt_fmt hb.1 hb.2 (' ' :: (fmtPoint p ++ ' ' :: rest)) (sp_rest _)
    have p1 := pointAt_first ha (' ' :: (fmtPoint b ++ ' ' :: (fmtPoint p ++ ' ' :: rest))) (sp_rest _)
    have := CmdAt.c w _ _ _ _ _ _ _ hw p1 p2 p3
    simpa [Cmd.svg, SvgTok.str, Cmd.sixthT, lower_point] using this

theorem cmdsAt_str (body : List (Cmd Dbl)) (h : ∀ c ∈ body, ∀ p ∈ c.points, FinitePt p) (tail : List Char) :
    CmdsAt decLex (' ' :: (((body.map Cmd.svg).flatMap SvgTok.str).map Char.toLower ++ tail)) (body.map Cmd.sixthT) (' ' :: tail) := by
  induction body with
  | nil => exact .nil _
  | cons c body ih =>
    have ws : IsWs [' '] := by intro c hc; rw [List.mem_singleton] at hc; subst hc; decide
    refine .cons _ _ _ _ _ ?_ (ih (fun d hd => h d (by simp [hd])))
    have := cmdAt_str [' '] ws c (h c (by simp)) (((body.map Cmd.svg).flatMap SvgTok.str).map Char.toLower ++ tail)
    simpa using this

theorem groups_one (p : Vec2 ℚ) (body : List (Cmd ℚ)) (h : ∀ c ∈ body, ∀ q, c ≠ .moveto q) : groups (.moveto p :: body) = [.moveto p :: body] := by
  have : body = [] ∨ ∃ c g, body = c :: g ∧ groups body = [body] := by
    induction body with
    | nil => exact .inl rfl
    | cons c body ih =>
      refine .inr ⟨c, body, rfl, ?_⟩
      unfold groups
      rcases ih (fun d hd => h d (by simp [hd])) with rfl | ⟨d, g, hb, hg⟩
      · rfl
      · rw [hg, hb]
        cases d with
        | moveto q => exact absurd rfl (h (.moveto q) (by simp [hb]) q)
        | lineto q => rfl
        | cubicto a b q => rfl
  unfold groups
  rcases this with rfl | ⟨d, g, hb, hg⟩
  · rfl
  · rw [hg, hb]
    cases d with
    | moveto q => exact absurd rfl (h (.moveto q) (by simp [hb]) q)
    | lineto q => rfl
    | cubicto a b q => rfl

/-- The data of a contour, closed or not, is read as the contour with six decimals. -/
theorem readData_str (d : Drawn Dbl) (hok : d.Ok) (hfin : ∀ p ∈ d.points, FinitePt p) (z : List (SvgTok Dbl)) (hz : z = [] ∨ z = [.z]) :
    readData ((d.text ++ z).flatMap SvgTok.str) = some [Path.build (d.cmds.map Cmd.sixth)] := by
  have hb : ∀ c ∈ d.cmds, ∀ p ∈ c.points, FinitePt p := fun c hc p hp => hfin p (List.mem_flatMap.2 ⟨c, hc, hp⟩)
  obtain ⟨tail, ht, hstop⟩ : ∃ tail, (z.flatMap SvgTok.str).map Char.toLower = tail ∧ pCmd decLex (' ' :: tail) = none := by
    rcases hz with rfl | rfl
    · exact ⟨[], rfl, rfl⟩
    · exact ⟨[' ', 'z', ' '], by decide, rfl⟩
  have h0 := cmdAt_str [] (by intro c hc; cases hc) (.moveto d.start) (hb _ (by simp [Drawn.cmds]))
    (((d.body.map Cmd.svg).flatMap SvgTok.str).map Char.toLower ++ tail)
  have h1 := cmdsAt_str d.body (fun c hc => hb c (by simp [Drawn.cmds, hc])) tail
  have key := makePath_of_cmdsAt decLex _ _ _ (.cons _ _ _ _ _ h0 h1) (by
    intro c r hc
    have := (pCmd_iff decLex _ _ _).2 hc
    rw [hstop] at this
    cases this)
  have htext : ((d.text ++ z).flatMap SvgTok.str).map Char.toLower =
      [] ++ ((Cmd.moveto d.start).svg.str.map Char.toLower ++ (((d.body.map Cmd.svg).flatMap SvgTok.str).map Char.toLower ++ tail)) := by
    rw [← ht]
    simp [Drawn.text, Drawn.cmds]
  unfold readData
  rw [htext, key]
  have hf : ∀ l : List (Cmd Dbl), (l.map Cmd.sixthT).filterMap TCmd.toCmd = l.map Cmd.sixth := by
    intro l
    induction l with
    | nil => rfl
    | cons c l ih => cases c <;> simp [Cmd.sixthT, Cmd.sixth, TCmd.toCmd, ih]
  have hc : ((Cmd.moveto d.start).sixthT :: d.body.map Cmd.sixthT).filterMap TCmd.toCmd = .moveto (sixthPt d.start) :: d.body.map Cmd.sixth := by
    rw [← hf]; rfl
  rw [hc, if_pos (show startsWithMove (Cmd.moveto (sixthPt d.start) :: d.body.map Cmd.sixth) = true from rfl), groups_one]
  · rfl
  · intro c hc q he
    obtain ⟨c', hc', rfl⟩ := List.mem_map.1 hc
    cases c' with
    | moveto q' => exact hok _ hc' q' rfl
    | lineto q' => cases he
    | cubicto a b q' => cases he

/-! ## the whole file -/

theorem zip_closeOff {β : Type} (F : List (SvgTok Dbl) × SvgKind → β) (G : SvgKind × Drawn Dbl → β) (L : List (SvgKind × Drawn Dbl))
    (h : ∀ x ∈ L, ∀ z, z = [] ∨ z = [SvgTok.z] → F (x.2.text ++ z, x.1) = G x) :
    ((closeOff (L.map (fun x => x.2.text))).zip (L.map Prod.fst)).map F = L.map G := by
  induction L with
  | nil => rfl
  | cons x L ih =>
    cases L with
    | nil =>
      have := h x (by simp) [] (.inl rfl)
      rw [List.append_nil] at this
      simp only [List.map_cons, List.map_nil, closeOff, List.zip_cons_cons, List.zip_nil_right, this]
    | cons y L =>
      have ih := ih (fun a ha => h a (by simp [ha]))
      have := h x (by simp) [.z] (.inr rfl)
      simp only [List.map_cons, closeOff, List.zip_cons_cons] at ih ⊢
      rw [ih, this]

/-- **C94**: the text of a drawing that shows the contours `L` is a document that shows them. -/
theorem svg_text (D : Drawing Dbl) (L : List (SvgKind × Drawn Dbl)) (hS : D.Shows L) (hok : ∀ x ∈ L, x.2.Ok)
    (hfin : ∀ x ∈ L, ∀ p ∈ x.2.points, FinitePt p) : SvgDoc D.str D L := by
  refine ⟨headTag D, groupTag D, D.figs.map figTag, D.marks.map markTag, D.hints.map hintTag, tags_str D, (headTag_attr D).1, (groupTag_attr D).1,
    ?_, ?_, ?_, (headTag_attr D).2.1, (headTag_attr D).2.2.1, (headTag_attr D).2.2.2, ⟨" stroke-width=\"".toList ++ (fmtF D.stroke ++ "\"".toList), ?_⟩, (groupTag_attr D).2, ?_, ?_, ?_⟩
  · intro t ht
    obtain ⟨f, _, rfl⟩ := List.mem_map.1 ht
    exact (figTag_attr f).1
  · intro t ht
    obtain ⟨f, _, rfl⟩ := List.mem_map.1 ht
    exact (markTag_attr f).1
  · intro t ht
    obtain ⟨f, _, rfl⟩ := List.mem_map.1 ht
    exact (hintTag_attr f).1
  · have e : ") \" stroke-width=\"".toList = ") \"".toList ++ " stroke-width=\"".toList := by decide
    unfold groupTag
    rw [e]
    simp only [List.append_assoc]
  · rw [List.map_map, hS.figs]
    refine zip_closeOff _ _ L ?_
    intro x hx z hz
    obtain ⟨-, a1, a2, a3⟩ := figTag_attr (x.2.text ++ z, x.1)
    simp only [Function.comp, a1, a2, a3, Option.bind_some]
    rw [readData_str x.2 (hok x hx) (hfin x hx) z hz]
  · rw [List.map_map]
    refine List.map_congr_left ?_
    intro m _
    obtain ⟨-, a1, a2, a3, a4, -⟩ := markTag_attr m
    simp only [Function.comp, a1, a2, a3, a4]
  · rw [List.map_map]
    refine List.map_congr_left ?_
    intro m _
    obtain ⟨-, a1, a2, a3, a4⟩ := hintTag_attr m
    simp only [Function.comp, a1, a2, a3, a4]

end River
