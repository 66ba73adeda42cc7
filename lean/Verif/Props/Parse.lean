import Verif.Model.Text
import Verif.Spec.Decode
import Verif.Proofs.Dispatch
import Verif.Props.Config
import Verif.Props.Preprocess
/-!
# Parsing (C22-C25, C48)
-/
namespace Verif.Props
open Verif Spec

/-! ## C48: number literals -/

/-- **C48** A word is taken for a number exactly if it is a number literal of the grammar `IsNumber`. -/
theorem C48_numbers (w : Str) : isNumber w = true ↔ IsNumber w := isNumber_iff w

/-- **C48** Only number literals become number tokens when a text is split, and they are stored in lower case. -/
theorem C48_number_tokens (u : Ucd) (hu : u.Laws) (w v : Str) :
    toParsedToken u w = .ok (.number v) ↔ IsNumber w ∧ v = w.map asciiToLower := by
  have low : IsNumber w → mkNumber u w = .number (w.map asciiToLower) := fun h => by
    rw [mkNumber, hu.toLower_ascii]
    exact List.all_eq_true.mpr (isNumber_ascii h).2
  unfold toParsedToken
  by_cases h1 : w = ['\n']
  · subst h1
    have : ¬ IsNumber ['\n'] := by rw [← isNumber_iff]; decide
    simp [this]
  rw [if_neg h1]
  by_cases h2 : w = ['\t']
  · subst h2
    have : ¬ IsNumber ['\t'] := by rw [← isNumber_iff]; decide
    simp [this]
  rw [if_neg h2]
  by_cases h3 : isNumber w = true
  · rw [if_pos h3]
    have hn := (isNumber_iff w).mp h3
    rw [low hn]
    simp [hn, eq_comm]
  · rw [if_neg h3]
    have hn : ¬ IsNumber w := fun h => h3 ((isNumber_iff w).mpr h)
    simp only [hn, false_and, iff_false]
    split
    · obtain ⟨subs, h⟩ := splitIdentifier_ok hu w
      rw [h]
      cases isNonEng w <;> simp
    · simp

-- the doctests of `is_number`
example : IsNumber "0x8AbCc006EfBd".toList ∧ IsNumber "23424.E-30F".toList ∧ IsNumber "0b0011L".toList ∧
    IsNumber ".002e-0f".toList ∧ IsNumber "353535.".toList ∧ IsNumber "1_000".toList ∧
    ¬ IsNumber "-5".toList ∧ ¬ IsNumber "0xG12".toList ∧ ¬ IsNumber "1_".toList ∧ ¬ IsNumber ".".toList := by
  simp only [← isNumber_iff]
  decide +kernel

/-! ## C23: identifiers -/

/-- **C23** The pieces of an identifier are the ones the specification `IdentSplit` describes, and no others. -/
theorem C23_identifier_pieces (u : Ucd) (hu : u.Laws) (s : Str) (ps : List Str) :
    IdentSplit u s ps ↔ identParts u s = ps := identSplit_iff hu s ps

/-- **C23** The specification describes the pieces of every text, and describes them uniquely. -/
theorem C23_spec_unique (u : Ucd) (hu : u.Laws) (s : Str) : ∃ ps, IdentSplit u s ps ∧ ∀ qs, IdentSplit u s qs → qs = ps := by
  refine ⟨identParts u s, (identSplit_iff hu s _).mpr rfl, fun qs h => ?_⟩
  exact ((identSplit_iff hu s qs).mp h).symm

/-- **C23** Nothing is lost: the pieces are not empty and an identifier without spaces is their concatenation. -/
theorem C23_lossless (u : Ucd) (hu : u.Laws) (s : Str) (hs : ' ' ∉ s) :
    (identParts u s).flatten = s ∧ ∀ p ∈ identParts u s, p ≠ [] := by
  have h := (identSplit_iff hu s _).mpr rfl
  exact ⟨identSplit_flatten h hs, identSplit_ne_nil h⟩

/-- **C23** Every piece has one of the five forms. -/
theorem C23_forms (u : Ucd) (hu : u.Laws) (s p : Str) (hp : p ∈ identParts u s) :
    p = ['_'] ∨ (∀ c ∈ p, asciiDigit c = true) ∨
    (∃ a l, p = a ++ l ∧ (a = [] ∨ ∃ c, a = [c] ∧ u.reUpper c = true) ∧ l ≠ [] ∧ ∀ c ∈ l, u.reLower c = true) ∨
    (∀ c ∈ p, u.reUpper c = true) ∨
    (∃ c, p = [c] ∧ u.reUpper c = false ∧ u.reLower c = false ∧ asciiDigit c = false) := by
  have h := (identSplit_iff hu s _).mpr rfl
  generalize identParts u s = ps at h hp
  induction h with
  | nil => simp at hp
  | space _ ih => exact ih hp
  | underscore _ ih =>
    rcases List.mem_cons.mp hp with rfl | hp
    · exact .inl rfl
    · exact ih hp
  | digits _ hall _ _ ih =>
    rcases List.mem_cons.mp hp with rfl | hp
    · exact .inr (.inl hall)
    · exact ih hp
  | @lower l _ _ hl hall _ _ ih =>
    rcases List.mem_cons.mp hp with rfl | hp
    · exact .inr (.inr (.inl ⟨[], _, rfl, .inl rfl, hl, hall⟩))
    · exact ih hp
  | @capitalised c l _ _ hc hl hall _ _ ih =>
    rcases List.mem_cons.mp hp with rfl | hp
    · exact .inr (.inr (.inl ⟨[c], l, rfl, .inr ⟨c, rfl, hc⟩, hl, hall⟩))
    · exact ih hp
  | capitals _ hall _ _ _ ih =>
    rcases List.mem_cons.mp hp with rfl | hp
    · exact .inr (.inr (.inr (.inl hall)))
    · exact ih hp
  | @other c _ _ _ _ h3 h4 h5 _ ih =>
    rcases List.mem_cons.mp hp with rfl | hp
    · exact .inr (.inr (.inr (.inr ⟨c, rfl, h4, h5, h3⟩)))
    · exact ih hp

example : identParts asciiUcd "myXMLParser2_v10B".toList =
    ["my".toList, "XML".toList, "Parser".toList, "2".toList, "_".toList, "v".toList, "10".toList, "B".toList] := by
  decide +kernel

/-- **C23** The token made from an identifier of ASCII characters consists of these pieces. -/
theorem C23_token (u : Ucd) (hu : u.Laws) (s : Str) (hs : ' ' ∉ s) (ha : ∀ c ∈ s, isAscii c = true) :
    ∃ subs, splitIdentifier u s = .ok (.split subs) ∧ IdentSplit u s (subs.map (Subtok.str u)) := by
  obtain ⟨ps, ws, h1, h2, h3, _⟩ := splitIdentifier_ascii hu ha hs
  exact ⟨ws, h3, by rw [h2.strs hu]; exact h1⟩

/-- **C23** Identifiers with a non-ASCII character become `NonEng` tokens, all others do not. -/
theorem C23_non_english (u : Ucd) (hu : u.Laws) (s : Str) :
    ((∃ c ∈ s, 128 ≤ c.toNat) → ∃ subs, splitIdentifier u s = .ok (.nonEng subs)) ∧
    ((∀ c ∈ s, c.toNat < 128) → ∃ subs, splitIdentifier u s = .ok (.split subs)) := by
  obtain ⟨subs, h⟩ := splitIdentifier_ok hu s
  constructor
  · rintro ⟨c, hc, hn⟩
    have : isNonEng s = true := by
      simp only [isNonEng, Bool.not_eq_true', List.all_eq_false]
      exact ⟨c, hc, by simp [isAscii]; omega⟩
    exact ⟨subs, by rw [h, this]; rfl⟩
  · intro ha
    have : isNonEng s = false := by
      simp only [isNonEng, Bool.not_eq_false', List.all_eq_true]
      intro c hc
      simp [isAscii, ha c hc]
    exact ⟨subs, by rw [h, this]; rfl⟩

/-! ## C24: texts -/

/-- **C24** A text is cut into the pieces that `TextSplit` describes; there is one token per piece, and the token shows the
piece (number literals in lower case, four spaces as a tab). -/
theorem C24_words (u : Ucd) (hu : u.Laws) (s : Str) (ha : AsciiWords u s) :
    ∃ ps ts, TextSplit u s ps ∧ (∀ qs, TextSplit u s qs → qs = ps) ∧ splitIntoWords u s = .ok ts ∧
      ts.map (Tok.str u) = ps.map shownText := by
  obtain ⟨ps, hps⟩ := textSplit_total u s.length s (Nat.le_refl _)
  obtain ⟨ts, h1, h2⟩ := wordPiece_str hu hps ha
  have he := (textSplit_iff hu s ps).mp hps
  refine ⟨ps, ts, hps, fun qs hq => ?_, ?_, h2⟩
  · rw [← (textSplit_iff hu s qs).mp hq, he]
  · rw [splitIntoWords, he, h1]

/-- **C24** The same for string literals (spaces as non-breaking spaces). -/
theorem C24_literals (u : Ucd) (hu : u.Laws) (s : Str) (ha : AsciiWords u s) :
    ∃ ps ts, LiteralSplit u s ps ∧ (∀ qs, LiteralSplit u s qs → qs = ps) ∧ splitString u s = .ok ts ∧
      ts.map (Tok.str u) = ps.map shownLiteral := by
  obtain ⟨ps, hps⟩ := literalSplit_total u s.length s (Nat.le_refl _)
  obtain ⟨ts, h1, h2⟩ := stringPiece_str hu hps ha
  have he := (literalSplit_iff hu s ps).mp hps
  refine ⟨ps, ts, hps, fun qs hq => ?_, ?_, h2⟩
  · rw [← (literalSplit_iff hu s qs).mp hq, he]
  · rw [splitString, he, h1]

theorem expandTabs_cons {c : Char} (h : c ≠ ' ') (r : Str) : expandTabs (c :: r) = c :: expandTabs r := by
  rw [expandTabs]
  · exact fun _ e => absurd e h
  · exact h

theorem expandTabs_space {r : Str} (h : ∀ t, r ≠ ' ' :: ' ' :: ' ' :: t) : expandTabs (' ' :: r) = expandTabs r := by
  rw [expandTabs]
  intro r' hr
  exact h r' hr

theorem expandTabs_append {w : Str} (h : ' ' ∉ w) (r : Str) : expandTabs (w ++ r) = w ++ expandTabs r := by
  induction w with
  | nil => rfl
  | cons c w ih =>
    simp at h
    rw [List.cons_append, expandTabs_cons (fun e => h.1 e.symm), ih h.2]
    rfl

/-- The pieces of a text, joined, with tabs for groups of four spaces. -/
theorem textSplit_expandTabs {u : Ucd} (hu : u.Laws) {s : Str} {ps : List Str} (h : TextSplit u s ps) :
    (ps.map fun p => if p = [' ', ' ', ' ', ' '] then ['\t'] else p).flatten = expandTabs s := by
  induction h with
  | nil => rfl
  | @word w r ps hw hall _ _ ih =>
    have hs : ' ' ∉ w := by
      intro hsp
      have := hall ' ' hsp
      rw [reWord_space hu] at this
      exact absurd this (by simp)
    rw [List.map_cons, List.flatten_cons, ih, expandTabs_append hs, if_neg]
    rintro rfl; simp at hs
  | @char c r ps h1 _ _ ih =>
    rw [List.map_cons, List.flatten_cons, ih, expandTabs_cons h1, if_neg (by simp)]
    rfl
  | @fourSpaces r ps _ ih =>
    rw [List.map_cons, List.flatten_cons, ih, expandTabs]
    rfl
  | @space r ps h1 _ ih => rw [ih, expandTabs_space h1]

theorem literalSplit_flatten {u : Ucd} {s : Str} {ps : List Str} (h : LiteralSplit u s ps) : ps.flatten = s := by
  induction h with
  | nil => rfl
  | word _ _ _ _ ih => rw [List.flatten_cons, ih]
  | char _ _ _ ih => rw [List.flatten_cons, ih]; rfl
  | spaces _ _ ih => rw [List.flatten_cons, ih]

theorem lowerNumber_lower (p : Str) : (lowerNumber p).map asciiToLower = p.map asciiToLower := by
  unfold lowerNumber
  split
  · rw [List.map_map]
    exact List.map_congr_left fun c _ => asciiToLower_idem c
  · rfl

theorem map_flatten_congr {α β : Type} {f g : α → List Char} {h : Char → β} {l : List α}
    (e : ∀ a ∈ l, (f a).map h = (g a).map h) : ((l.map f).flatten).map h = ((l.map g).flatten).map h := by
  induction l with
  | nil => rfl
  | cons a r ih =>
    rw [List.map_cons, List.map_cons, List.flatten_cons, List.flatten_cons, List.map_append, List.map_append,
      e a (by simp), ih fun a ha => e a (by simp [ha])]

/-- **C24** Apart from the case of letters, the tokens of a text show exactly the text with every group of four spaces in a
run written as a tab and all other spaces removed. -/
theorem C24_text_up_to_case (u : Ucd) (hu : u.Laws) (s : Str) (ha : AsciiWords u s) :
    ∃ ts, splitIntoWords u s = .ok ts ∧
      (ts.map (Tok.str u)).flatten.map asciiToLower = (expandTabs s).map asciiToLower := by
  obtain ⟨ps, ts, h1, _, h2, h3⟩ := C24_words u hu s ha
  refine ⟨ts, h2, ?_⟩
  rw [h3, ← textSplit_expandTabs hu h1]
  refine map_flatten_congr fun p _ => ?_
  unfold shownText
  split
  · rfl
  · exact lowerNumber_lower p

theorem nbsp_flatten (l : List Str) : nbsp l.flatten = (l.map nbsp).flatten := by
  unfold nbsp
  rw [List.map_flatten]

theorem asciiToLower_eq_space {c : Char} : asciiToLower c = ' ' ↔ c = ' ' := by
  constructor
  · intro e
    by_cases hu : asciiUpper c = true
    · have := asciiToLower_lower hu
      rw [e] at this
      exact absurd this (by decide)
    · rwa [asciiToLower_id (by simpa using hu)] at e
  · rintro rfl; rfl

theorem nbsp_lower (p : Str) : (nbsp p).map asciiToLower = nbsp (p.map asciiToLower) := by
  unfold nbsp
  rw [List.map_map, List.map_map]
  refine List.map_congr_left fun c _ => ?_
  simp only [Function.comp]
  by_cases h : c = ' '
  · subst h; rfl
  · rw [if_neg h, if_neg (fun e => h (asciiToLower_eq_space.mp e))]

/-- **C24** Apart from the case of letters, the tokens of a string literal show exactly the literal. -/
theorem C24_literal_up_to_case (u : Ucd) (hu : u.Laws) (s : Str) (ha : AsciiWords u s) :
    ∃ ts, splitString u s = .ok ts ∧ (ts.map (Tok.str u)).flatten.map asciiToLower = (nbsp s).map asciiToLower := by
  obtain ⟨ps, ts, h1, _, h2, h3⟩ := C24_literals u hu s ha
  refine ⟨ts, h2, ?_⟩
  rw [h3, ← literalSplit_flatten h1, nbsp_flatten]
  refine map_flatten_congr fun p _ => ?_
  unfold shownLiteral
  rw [nbsp_lower, nbsp_lower, lowerNumber_lower]

/-- If number literals are in lower case, no piece of the text is changed. -/
theorem textSplit_numbers {u : Ucd} (hu : u.Laws) {s : Str} {ps : List Str} (h : TextSplit u s ps) :
    ∀ a : Str, (∀ c, a.getLast? = some c → u.reWord c = false) ∨ NotStarting u.reWord s → NoCapitalNumbers u (a ++ s) →
      ∀ p ∈ ps, lowerNumber p = p := by
  have single : ∀ c, u.reWord c = false → lowerNumber [c] = [c] := by
    intro c hc
    unfold lowerNumber
    split
    · rename_i hn
      have ha := (isNumber_ascii hn).2 c (by simp)
      rw [hu.reWord_ascii c ha] at hc
      simp only [Bool.or_eq_false_iff] at hc
      rw [List.map_singleton, asciiToLower_id hc.1.1.1]
    · rfl
  induction h with
  | nil => simp
  | @word w r ps hw hall hns hr ih =>
    intro a hlast hno p hp
    have hlast' : ∀ c, a.getLast? = some c → u.reWord c = false := by
      rcases hlast with h | h
      · exact h
      · cases w with
        | nil => exact absurd rfl hw
        | cons c w =>
          have h1 := h c rfl
          rw [hall c (by simp)] at h1
          exact absurd h1 (by simp)
    rcases List.mem_cons.mp hp with rfl | hp
    · unfold lowerNumber
      split
      · rename_i hn
        exact map_toLower_id (hno a p r rfl hall hns hlast' hn)
      · rfl
    · exact ih (a ++ w) (.inr hns) (by simpa using hno) p hp
  | @char c r ps h1 h2 _ ih =>
    intro a _ hno p hp
    rcases List.mem_cons.mp hp with rfl | hp
    · exact single c h2
    · exact ih (a ++ [c]) (.inl (by intro d hd; simp at hd; subst hd; exact h2)) (by simpa using hno) p hp
  | @fourSpaces r ps _ ih =>
    intro a _ hno p hp
    rcases List.mem_cons.mp hp with rfl | hp
    · rw [lowerNumber_not]; decide
    · refine ih (a ++ [' ', ' ', ' ', ' ']) (.inl ?_) (by simpa using hno) p hp
      intro d hd
      simp at hd
      subst hd
      exact reWord_space hu
  | @space r ps _ _ ih =>
    intro a _ hno p hp
    refine ih (a ++ [' ']) (.inl ?_) (by simpa using hno) p hp
    intro d hd
    simp at hd
    subst hd
    exact reWord_space hu

theorem literalSplit_numbers {u : Ucd} (hu : u.Laws) {s : Str} {ps : List Str} (h : LiteralSplit u s ps) :
    ∀ a : Str, (∀ c, a.getLast? = some c → u.reWord c = false) ∨ NotStarting u.reWord s → NoCapitalNumbers u (a ++ s) →
      ∀ p ∈ ps, lowerNumber p = p := by
  have single : ∀ c, u.reWord c = false → lowerNumber [c] = [c] := by
    intro c hc
    unfold lowerNumber
    split
    · rename_i hn
      have ha := (isNumber_ascii hn).2 c (by simp)
      rw [hu.reWord_ascii c ha] at hc
      simp only [Bool.or_eq_false_iff] at hc
      rw [List.map_singleton, asciiToLower_id hc.1.1.1]
    · rfl
  induction h with
  | nil => simp
  | @word w r ps hw hall hns hr ih =>
    intro a hlast hno p hp
    have hlast' : ∀ c, a.getLast? = some c → u.reWord c = false := by
      rcases hlast with h | h
      · exact h
      · cases w with
        | nil => exact absurd rfl hw
        | cons c w =>
          have h1 := h c rfl
          rw [hall c (by simp)] at h1
          exact absurd h1 (by simp)
    rcases List.mem_cons.mp hp with rfl | hp
    · unfold lowerNumber
      split
      · rename_i hn
        exact map_toLower_id (hno a p r rfl hall hns hlast' hn)
      · rfl
    · exact ih (a ++ w) (.inr hns) (by simpa using hno) p hp
  | @char c r ps h1 h2 _ ih =>
    intro a _ hno p hp
    rcases List.mem_cons.mp hp with rfl | hp
    · exact single c h2
    · exact ih (a ++ [c]) (.inl (by intro d hd; simp at hd; subst hd; exact h2)) (by simpa using hno) p hp
  | @spaces n r ps _ _ ih =>
    intro a _ hno p hp
    rcases List.mem_cons.mp hp with rfl | hp
    · unfold lowerNumber
      rw [if_neg]
      intro hn
      exact isNumber_noSpace hn (by simp)
    · refine ih (a ++ List.replicate (n + 1) ' ') (.inl ?_) (by simpa using hno) p hp
      intro d hd
      have : d ∈ List.replicate (n + 1) ' ' := by
        rw [List.getLast?_append] at hd
        have hl : (List.replicate (n + 1) ' ').getLast? = some ' ' := by simp [List.getLast?_replicate]
        rw [hl] at hd
        simp at hd
        simp [hd.symm]
      rw [List.mem_replicate] at this
      rw [this.2]
      exact reWord_space hu

/-- **C24 (partial)** The tokens of a text show exactly the text, with every group of four spaces in a run written as a tab
and all other spaces removed.  Missing: this is not so if a number literal in the text contains a capital letter, which
then becomes a small letter (`C24_violated`), and it is only proved for texts whose word characters are ASCII. -/
theorem C24_text_partial (u : Ucd) (hu : u.Laws) (s : Str) (ha : AsciiWords u s) (hn : NoCapitalNumbers u s) :
    ∃ ts, splitIntoWords u s = .ok ts ∧ (ts.map (Tok.str u)).flatten = expandTabs s := by
  obtain ⟨ps, ts, h1, _, h2, h3⟩ := C24_words u hu s ha
  refine ⟨ts, h2, ?_⟩
  rw [h3, ← textSplit_expandTabs hu h1]
  congr 1
  refine List.map_congr_left fun p hp => ?_
  unfold shownText
  rw [textSplit_numbers hu h1 [] (.inl (by simp)) hn p hp]

/-- **C24 (partial)** The tokens of a string literal show exactly the literal.  Missing: as for `C24_text_partial`. -/
theorem C24_literal_partial (u : Ucd) (hu : u.Laws) (s : Str) (ha : AsciiWords u s) (hn : NoCapitalNumbers u s) :
    ∃ ts, splitString u s = .ok ts ∧ (ts.map (Tok.str u)).flatten = nbsp s := by
  obtain ⟨ps, ts, h1, _, h2, h3⟩ := C24_literals u hu s ha
  refine ⟨ts, h2, ?_⟩
  rw [h3, ← literalSplit_flatten h1, nbsp_flatten]
  congr 1
  refine List.map_congr_left fun p hp => ?_
  unfold shownLiteral
  rw [literalSplit_numbers hu h1 [] (.inl (by simp)) hn p hp]

/-- **C24 is violated**: a capital letter in a number literal is not kept. -/
theorem C24_violated : ∃ ts, splitIntoWords asciiUcd "x = 0xFF".toList = .ok ts ∧
    (ts.map (Tok.str asciiUcd)).flatten = "x=0xff".toList ∧ expandTabs "x = 0xFF".toList = "x=0xFF".toList := by
  refine ⟨[.split [.word ['x'] .none], .nonCodeChar ['='], .number "0xff".toList], ?_, by decide +kernel, by decide +kernel⟩
  rfl

-- the doctests of `split_into_words` and `split_string`
example : splitIntoWords asciiUcd "    var = 9.4\t\n".toList = .ok
    [.tab, .split [.word "var".toList .none], .nonCodeChar ['='], .number ['9'], .nonCodeChar ['.'], .number ['4'], .tab,
      .newLine] := rfl

example : splitString asciiUcd "    var = 9.4\t\n".toList = .ok
    [.spaceInString 4, .split [.word "var".toList .none], .spaceInString 1, .nonCodeChar ['='], .spaceInString 1,
      .number ['9'], .nonCodeChar ['.'], .number ['4'], .tab, .newLine] := rfl

-- the hypotheses hold for a text with spaces, words and a number
example : AsciiWords asciiUcd "        int x = 10;".toList := by
  unfold AsciiWords; decide +kernel

/-! ## C25: parsing does not fail -/

/-- **C25** Whatever the lexer delivers is converted without an exception. -/
theorem C25_total (u : Ucd) (hu : u.Laws) (l : List (TokType × Str)) : ∃ ts, convertText u l = .ok ts :=
  (convertText_parsed hu l).imp fun _ h => h.1

/-- **C25** Newlines and tabs keep their meaning, other white space becomes one tab per four characters, and everything else
is treated according to its type. -/
theorem C25_responsible (u : Ucd) (ty : TokType) (v : Str) :
    convert u ty v =
      if v = "\n".toList then .ok [.newLine]
      else if v = "\t".toList then .ok [.tab]
      else if u.isBlank v then .ok (List.replicate (v.length / 4) .tab)
      else tokensOf u v (kindOf ty) := by
  split
  · rename_i h; subst h; rfl
  split
  · rename_i h; subst h; rfl
  split
  · exact convert_blank u ty v (by assumption) (by assumption) (by assumption)
  · rename_i hb
    exact convert_kind u ty v (by simpa using hb) (by assumption) (by assumption)

/-- **C25** The tokens of a text are the tokens of its lexer tokens, one after the other. -/
theorem C25_sequence (u : Ucd) (l r : List (TokType × Str)) (a b : List Tok) (ha : convertText u l = .ok a)
    (hb : convertText u r = .ok b) : convertText u (l ++ r) = .ok (a ++ b) := by
  induction l generalizing a with
  | nil => cases ha; simpa using hb
  | cons x l ih =>
    obtain ⟨ty, v⟩ := x
    simp only [convertText, List.cons_append, bind, Except.bind] at ha ⊢
    cases hc : convert u ty v with
    | error e => rw [hc] at ha; cases ha
    | ok ts =>
      cases hr : convertText u l with
      | error e => rw [hc, hr] at ha; cases ha
      | ok rs =>
        rw [hc, hr] at ha
        cases ha
        rw [ih rs hr]
        simp

theorem C25_single (u : Ucd) (ty : TokType) (v : Str) : convertText u [(ty, v)] = convert u ty v := by
  simp only [convertText, bind, Except.bind]
  cases convert u ty v <;> simp

example : convert asciiUcd ["Comment", "Single"] "// x1".toList = .ok [.oneLineComment [.nonCodeChar ['/'], .nonCodeChar ['/'],
    .split [.word ['x'] .none, .word ['1'] .undefined]]] ∧
  convert asciiUcd ["Comment", "Multiline"] "/*".toList = .ok [.multilineComment [.nonCodeChar ['/'], .nonCodeChar ['*']]] ∧
  convert asciiUcd ["Operator", "Word"] "in".toList = .ok [.split [.word "in".toList .none]] ∧
  convert asciiUcd ["Literal", "Number", "Hex"] "0XA".toList = .ok [.number "0xa".toList] := ⟨rfl, rfl, rfl, rfl⟩

/-- **C25** What parsing delivers meets the assumptions of the theorems about representation: numbers and words with
non-ASCII characters are not empty, and comments and string literals are not nested. -/
theorem C25_shape (u : Ucd) (hu : u.Laws) (l : List (TokType × Str)) (ts : List Tok) (h : convertText u l = .ok ts) :
    ∀ t ∈ ts, Everywhere NumberNonempty t ∧ Everywhere (NonEngNonempty u) t ∧ Everywhere NotNested t := by
  obtain ⟨ts', h1, h2⟩ := convertText_parsed hu l
  rw [h] at h1
  cases h1
  exact fun t ht => ⟨(h2 t ht).numberNonempty, (h2 t ht).nonEngNonempty, (h2 t ht).notNested⟩

/-- **C25** Preprocessing a text with `nosplit` or `basic` does not fail, whatever the options and the text; with `chars`
and `bpe` it does not fail if the BPE data can be loaded. -/
theorem C25_preprocess_total (env : Env) (hu : env.ucd.Laws) (load : Str → Except PyErr BpeData) (call : ApiCall)
    (lexed : List (TokType × Str)) (eof : Bool)
    (hl : ∀ i, apiBpeCodesId call = some i → i ≠ [] ∧ ∃ d, load i = .ok d ∧ CacheOk d) :
    ∃ out md, textApi env load call lexed eof = .ok (out, md) := by
  obtain ⟨v, hv, hvp⟩ := createStrValue_ok (optsOf call).noStr (optsOf call).maxStrLength
  have hc := (textConfig_eq call hv hvp).1
  have hcv := configOf_valid call hvp
  obtain ⟨ts, h1, h2⟩ := convertText_parsed hu lexed
  have fin : ∀ bd, SplittersOk (configOf call v) bd →
      ∃ out md, toRepr env (configOf call v) (finishParsed ts eof) bd = .ok (out, md) := by
    intro bd hbd
    obtain ⟨rc, hok, hr⟩ := toRepr_eq (env := env) hcv (finishParsed ts eof) bd
    obtain ⟨us, hus⟩ := unitsList_ok env.ucd hu (totalRc hcv hok hbd) false (finishParsed ts eof)
      (everywhereList_of fun t ht => (finishParsed_parsed h2 eof t ht).nonEngNonempty)
    rw [hr, hus]
    exact ⟨_, _, rfl⟩
  have hbpe : (configOf call v).isBpe = true → ∃ i, apiBpeCodesId call = some i := by
    cases call with
    | nosplit o fs => cases fs <;> simp [configOf, splitCode, PrepConfig.isBpe]
    | chars o => intro _; exact ⟨_, rfl⟩
    | basic o sn ro st nc => cases sn <;> cases ro <;> cases st <;> simp [configOf, splitCode, PrepConfig.isBpe]
    | bpe i o => intro _; exact ⟨_, rfl⟩
  unfold textApi
  rw [hc]
  simp only [bind, Except.bind]
  unfold preprocessText
  rw [h1]
  simp only [bind, Except.bind]
  by_cases hb : (configOf call v).isBpe = true
  · rw [if_pos hb]
    obtain ⟨i, hi⟩ := hbpe hb
    obtain ⟨hne, d, hd, hcd⟩ := hl i hi
    rw [hi]
    cases i with
    | nil => exact absurd rfl hne
    | cons ch r =>
      simp only [hd]
      exact fin (some d) fun _ => ⟨d, rfl, hcd⟩
  · rw [if_neg hb]
    exact fin none fun h => absurd h hb

/-- The condition is met by the options without BPE codes, and with empty BPE data. -/
example (o : CommonOpts) (fs : Bool) (load : Str → Except PyErr BpeData) :
    ∀ i, apiBpeCodesId (.nosplit o fs) = some i → i ≠ [] ∧ ∃ d, load i = .ok d ∧ CacheOk d := by
  intro i h; cases h

example (o : CommonOpts) : ∀ i, apiBpeCodesId (.chars o) = some i →
    i ≠ [] ∧ ∃ d, (Except.ok ⟨[], []⟩ : Except PyErr BpeData) = .ok d ∧ CacheOk d := by
  intro i h
  cases h
  exact ⟨by decide, _, rfl, fun w l h => by cases h⟩

end Verif.Props
