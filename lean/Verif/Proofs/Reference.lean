import Verif.Spec.Reference
import Verif.Props.Basic
import Verif.Props.Strings
/-!
# Parsed tokens and pieces
-/
namespace Verif.Props
open Verif Spec

/-! ## Writing pieces down -/

theorem spelled_within {u : Ucd} {m : Mode} {p : Piece} {l : List Str} (ty : Ty) (h : Spelled u m p l) :
    Spelled u m (p.within ty) l := by
  cases h
  case space => exact .space
  case fixed => exact .fixed
  case constant => exact .constant
  case quotes => exact .quotes
  case numberWhole => exact .numberWhole
  case wordWhole => exact .wordWhole
  case literalWhole => exact .literalWhole
  case numberBasic => exact .numberBasic
  case wordBasic h => exact .wordBasic h
  case numberBpe h => exact .numberBpe h
  case wordBpe h => exact .wordBpe h
  case literalBpe h => exact .literalBpe h

theorem spelledAll_append {u : Ucd} {m : Mode} {b : Bool} {ps qs : List Piece} {us vs : List FullTok}
    (h1 : SpelledAll u m b ps us) (h2 : SpelledAll u m b qs vs) : SpelledAll u m b (ps ++ qs) (us ++ vs) := by
  induction h1 with
  | nil => exact h2
  | skip hb hf _ ih => exact .skip hb hf ih
  | cons hb hs _ ih => exact .cons hb hs ih

theorem spelledAll_within {u : Ucd} {m : Mode} {b : Bool} {ps : List Piece} {us : List FullTok} (ty : Ty)
    (h : SpelledAll u m b ps us) : SpelledAll u m b (ps.map (Piece.within ty)) (retype ty us) := by
  induction h with
  | nil => exact .nil
  | skip hb hf _ ih => exact .skip hb hf ih
  | cons hb hs _ ih => exact .cons hb (spelled_within ty hs) ih

theorem spelledAll_one {u : Ucd} {m : Mode} {b : Bool} {p : Piece} {l : List Str} (hf : p.form ≠ .space)
    (h : Spelled u m p l) : SpelledAll u m b [p] [⟨p.ty, l, p.recorded⟩] := .cons (.inr hf) h .nil

/-! ## Tokens -/

/-- The parsed token of a piece that is not a comment or a string literal. -/
inductive Simp (u : Ucd) : Tok → Piece → Prop
  | newLine : Simp u .newLine ⟨.newLine, ['\n'], .space⟩
  | tab : Simp u .tab ⟨.tab, ['\t'], .space⟩
  | number {v} : v ≠ [] → Simp u (.number v) ⟨.number, v, .number⟩
  | word {s ps ws} : IdentSplit u s ps → Pieces ps ws → ' ' ∉ s → Simp u (.split ws) ⟨.splitContainer, s, .word⟩
  | char {s} : Simp u (.nonCodeChar s) ⟨.nonCodeChar, s, .fixed⟩
  | one : Simp u .one ⟨.one, ['1'], .constant⟩
  | zero : Simp u .zero ⟨.zero, ['0'], .constant⟩
  | keyWord {s} : Simp u (.keyWord s) ⟨.keyWord, s, .fixed⟩
  | operator {s} : Simp u (.operator s) ⟨.operator, s, .fixed⟩
  | semicolon : Simp u .semicolon ⟨.semicolon, [';'], .fixed⟩
  | openingCurly : Simp u .openingCurly ⟨.openingCurly, ['{'], .fixed⟩
  | closingCurly : Simp u .closingCurly ⟨.closingCurly, ['}'], .fixed⟩
  | openingBracket : Simp u .openingBracket ⟨.openingBracket, ['('], .fixed⟩
  | closingBracket : Simp u .closingBracket ⟨.closingBracket, [')'], .fixed⟩
  | special {s} : Simp u (.specialToken s) ⟨.specialToken, s, .fixed⟩

/-- Element by element. -/
inductive Simps (u : Ucd) : List Tok → List Piece → Prop
  | nil : Simps u [] []
  | cons {t p ts ps} : Simp u t p → Simps u ts ps → Simps u (t :: ts) (p :: ps)

/-- The same for the tokens of a literal, in which spaces have no piece. -/
inductive Lits (u : Ucd) : List Tok → List Piece → Prop
  | nil : Lits u [] []
  | cons {t p ts ps} : Simp u t p → Lits u ts ps → Lits u (t :: ts) (p :: ps)
  | space {n ts ps} : Lits u ts ps → Lits u (.spaceInString n :: ts) ps

/-- A configuration for representations that fits a mode and options. -/
structure ModeRc (u : Ucd) (rc : ReprConfig) (m : Mode) (noSpaces noUnicode : Bool) (o : PieceOpts) : Prop where
  newLine : Ty.newLine ∈ rc.types ↔ noSpaces = true
  tab : Ty.tab ∈ rc.types ↔ noSpaces = true
  never : ∀ t ∈ [Ty.one, .zero, .keyWord, .operator, .semicolon, .openingCurly, .closingCurly, .openingBracket,
    .closingBracket, .nonCodeChar, .specialToken], t ∉ rc.types
  oneLine : Ty.oneLineComment ∈ rc.types ↔ o.noCom = true
  multiLine : Ty.multilineComment ∈ rc.types ↔ o.noCom = true
  string : Ty.stringLiteral ∈ rc.types ↔ o.noStr = true
  nonEng : Ty.nonEng ∈ rc.types ↔ noUnicode = true
  max : o.noStr = false → rc.maxStrLength = some o.limit
  full : rc.fullStrings = true ↔ o.literals = .full
  bpe : rc.bpe = true ↔ o.literals = .bpe
  number : ∀ v, v ≠ [] → ∃ l, Spelled u m ⟨.number, v, .number⟩ l ∧ numberUnits rc .number v = .ok [⟨.number, l, []⟩]
  word : ∀ s ps ws, IdentSplit u s ps → Pieces ps ws → ' ' ∉ s →
    ∃ l, Spelled u m ⟨.splitContainer, s, .word⟩ l ∧ splitUnits u rc ws = .ok [⟨.splitContainer, l, []⟩]
  literal : o.literals ≠ .split → ∀ s, ∃ l, Spelled u m ⟨.stringLiteral, s, .literal⟩ l ∧
    (o.literals = .bpe → rc.splitWord s = .ok l) ∧ (o.literals = .full → l = [s])

theorem simp_units {u : Ucd} {rc : ReprConfig} {m : Mode} {b nu : Bool} {o : PieceOpts} (hr : ModeRc u rc m b nu o) {t : Tok}
    {p : Piece} (h : Simp u t p) : ∃ us, SpelledAll u m b [p] us ∧ Tok.units u rc t = .ok us := by
  have white : ∀ ty s, (ty ∈ rc.types ↔ b = true) → SpelledAll u m b [⟨ty, s, .space⟩] (whitespaceUnits rc ty s) := by
    intro ty s hty
    unfold whitespaceUnits
    cases b with
    | true => rw [if_pos (hty.mpr rfl)]; exact .skip rfl rfl .nil
    | false => rw [if_neg (by simpa using hty)]; exact .cons (.inl rfl) .space .nil
  have fixed : ∀ ty s, ty ∉ rc.types → ∃ us, SpelledAll u m b [⟨ty, s, .fixed⟩] us ∧ nonProcUnits rc ty s = .ok us := by
    intro ty s hty
    refine ⟨_, spelledAll_one (by simp) .fixed, ?_⟩
    rw [nonProcUnits, if_neg hty]
    rfl
  cases h with
  | newLine => exact ⟨_, white _ _ hr.newLine, rfl⟩
  | tab => exact ⟨_, white _ _ hr.tab, rfl⟩
  | number hv =>
    obtain ⟨l, h1, h2⟩ := hr.number _ hv
    exact ⟨_, spelledAll_one (by simp) h1, h2⟩
  | word h1 h2 h3 =>
    obtain ⟨l, h4, h5⟩ := hr.word _ _ _ h1 h2 h3
    exact ⟨_, spelledAll_one (by simp) h4, h5⟩
  | char => exact fixed _ _ (hr.never _ (by decide))
  | one =>
    refine ⟨_, spelledAll_one (by simp) .constant, ?_⟩
    rw [Tok.units, numberUnits, if_neg (hr.never _ (by decide))]
    rfl
  | zero =>
    refine ⟨_, spelledAll_one (by simp) .constant, ?_⟩
    rw [Tok.units, numberUnits, if_neg (hr.never _ (by decide))]
    rfl
  | keyWord => exact fixed _ _ (hr.never _ (by decide))
  | operator => exact fixed _ _ (hr.never _ (by decide))
  | semicolon => exact fixed _ _ (hr.never _ (by decide))
  | openingCurly => exact fixed _ _ (hr.never _ (by decide))
  | closingCurly => exact fixed _ _ (hr.never _ (by decide))
  | openingBracket => exact fixed _ _ (hr.never _ (by decide))
  | closingBracket => exact fixed _ _ (hr.never _ (by decide))
  | special => exact fixed _ _ (hr.never _ (by decide))

theorem unitsList_cons (u : Ucd) (rc : ReprConfig) (sk : Bool) (t : Tok) (r : List Tok) (h : ∀ n, t ≠ .spaceInString n) :
    unitsList u rc sk (t :: r) = (do
      let a ← Tok.units u rc t
      let b ← unitsList u rc sk r
      .ok (a ++ b)) := by
  cases sk <;> cases t <;> first | rfl | exact absurd rfl (h _)

theorem simp_not_space {u : Ucd} {t : Tok} {p : Piece} (h : Simp u t p) : ∀ n, t ≠ .spaceInString n := by
  intro n e; subst e; cases h

theorem simps_units {u : Ucd} {rc : ReprConfig} {m : Mode} {b nu : Bool} {o : PieceOpts} (hr : ModeRc u rc m b nu o)
    {ts : List Tok} {ps : List Piece} (h : Simps u ts ps) :
    ∃ us, SpelledAll u m b ps us ∧ unitsList u rc false ts = .ok us := by
  induction h with
  | nil => exact ⟨[], .nil, rfl⟩
  | cons h1 _ ih =>
    obtain ⟨us, h2, h3⟩ := simp_units hr h1
    obtain ⟨vs, h4, h5⟩ := ih
    refine ⟨us ++ vs, spelledAll_append h2 h4, ?_⟩
    rw [unitsList_cons _ _ _ _ _ (simp_not_space h1), h3, h5]
    rfl

theorem lits_units {u : Ucd} {rc : ReprConfig} {m : Mode} {b nu : Bool} {o : PieceOpts} (hr : ModeRc u rc m b nu o)
    {ts : List Tok} {ps : List Piece} (h : Lits u ts ps) :
    ∃ us, SpelledAll u m b ps us ∧ unitsList u rc true ts = .ok us := by
  induction h with
  | nil => exact ⟨[], .nil, rfl⟩
  | cons h1 _ ih =>
    obtain ⟨us, h2, h3⟩ := simp_units hr h1
    obtain ⟨vs, h4, h5⟩ := ih
    refine ⟨us ++ vs, spelledAll_append h2 h4, ?_⟩
    rw [unitsList_cons _ _ _ _ _ (simp_not_space h1), h3, h5]
    rfl
  | space _ ih =>
    obtain ⟨vs, h4, h5⟩ := ih
    exact ⟨vs, h4, h5⟩

/-- The pieces of any parsed token. -/
inductive Parsed (u : Ucd) (nu : Bool) (o : PieceOpts) : Tok → List Piece → Prop
  | simple {t p} : Simp u t p → Parsed u nu o t [p]
  | line {ts ps} : o.noCom = false → Simps u ts ps → Parsed u nu o (.oneLineComment ts)
      (ps.map (Piece.within .oneLineComment) ++ [⟨.oneLineComment, "<EOL>".toList, .constant⟩])
  | block {ts ps} : o.noCom = false → Simps u ts ps → ps ≠ [] → Parsed u nu o (.multilineComment ts)
      (ps.map (Piece.within .multilineComment))
  | hiddenLine {ts} : o.noCom = true → Parsed u nu o (.oneLineComment ts) [⟨.oneLineComment, "<comment>".toList, .constant⟩]
  | hiddenBlock {ts} : o.noCom = true → Parsed u nu o (.multilineComment ts) [⟨.multilineComment, "<comment>".toList, .constant⟩]
  | hiddenString {ts n} : o.noStr = true → Parsed u nu o (.stringLiteral ts n) [⟨.stringLiteral, "<str-literal>".toList, .constant⟩]
  | long {ts n} : o.noStr = false → o.limit < n → Parsed u nu o (.stringLiteral ts n)
      [⟨.stringLiteral, "\"\"".toList, if o.literals = .full then .constant else .quotes⟩]
  | split {ts n ps} : o.noStr = false → n ≤ o.limit → o.literals = .split → Lits u ts ps → ps ≠ [] →
      Parsed u nu o (.stringLiteral ts n) (ps.map (Piece.within .stringLiteral))
  | whole {ts n} : o.noStr = false → n ≤ o.limit → o.literals ≠ .split →
      (nu = true → ∀ c ∈ strList u ts, c = ' ' ∨ c.toNat < 128) →
      Parsed u nu o (.stringLiteral ts n) [⟨.stringLiteral, strList u ts, .literal⟩]

theorem parsed_units {u : Ucd} {rc : ReprConfig} {m : Mode} {b nu : Bool} {o : PieceOpts} (hr : ModeRc u rc m b nu o)
    {t : Tok} {ps : List Piece} (h : Parsed u nu o t ps) :
    ∃ us, SpelledAll u m b ps us ∧ Tok.units u rc t = .ok us := by
  cases h with
  | simple h => exact simp_units hr h
  | line hc hs =>
    obtain ⟨us, h1, h2⟩ := simps_units hr hs
    refine ⟨_, spelledAll_append (spelledAll_within _ h1) (spelledAll_one (by simp) .constant), ?_⟩
    rw [Tok.units, if_neg (by rw [hr.oneLine, hc]; decide), h2]
    rfl
  | block hc hs =>
    obtain ⟨us, h1, h2⟩ := simps_units hr hs
    refine ⟨_, spelledAll_within _ h1, ?_⟩
    rw [Tok.units, if_neg (by rw [hr.multiLine, hc]; decide), h2]
    rfl
  | hiddenLine hc =>
    refine ⟨_, spelledAll_one (by simp) .constant, ?_⟩
    rw [Tok.units, if_pos (hr.oneLine.mpr hc)]
    rfl
  | hiddenBlock hc =>
    refine ⟨_, spelledAll_one (by simp) .constant, ?_⟩
    rw [Tok.units, if_pos (hr.multiLine.mpr hc)]
    rfl
  | hiddenString hc =>
    refine ⟨_, spelledAll_one (by simp) .constant, ?_⟩
    rw [Tok.units, if_pos (hr.string.mpr hc)]
    rfl
  | long hn hl =>
    by_cases hf : o.literals = .full
    · rw [if_pos hf]
      refine ⟨_, spelledAll_one (by simp) .constant, ?_⟩
      rw [Tok.units, if_neg (by rw [hr.string, hn]; decide), hr.max hn]
      simp only [if_pos hl, hr.full.mpr hf, if_true]
      rfl
    · rw [if_neg hf]
      refine ⟨_, spelledAll_one (by simp) .quotes, ?_⟩
      have hff : rc.fullStrings = false := by
        rw [← Bool.not_eq_true, hr.full]; exact hf
      rw [Tok.units, if_neg (by rw [hr.string, hn]; decide), hr.max hn]
      simp only [if_pos hl, hff, Bool.false_eq_true, if_false]
      rfl
  | split hn hl hs hli =>
    obtain ⟨us, h1, h2⟩ := lits_units hr hli
    refine ⟨_, spelledAll_within _ h1, ?_⟩
    have hff : rc.fullStrings = false := by
      rw [← Bool.not_eq_true, hr.full, hs]; decide
    have hbb : rc.bpe = false := by
      rw [← Bool.not_eq_true, hr.bpe, hs]; decide
    rw [Tok.units, if_neg (by rw [hr.string, hn]; decide), hr.max hn]
    simp only [if_neg (Nat.not_lt.mpr hl), hff, hbb, Bool.false_eq_true, if_false, h2]
    rfl
  | whole hn hl hs hasc =>
    obtain ⟨l, h1, h2, h3⟩ := hr.literal hs (strList u _)
    refine ⟨_, spelledAll_one (by simp) h1, ?_⟩
    rw [Tok.units, if_neg (by rw [hr.string, hn]; decide), hr.max hn]
    simp only [if_neg (Nat.not_lt.mpr hl)]
    rw [replaceInString_id fun hm => hasc (hr.nonEng.mp hm)]
    cases hlit : o.literals with
    | split => exact absurd hlit hs
    | full =>
      have hbb : rc.bpe = false := by
        rw [← Bool.not_eq_true, hr.bpe, hlit]; decide
      simp only [hbb, hr.full.mpr hlit, Bool.false_eq_true, if_false, if_true, bind, Except.bind, h3 hlit]
      rfl
    | bpe =>
      simp only [hr.bpe.mpr hlit, if_true, bind, Except.bind, h2 hlit]
      rfl

/-- Token by token. -/
inductive ParsedAll (u : Ucd) (nu : Bool) (o : PieceOpts) : List Tok → List Piece → Prop
  | nil : ParsedAll u nu o [] []
  | cons {t ts ps qs} : Parsed u nu o t ps → ParsedAll u nu o ts qs → ParsedAll u nu o (t :: ts) (ps ++ qs)

theorem parsed_not_space {u : Ucd} {nu : Bool} {o : PieceOpts} {t : Tok} {ps : List Piece} (h : Parsed u nu o t ps) :
    ∀ n, t ≠ .spaceInString n := by
  intro n e
  subst e
  cases h
  rename_i h
  cases h

theorem parsedAll_units {u : Ucd} {rc : ReprConfig} {m : Mode} {b nu : Bool} {o : PieceOpts} (hr : ModeRc u rc m b nu o)
    {ts : List Tok} {ps : List Piece} (h : ParsedAll u nu o ts ps) :
    ∃ us, SpelledAll u m b ps us ∧ unitsList u rc false ts = .ok us := by
  induction h with
  | nil => exact ⟨[], .nil, rfl⟩
  | cons h1 _ ih =>
    obtain ⟨us, h2, h3⟩ := parsed_units hr h1
    obtain ⟨vs, h4, h5⟩ := ih
    refine ⟨us ++ vs, spelledAll_append h2 h4, ?_⟩
    rw [unitsList_cons _ _ _ _ _ (parsed_not_space h1), h3, h5]
    rfl

theorem parsedAll_append {u : Ucd} {nu : Bool} {o : PieceOpts} {ts us : List Tok} {ps qs : List Piece}
    (h1 : ParsedAll u nu o ts ps) (h2 : ParsedAll u nu o us qs) : ParsedAll u nu o (ts ++ us) (ps ++ qs) := by
  induction h1 with
  | nil => exact h2
  | cons h _ ih => rw [List.append_assoc]; exact .cons h ih

theorem simps_all {u : Ucd} {nu : Bool} {o : PieceOpts} {ts : List Tok} {ps : List Piece} (h : Simps u ts ps) :
    ParsedAll u nu o ts ps := by
  induction h with
  | nil => exact .nil
  | cons h _ ih => exact .cons (.simple h) ih

/-! ## The end of a text -/

/-- Only the token for a newline has a piece of the type of newlines at its end, and every token has a piece. -/
theorem parsed_last {u : Ucd} {nu : Bool} {o : PieceOpts} {t : Tok} {ps : List Piece} (h : Parsed u nu o t ps) :
    ∃ qs p, ps = qs ++ [p] ∧ (p.ty = .newLine ↔ t = .newLine) ∧ (t = .newLine → qs = []) := by
  have one : ∀ p : Piece, (p.ty = .newLine ↔ t = .newLine) → ∃ qs p', [p] = qs ++ [p'] ∧ (p'.ty = .newLine ↔ t = .newLine) ∧
      (t = .newLine → qs = []) := fun p hp => ⟨[], p, rfl, hp, fun _ => rfl⟩
  have within : ∀ (ty : Ty) (qs : List Piece), qs ≠ [] → ty ≠ .newLine → t ≠ .newLine → ∃ rs p',
      qs.map (Piece.within ty) = rs ++ [p'] ∧ (p'.ty = .newLine ↔ t = .newLine) ∧ (t = .newLine → rs = []) := by
    intro ty qs hq hty ht
    refine ⟨(qs.map (Piece.within ty)).dropLast, (qs.getLast hq).within ty, ?_, ?_, fun e => absurd e ht⟩
    · rw [← List.map_dropLast, ← List.map_singleton, ← List.map_append, List.dropLast_concat_getLast]
    · constructor
      · intro e; exact absurd e hty
      · intro e; exact absurd e ht
  cases h with
  | simple h => cases h <;> exact one _ (by simp)
  | line => exact ⟨_, _, rfl, by simp, by simp⟩
  | block _ _ hne => exact within _ _ hne (by simp) (by simp)
  | split _ _ _ _ hne => exact within _ _ hne (by simp) (by simp)
  | _ => exact one _ (by simp)

theorem parsedAll_snoc {u : Ucd} {nu : Bool} {o : PieceOpts} {ts : List Tok} {ps : List Piece} {t : Tok}
    (h : ParsedAll u nu o (ts ++ [t]) ps) : ∃ qs rs, ps = qs ++ rs ∧ ParsedAll u nu o ts qs ∧ Parsed u nu o t rs := by
  induction ts generalizing ps with
  | nil =>
    cases h with
    | @cons _ _ rs _ h1 h2 =>
      cases h2
      exact ⟨[], rs, by simp, .nil, h1⟩
  | cons a r ih =>
    cases h with
    | @cons _ _ as bs h1 h2 =>
      obtain ⟨qs, rs, rfl, h3, h4⟩ := ih h2
      exact ⟨as ++ qs, rs, by simp, .cons h1 h3, h4⟩

theorem parsedAll_finish {u : Ucd} {nu : Bool} {o : PieceOpts} {ts : List Tok} {ps : List Piece} (eof : Bool)
    (h : ParsedAll u nu o ts ps) : ParsedAll u nu o (finishParsed ts eof) (finishPieces eof ps) := by
  have cut : ParsedAll u nu o (removeTrailingNewline ts)
      (if (ps.getLast?.map (·.ty)) = some .newLine then ps.dropLast else ps) := by
    rcases List.eq_nil_or_concat ts with rfl | ⟨ts, t, rfl⟩
    · cases h
      exact .nil
    · rw [List.concat_eq_append] at h ⊢
      obtain ⟨qs, rs, rfl, h1, h2⟩ := parsedAll_snoc h
      obtain ⟨as, p, rfl, h3, h4⟩ := parsed_last h2
      have hl : ((qs ++ (as ++ [p])).getLast?.map (·.ty)) = some p.ty := by
        rw [← List.append_assoc, List.getLast?_concat]; rfl
      have hrt : removeTrailingNewline (ts ++ [t]) = if t.isNewLine then ts else ts ++ [t] := by
        unfold removeTrailingNewline
        rw [List.getLast?_concat]
        simp only [List.dropLast_concat]
      rw [hl, hrt]
      by_cases ht : t = .newLine
      · subst ht
        rw [if_pos (show Tok.newLine.isNewLine = true from rfl), if_pos (by rw [h3.mpr rfl]), h4 rfl, List.nil_append, List.dropLast_concat]
        exact h1
      · have hn : t.isNewLine = false := by
          cases t <;> first | rfl | exact absurd rfl ht
        rw [hn, if_neg (by decide), if_neg (by intro e; exact ht (h3.mp (Option.some.inj e)))]
        exact h
  unfold finishParsed finishPieces
  cases eof with
  | false => simpa using cut
  | true => exact parsedAll_append cut (.cons (.simple .special) .nil)

/-! ## Parsing -/

theorem toParsedToken_simp {u : Ucd} (hu : u.Laws) {p : Str} (hs : ' ' ∉ p)
    (h : (∀ c ∈ p, isAscii c = true) ∨ ∃ c, p = [c] ∧ u.reWord c = false) :
    ∃ t, toParsedToken u p = .ok t ∧ t.str u = lowerNumber p ∧ Simp u t (codePiece u p) := by
  obtain ⟨t, h1, h2⟩ := toParsedToken_str hu hs h
  refine ⟨t, h1, h2, ?_⟩
  unfold toParsedToken at h1
  unfold codePiece
  by_cases e1 : p = ['\n']
  · rw [if_pos e1] at h1
    rw [if_pos (show p = "\n".toList from e1)]
    cases h1
    subst e1
    exact .newLine
  rw [if_neg e1] at h1
  rw [if_neg (show p ≠ "\n".toList from e1)]
  by_cases e2 : p = ['\t']
  · rw [if_pos e2] at h1
    rw [if_pos (.inl e2)]
    cases h1
    exact .tab
  rw [if_neg e2] at h1
  have e24 : ¬ (p = "\t".toList ∨ p = "    ".toList) := by
    rintro (e | e)
    · exact e2 e
    · subst e; exact hs (by decide)
  rw [if_neg e24]
  by_cases e3 : isNumber p = true
  · have hn := (isNumber_iff p).mp e3
    rw [if_pos e3] at h1
    rw [if_pos hn]
    cases h1
    have ha := isNumber_ascii hn
    rw [mkNumber, hu.toLower_ascii p (all_of_forall ha.2)]
    exact .number (by simpa using ha.1)
  rw [if_neg e3] at h1
  rw [if_neg (by rw [← isNumber_iff]; exact e3)]
  by_cases e4 : isWordText u p = true
  · rw [if_pos e4] at h1
    have hw : p ≠ [] ∧ ∀ c ∈ p, u.reWord c = true := by
      simpa [isWordText] using e4
    rw [if_pos hw]
    have ha : ∀ c ∈ p, isAscii c = true := by
      rcases h with h | ⟨c, rfl, hc⟩
      · exact h
      · simp [isWordText, hc] at e4
    obtain ⟨ps, ws, h5, h6, h7, _⟩ := splitIdentifier_ascii hu ha hs
    rw [h7] at h1
    cases h1
    exact .word h5 h6 hs
  · rw [if_neg e4] at h1
    rw [if_neg (by intro hw; exact e4 (by simpa [isWordText] using hw))]
    cases h1
    exact .char

theorem words_simps {u : Ucd} (hu : u.Laws) {s : Str} {ps : List Str} (h : TextSplit u s ps) (ha : AsciiWords u s) :
    ∃ ts, ps.mapM (wordPiece u) = .ok ts ∧ Simps u ts (ps.map (codePiece u)) := by
  have step : ∀ {p : Str} {ps : List Str}, (∃ t, wordPiece u p = .ok t ∧ Simp u t (codePiece u p)) →
      (∃ ts, ps.mapM (wordPiece u) = .ok ts ∧ Simps u ts (ps.map (codePiece u))) →
      ∃ ts, (p :: ps).mapM (wordPiece u) = .ok ts ∧ Simps u ts ((p :: ps).map (codePiece u)) := by
    rintro p ps ⟨t, h1, h2⟩ ⟨ts, h3, h4⟩
    exact ⟨t :: ts, by rw [List.mapM_cons, h1, h3]; rfl, .cons h2 h4⟩
  have piece : ∀ {p : Str}, ' ' ∉ p → ((∀ c ∈ p, isAscii c = true) ∨ ∃ c, p = [c] ∧ u.reWord c = false) →
      ∃ t, wordPiece u p = .ok t ∧ Simp u t (codePiece u p) := by
    intro p hs hp
    obtain ⟨t, h1, _, h2⟩ := toParsedToken_simp hu hs hp
    have hne : p ≠ [' ', ' ', ' ', ' '] := by rintro rfl; simp at hs
    exact ⟨t, by rw [wordPiece, if_neg hne, h1], h2⟩
  induction h with
  | nil => exact ⟨[], rfl, .nil⟩
  | @word w r ps hw hall _ _ ih =>
    refine step (piece ?_ (.inl ?_)) (ih fun c hc => ha c (by simp [hc]))
    · intro hsp
      have := hall ' ' hsp
      rw [reWord_space hu] at this
      exact absurd this (by simp)
    · intro c hc
      exact ha c (by simp [hc]) (hall c hc)
  | @char c r ps h1 h2 _ ih =>
    refine step (piece ?_ (.inr ⟨c, rfl, h2⟩)) (ih fun c hc => ha c (by simp [hc]))
    simpa using fun e => h1 e.symm
  | fourSpaces _ ih =>
    refine step ⟨.tab, rfl, ?_⟩ (ih fun c hc => ha c (by simp [hc]))
    have : codePiece u [' ', ' ', ' ', ' '] = ⟨.tab, ['\t'], .space⟩ := by
      unfold codePiece
      rw [if_neg (by decide), if_pos (.inr rfl)]
      rfl
    rw [this]
    exact .tab
  | space _ _ ih => exact ih fun c hc => ha c (by simp [hc])

theorem literal_lits {u : Ucd} (hu : u.Laws) {s : Str} {ps : List Str} (h : LiteralSplit u s ps) (ha : AsciiWords u s) :
    ∃ ts, ps.mapM (stringPiece u) = .ok ts ∧ Lits u ts ((ps.filter fun p => !p.contains ' ').map (codePiece u)) := by
  have step : ∀ {p : Str} {ps : List Str}, ' ' ∉ p → (∃ t, stringPiece u p = .ok t ∧ Simp u t (codePiece u p)) →
      (∃ ts, ps.mapM (stringPiece u) = .ok ts ∧ Lits u ts ((ps.filter fun p => !p.contains ' ').map (codePiece u))) →
      ∃ ts, (p :: ps).mapM (stringPiece u) = .ok ts ∧
        Lits u ts (((p :: ps).filter fun p => !p.contains ' ').map (codePiece u)) := by
    rintro p ps hs ⟨t, h1, h2⟩ ⟨ts, h3, h4⟩
    refine ⟨t :: ts, by rw [List.mapM_cons, h1, h3]; rfl, ?_⟩
    rw [List.filter_cons_of_pos (by simpa using hs)]
    exact .cons h2 h4
  have piece : ∀ {p : Str}, p ≠ [] → ' ' ∉ p → ((∀ c ∈ p, isAscii c = true) ∨ ∃ c, p = [c] ∧ u.reWord c = false) →
      ∃ t, stringPiece u p = .ok t ∧ Simp u t (codePiece u p) := by
    intro p hne hs hp
    obtain ⟨t, h1, _, h2⟩ := toParsedToken_simp hu hs hp
    have hsp : isSpaces p = false := by
      rw [isSpaces, Bool.and_eq_false_iff]
      right
      cases p with
      | nil => exact absurd rfl hne
      | cons c r => simp at hs; simp [Ne.symm hs.1]
    exact ⟨t, by rw [stringPiece, hsp]; exact h1, h2⟩
  induction h with
  | nil => exact ⟨[], rfl, .nil⟩
  | @word w r ps hw hall _ _ ih =>
    have hsp : ' ' ∉ w := by
      intro hsp
      have := hall ' ' hsp
      rw [reWord_space hu] at this
      exact absurd this (by simp)
    exact step hsp (piece hw hsp (.inl fun c hc => ha c (by simp [hc]) (hall c hc))) (ih fun c hc => ha c (by simp [hc]))
  | @char c r ps h1 h2 _ ih =>
    have hsp : ' ' ∉ [c] := by simpa using fun e => h1 e.symm
    exact step hsp (piece (by simp) hsp (.inr ⟨c, rfl, h2⟩)) (ih fun c hc => ha c (by simp [hc]))
  | @spaces n r ps _ _ ih =>
    obtain ⟨ts, h3, h4⟩ := ih fun c hc => ha c (by simp [hc])
    refine ⟨.spaceInString (n + 1) :: ts, ?_, ?_⟩
    · have : isSpaces (List.replicate (n + 1) ' ') = true := by simp [isSpaces]
      rw [List.mapM_cons, stringPiece, this, h3]
      simp [bind, Except.bind, pure, Except.pure]
    · rw [List.filter_cons_of_neg (by simp)]
      exact .space h4

/-- A text that is not blank has pieces without spaces. -/
theorem textSplit_ne {u : Ucd} (hu : u.Laws) {s : Str} {ps : List Str} (h : TextSplit u s ps)
    (hb : ∃ c ∈ s, u.space c = false) : ps ≠ [] := by
  induction h with
  | nil => obtain ⟨c, hc, -⟩ := hb; cases hc
  | space _ _ ih =>
    obtain ⟨c, hc, h⟩ := hb
    rcases List.mem_cons.mp hc with rfl | hc
    · rw [hu.space_ascii ' ' (by decide)] at h; exact absurd h (by decide)
    · exact ih ⟨c, hc, h⟩
  | _ => simp

theorem literalSplit_ne {u : Ucd} (hu : u.Laws) {s : Str} {ps : List Str} (h : LiteralSplit u s ps)
    (hb : ∃ c ∈ s, u.space c = false) : (ps.filter fun p => !p.contains ' ') ≠ [] := by
  have pos : ∀ {p : Str} {ps : List Str}, ' ' ∉ p → ((p :: ps).filter fun p => !p.contains ' ') ≠ [] := by
    intro p ps hp
    rw [List.filter_cons_of_pos (by simpa using hp)]
    simp
  induction h with
  | nil => obtain ⟨c, hc, -⟩ := hb; cases hc
  | @spaces n r ps _ _ ih =>
    obtain ⟨c, hc, h⟩ := hb
    rw [List.filter_cons_of_neg (by simp)]
    rcases List.mem_append.mp hc with hc | hc
    · have := List.eq_of_mem_replicate hc
      subst this
      rw [hu.space_ascii ' ' (by decide)] at h; exact absurd h (by decide)
    · exact ih ⟨c, hc, h⟩
  | @word w r ps hw hall _ _ _ =>
    refine pos ?_
    intro hsp
    have := hall ' ' hsp
    rw [reWord_space hu] at this
    exact absurd this (by simp)
  | @char c r ps h1 _ _ _ => exact pos (by simpa using fun e => h1 e.symm)

/-- Texts without non-ASCII characters, if these are to be replaced. -/
structure Readable (u : Ucd) (nu : Bool) (o : PieceOpts) (e : TokType × Str) : Prop where
  words : AsciiWords u e.2
  literal : nu = true → o.literals ≠ .split → kindOf e.1 = .string → ∀ c ∈ e.2, c.toNat < 128

theorem shown_ascii {u : Ucd} {s : Str} {ps : List Str} (h : LiteralSplit u s ps) (ha : ∀ c ∈ s, c.toNat < 128) :
    ∀ c ∈ (ps.map shownLiteral).flatten, c = ' ' ∨ c.toNat < 128 := by
  intro c hc
  obtain ⟨q, hq, hcq⟩ := List.mem_flatten.mp hc
  obtain ⟨p, hp, rfl⟩ := List.mem_map.mp hq
  have hpl : ∀ c ∈ p, c.toNat < 128 := fun c hc => ha c (by
    rw [← literalSplit_flatten h]; exact List.mem_flatten.mpr ⟨p, hp, hc⟩)
  have hlow : ∀ c ∈ lowerNumber p, c.toNat < 128 := by
    unfold lowerNumber
    split
    · intro c hc
      obtain ⟨d, hd, rfl⟩ := List.mem_map.mp hc
      have := asciiToLower_ascii (c := d) (by simp [isAscii, hpl d hd])
      simpa [isAscii] using this
    · exact hpl
  unfold shownLiteral nbsp at hcq
  obtain ⟨d, hd, rfl⟩ := List.mem_map.mp hcq
  split
  · exact .inl rfl
  · exact .inr (hlow d hd)

theorem isBlank_iff (u : Ucd) (v : Str) : u.isBlank v = true ↔ ∀ c ∈ v, u.space c = true := by
  simp [Ucd.isBlank]

theorem not_blank_iff (u : Ucd) (v : Str) : u.isBlank v = false ↔ ∃ c ∈ v, u.space c = false := by
  rw [← Bool.not_eq_true, isBlank_iff]
  constructor
  · intro h
    refine Classical.byContradiction fun h' => h fun c hc => ?_
    cases hs : u.space c with
    | true => rfl
    | false => exact absurd ⟨c, hc, hs⟩ h'
  · rintro ⟨c, hc, hs⟩ h
    rw [h c hc] at hs
    cases hs

theorem operator_simp (u : Ucd) (v : Str) : Simp u (operatorToken v) ⟨operatorType v, v, .fixed⟩ := by
  unfold operatorToken operatorType
  repeat' split
  all_goals first | (rename_i h; subst h; constructor; done) | constructor

theorem number_simp {u : Ucd} (hu : u.Laws) {v : Str} (hv : v ≠ []) : Simp u (numberToken u v) (numberPiece u v) := by
  unfold numberToken numberPiece
  split
  · rename_i h; subst h; exact .zero
  split
  · rename_i h; subst h; exact .one
  · exact .number (hu.toLower_ne_nil v hv)

/-- Parsing one text of the lexer. -/
theorem convert_pieces {u : Ucd} (hu : u.Laws) {nu : Bool} {o : PieceOpts} {ty : TokType} {v : Str} (hr : Readable u nu o (ty, v)) :
    ∃ ts ps, convert u ty v = .ok ts ∧ Described u o (ty, v) ps ∧ ParsedAll u nu o ts ps := by
  by_cases h1 : v = ['\n']
  · subst h1
    exact ⟨_, _, convert_newline u ty, .newline ty, simps_all (.cons .newLine .nil)⟩
  by_cases h2 : v = ['\t']
  · subst h2
    exact ⟨_, _, convert_tab u ty, .tab ty, simps_all (.cons .tab .nil)⟩
  cases hb : u.isBlank v with
  | true =>
    refine ⟨_, _, convert_blank u ty v hb h1 h2, .blank ((isBlank_iff u v).mp hb) h1 h2, simps_all ?_⟩
    induction v.length / 4 with
    | zero => exact .nil
    | succ n ih => exact .cons .tab ih
  | false =>
    have hnb := (not_blank_iff u v).mp hb
    have hne : v ≠ [] := by rintro rfl; obtain ⟨c, hc, -⟩ := hnb; cases hc
    rw [convert_kind u ty v hb h1 h2]
    have ha := hr.words
    obtain ⟨ps, hps⟩ := textSplit_total u v.length v (Nat.le_refl _)
    obtain ⟨ts, h3, h4⟩ := words_simps hu hps ha
    have hsw : splitIntoWords u v = .ok ts := by rw [splitIntoWords, (textSplit_iff hu v ps).mp hps, h3]
    cases hk : kindOf ty with
    | operator => exact ⟨_, _, rfl, .operator hnb hk, simps_all (.cons (operator_simp u v) .nil)⟩
    | number => exact ⟨_, _, rfl, .number hnb hk, simps_all (.cons (number_simp hu hne) .nil)⟩
    | keyword => exact ⟨_, _, rfl, .keyword hnb hk, simps_all (.cons .keyWord .nil)⟩
    | words => exact ⟨ts, _, hsw, .words hnb hk hps, simps_all h4⟩
    | lineComment =>
      have e : tokensOf u v .lineComment = .ok [.oneLineComment ts] := by simp [tokensOf, hsw, Except.map]
      cases hc : o.noCom with
      | true => exact ⟨_, _, e, .hiddenLine hnb hk hc, .cons (.hiddenLine hc) .nil⟩
      | false =>
        refine ⟨_, _, e, .lineComment hnb hk hc hps, ?_⟩
        have := ParsedAll.cons (Parsed.line (nu := nu) hc h4) .nil
        rwa [List.append_nil] at this
    | blockComment =>
      have e : tokensOf u v .blockComment = .ok [.multilineComment ts] := by simp [tokensOf, hsw, Except.map]
      cases hc : o.noCom with
      | true => exact ⟨_, _, e, .hiddenBlock hnb hk hc, .cons (.hiddenBlock hc) .nil⟩
      | false =>
        refine ⟨_, _, e, .blockComment hnb hk hc hps, ?_⟩
        have := ParsedAll.cons (Parsed.block (nu := nu) hc h4 (by simpa using textSplit_ne hu hps hnb)) .nil
        rwa [List.append_nil] at this
    | string =>
      obtain ⟨qs, us, h5, -, h6, h7⟩ := C24_literals u hu v ha
      have e : tokensOf u v .string = .ok [.stringLiteral us v.length] := by simp [tokensOf, h6, Except.map]
      obtain ⟨us', h8, h9⟩ := literal_lits hu h5 ha
      have : us' = us := by
        rw [splitString, (literalSplit_iff hu v qs).mp h5, h8] at h6
        cases h6; rfl
      subst this
      cases hs : o.noStr with
      | true => exact ⟨_, _, e, .hiddenString hnb hk hs, .cons (.hiddenString hs) .nil⟩
      | false =>
        by_cases hl : o.limit < v.length
        · exact ⟨_, _, e, .long hnb hk hs hl, .cons (.long hs hl) .nil⟩
        · have hl := Nat.not_lt.mp hl
          by_cases hli : o.literals = .split
          · refine ⟨_, _, e, .splitLiteral hnb hk hs hl hli h5, ?_⟩
            have := ParsedAll.cons (Parsed.split (nu := nu) hs hl hli h9 (by simpa using literalSplit_ne hu h5 hnb)) .nil
            rwa [List.append_nil] at this
          · have hstr : strList u us' = (qs.map shownLiteral).flatten := by rw [strList_eq, h7]
            refine ⟨_, _, e, .wholeLiteral hnb hk hs hl hli h5, ?_⟩
            rw [← hstr]
            refine .cons (.whole hs hl hli ?_) .nil
            intro hnu
            rw [hstr]
            exact shown_ascii h5 (hr.literal hnu hli hk)

theorem convertText_pieces {u : Ucd} (hu : u.Laws) {nu : Bool} {o : PieceOpts} {l : List (TokType × Str)}
    (hr : ∀ e ∈ l, Readable u nu o e) :
    ∃ ts ps, convertText u l = .ok ts ∧ DescribedAll u o l ps ∧ ParsedAll u nu o ts ps := by
  induction l with
  | nil => exact ⟨[], [], rfl, .nil, .nil⟩
  | cons e r ih =>
    obtain ⟨ty, v⟩ := e
    obtain ⟨ts, ps, h1, h2, h3⟩ := convert_pieces hu (hr (ty, v) (by simp))
    obtain ⟨us, qs, h4, h5, h6⟩ := ih fun e he => hr e (by simp [he])
    refine ⟨ts ++ us, ps ++ qs, ?_, .cons h2 h5, parsedAll_append h3 h6⟩
    simp only [convertText, bind, Except.bind, h1, h4]

end Verif.Props
