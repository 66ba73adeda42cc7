import Verif.Spec.Reference
/-!
# Line breaks

Newlines and tabs are shown as tokens of their own, unless `no_spaces` is set.
-/
namespace Verif.Spec
open Verif

/-- How many line breaks a text has. -/
def lineBreaks (s : Str) : Nat := s.count '\n'

/-- The text of what a lexer delivers. -/
def lexedText (lexed : List (TokType × Str)) : Str := (lexed.map (·.2)).flatten

/-- The token that shows a line break: with BPE all tokens carry the mark of their end. -/
def breakToken (call : ApiCall) : Str := if usesBpe call then "\n</t>".toList else "\n".toList

/-- The token that shows a tab. -/
def tabToken (call : ApiCall) : Str := if usesBpe call then "\t</t>".toList else "\t".toList

/-- How many line breaks a result shows. -/
def shownBreaks (call : ApiCall) (out : List Str) : Nat := out.count (breakToken call)

/-- A piece of the lexer whose line breaks are shown: a single newline, words (and anything that is not known to be something
else), comments unless they are left out, and string literals that are shown split. -/
def ShowsBreaks (u : Ucd) (call : ApiCall) (e : TokType × Str) : Prop :=
  e.2 = "\n".toList ∨ (∃ c ∈ e.2, u.space c = false) ∧
    (kindOf e.1 = .words ∨ (kindOf e.1 = .lineComment ∨ kindOf e.1 = .blockComment) ∧ (optsOf call).noCom = false ∨
      kindOf e.1 = .string ∧ (optsOf call).noStr = false ∧ e.2.length ≤ limitOf (optsOf call).maxStrLength ∧
        (pieceOpts call).literals = .split)

/-- A piece of the lexer whose line breaks are not shown: white space that is not a single newline, a comment or a string
literal that is left out. -/
def HidesBreaks (u : Ucd) (call : ApiCall) (e : TokType × Str) : Prop :=
  (∀ c ∈ e.2, u.space c = true) ∧ e.2 ≠ "\n".toList ∨ (∃ c ∈ e.2, u.space c = false) ∧
    ((kindOf e.1 = .lineComment ∨ kindOf e.1 = .blockComment) ∧ (optsOf call).noCom = true ∨
      kindOf e.1 = .string ∧ ((optsOf call).noStr = true ∨ limitOf (optsOf call).maxStrLength < e.2.length))

/-- Changes of the case introduce neither line breaks nor spaces. -/
structure KeepsWhite (u : Ucd) : Prop where
  lower : ∀ c ∈ ['\n', ' '], ∀ s, c ∉ s → c ∉ u.toLower s
  upper : ∀ c ∈ ['\n', ' '], ∀ s, c ∉ s → c ∉ u.toUpper s
  capitalize : ∀ c ∈ ['\n', ' '], ∀ s, c ∉ s → c ∉ u.capitalize s

/-- Changes of the case introduce neither line breaks nor spaces, ronin and the stemmer introduce no line breaks. -/
structure KeepsLines (env : Env) : Prop where
  white : KeepsWhite env.ucd
  ronin : ∀ s, '\n' ∉ s → ∀ p ∈ env.ronin s, '\n' ∉ p
  porter : ∀ s, '\n' ∉ s → '\n' ∉ env.porter s

/-- The pieces in the cache of words contain no line breaks. -/
def LineCache (d : BpeData) : Prop := ∀ w l, d.cache.get? w = some l → ∀ p ∈ l, '\n' ∉ p

/-- Number literals of the lexer contain neither spaces nor newlines. -/
def PlainNumber (e : TokType × Str) : Prop := kindOf e.1 = .number → ∀ c ∈ e.2, c ≠ ' ' ∧ c ≠ '\n'

end Verif.Spec
