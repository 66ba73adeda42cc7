import Verif.Spec.AnyText
/-!
# The tokens that `bpe` and `chars` can deliver
-/
namespace Verif.Spec
open Verif

/-- The characters of the words of some texts: a set of characters to which the changes of letters lead back, and which contains the
non-breaking space and the mark for characters that are left out. -/
structure Alphabet (u : Ucd) (A : List Char) : Prop where
  nbsp : '\u00a0' ∈ A
  hidden : '÷' ∈ A
  lower : ∀ s, (∀ c ∈ s, c ∈ A) → ∀ c ∈ u.toLower s, c ∈ A
  upper : ∀ s, (∀ c ∈ s, c ∈ A) → ∀ c ∈ u.toUpper s, c ∈ A
  capitalize : ∀ s, (∀ c ∈ s, c ∈ A) → ∀ c ∈ u.capitalize s, c ∈ A

/-- All characters of what the lexer delivers belong to `A`, and its operators and keywords to `K`. -/
def WrittenIn (A : List Char) (K : List Str) (lexed : List (TokType × Str)) : Prop :=
  ∀ e ∈ lexed, (∀ c ∈ e.2, c ∈ A) ∧ (kindOf e.1 = .operator ∨ kindOf e.1 = .keyword → e.2 ∈ K)

/-- The token for a symbol of a merge: `@@` stands for the character `@`, and a single `@` at the end for the end of a word. -/
def symbolToken : Str → Str
  | [] => []
  | ['@'] => "</t>".toList
  | '@' :: '@' :: r => '@' :: symbolToken r
  | c :: r => c :: symbolToken r

/-- Two characters `@` stand for one. -/
def undoubled : Str → Str
  | '@' :: '@' :: r => '@' :: undoubled r
  | c :: r => c :: undoubled r
  | [] => []

/-- The tokens for the symbols that are stored for a word. -/
def storedTokens : List Str → List Str
  | [] => []
  | [x] => [undoubled x.dropLast ++ "</t>".toList]
  | x :: y :: r => undoubled x :: storedTokens (y :: r)

/-- White space, placeholders and quotes. -/
def fixedTexts : List Str :=
  ["\n".toList, "\t".toList, "<comment>".toList, "<str-literal>".toList, "<EOL>".toList, "<EOF>".toList, "\"".toList]

/-- The tokens that texts can have that are written with the characters `A`, the operators and the keywords `K`, if they are split with the
merges and the stored words of `d`. -/
inductive KnownToken (d : BpeData) (A : List Char) (K : List Str) : Str → Prop
  /-- A character within a word. -/
  | char {c} : c ∈ A → KnownToken d A K [c]
  /-- A character that is no part of a word. -/
  | single {c} : c ∈ A → KnownToken d A K (c :: "</t>".toList)
  /-- What two symbols make that are merged. -/
  | merge {p k} : d.merges.priority? p = some k → KnownToken d A K (symbolToken (p.1 ++ p.2))
  /-- A part of a stored word. -/
  | stored {w l t} : d.cache.get? w = some l → t ∈ storedTokens l → KnownToken d A K t
  /-- Operators and keywords. -/
  | whole {s} : s ∈ K → KnownToken d A K (s ++ "</t>".toList)
  | fixed {s} : s ∈ fixedTexts → KnownToken d A K (s ++ "</t>".toList)
  /-- The first of the two quotes of a string literal that is left out. -/
  | quote : KnownToken d A K "\"".toList
  /-- The end of a word. -/
  | ending : KnownToken d A K "</t>".toList
  /-- What is left of a space within a number. -/
  | empty : KnownToken d A K []

end Verif.Spec
