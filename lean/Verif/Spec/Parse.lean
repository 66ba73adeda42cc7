import Verif.Model.Unicode
import Verif.Spec.Number
/-!
# How texts and identifiers are to be split

The relations below do not mention regular expressions; each of them determines the pieces of a text.
-/
namespace Verif.Spec
open Verif

/-- The text is empty or starts with a character outside the class. -/
def NotStarting (p : Char → Bool) (s : Str) : Prop := ∀ c, s.head? = some c → p c = false

/-- The pieces of an identifier: an underscore, a maximal run of digits, a maximal run of lower-case letters, such a run
with the capital before it, a run of capitals (all of them, except for one that a lower-case letter follows), or any other
single character.  Spaces are left out. -/
inductive IdentSplit (u : Ucd) : Str → List Str → Prop
  | nil : IdentSplit u [] []
  | underscore {r ps} : IdentSplit u r ps → IdentSplit u ('_' :: r) (['_'] :: ps)
  | digits {d r ps} : d ≠ [] → (∀ c ∈ d, asciiDigit c = true) → NotStarting asciiDigit r →
      IdentSplit u r ps → IdentSplit u (d ++ r) (d :: ps)
  | lower {l r ps} : l ≠ [] → (∀ c ∈ l, u.reLower c = true) → NotStarting u.reLower r →
      IdentSplit u r ps → IdentSplit u (l ++ r) (l :: ps)
  | capitalised {c l r ps} : u.reUpper c = true → l ≠ [] → (∀ c ∈ l, u.reLower c = true) → NotStarting u.reLower r →
      IdentSplit u r ps → IdentSplit u ((c :: l) ++ r) ((c :: l) :: ps)
  | capitals {w r ps} : w ≠ [] → (∀ c ∈ w, u.reUpper c = true) → NotStarting u.reLower r →
      (NotStarting u.reUpper r ∨ ∃ c d t, r = c :: d :: t ∧ u.reUpper c = true ∧ u.reLower d = true) →
      IdentSplit u r ps → IdentSplit u (w ++ r) (w :: ps)
  | other {c r ps} : c ≠ ' ' → c ≠ '_' → asciiDigit c = false → u.reUpper c = false → u.reLower c = false →
      IdentSplit u r ps → IdentSplit u (c :: r) ([c] :: ps)
  | space {r ps} : IdentSplit u r ps → IdentSplit u (' ' :: r) ps

/-- The pieces of a piece of code: maximal runs of word characters, other single characters, and groups of four spaces;
in a run of spaces the groups are formed from the left and the rest is left out. -/
inductive TextSplit (u : Ucd) : Str → List Str → Prop
  | nil : TextSplit u [] []
  | word {w r ps} : w ≠ [] → (∀ c ∈ w, u.reWord c = true) → NotStarting u.reWord r →
      TextSplit u r ps → TextSplit u (w ++ r) (w :: ps)
  | char {c r ps} : c ≠ ' ' → u.reWord c = false → TextSplit u r ps → TextSplit u (c :: r) ([c] :: ps)
  | fourSpaces {r ps} : TextSplit u r ps → TextSplit u (' ' :: ' ' :: ' ' :: ' ' :: r) ([' ', ' ', ' ', ' '] :: ps)
  | space {r ps} : (∀ t, r ≠ ' ' :: ' ' :: ' ' :: t) → TextSplit u r ps → TextSplit u (' ' :: r) ps

/-- The pieces of a string literal: maximal runs of word characters, other single characters, and maximal runs of
spaces. -/
inductive LiteralSplit (u : Ucd) : Str → List Str → Prop
  | nil : LiteralSplit u [] []
  | word {w r ps} : w ≠ [] → (∀ c ∈ w, u.reWord c = true) → NotStarting u.reWord r →
      LiteralSplit u r ps → LiteralSplit u (w ++ r) (w :: ps)
  | char {c r ps} : c ≠ ' ' → u.reWord c = false → LiteralSplit u r ps → LiteralSplit u (c :: r) ([c] :: ps)
  | spaces {n r ps} : NotStarting (· == ' ') r →
      LiteralSplit u r ps → LiteralSplit u (List.replicate (n + 1) ' ' ++ r) (List.replicate (n + 1) ' ' :: ps)

/-- A text with every group of four spaces (in a run, from the left) written as a tab and all other spaces removed. -/
def expandTabs : Str → Str
  | ' ' :: ' ' :: ' ' :: ' ' :: r => '\t' :: expandTabs r
  | ' ' :: r => expandTabs r
  | c :: r => c :: expandTabs r
  | [] => []

/-- A text with spaces written as non-breaking spaces. -/
def nbsp (s : Str) : Str := s.map fun c => if c = ' ' then '\u00a0' else c

open Classical in
/-- A piece of text as it is shown: number literals in lower case, everything else unchanged. -/
noncomputable def lowerNumber (p : Str) : Str := if IsNumber p then p.map asciiToLower else p

/-- A piece of code as it is shown: four spaces as a tab. -/
noncomputable def shownText (p : Str) : Str := if p = [' ', ' ', ' ', ' '] then ['\t'] else lowerNumber p

/-- A piece of a string literal as it is shown: spaces as non-breaking spaces. -/
noncomputable def shownLiteral (p : Str) : Str := nbsp (lowerNumber p)

/-- Number literals in the text contain no capital letters: no maximal run of word characters is a number literal with a
capital letter in it. -/
def NoCapitalNumbers (u : Ucd) (s : Str) : Prop :=
  ∀ a w b, s = a ++ (w ++ b) → (∀ c ∈ w, u.reWord c = true) → NotStarting u.reWord b →
    (∀ c, a.getLast? = some c → u.reWord c = false) → IsNumber w → ∀ c ∈ w, asciiUpper c = false

/-- All word characters of the text are ASCII. -/
def AsciiWords (u : Ucd) (s : Str) : Prop := ∀ c ∈ s, u.reWord c = true → isAscii c = true

end Verif.Spec
