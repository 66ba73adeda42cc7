import Verif.Spec.BpeLearn
/-!
# The text of a split word (C80)
-/
namespace Verif.Spec
open Verif

/-- The text of a split word: the subwords with a space between them. -/
def spacedText (w : List Str) : Str := List.intercalate [' '] w

/-- The texts of the split words of a vocabulary. -/
def spacedTexts (v : List (List Str × Nat)) : List (Str × Nat) := v.map fun e => (spacedText e.1, e.2)

/-- A split word whose text can be read back: there are subwords, none is empty or has a space, and the last one does not end with a
line feed. -/
structure Clean (w : List Str) : Prop where
  ne : w ≠ []
  sym : ∀ s ∈ w, s ≠ [] ∧ ' ' ∉ s
  last : ∀ s, w.getLast? = some s → s.getLast? ≠ some '\n'

/-- The subwords of a pair have no space. -/
def NoSpace (p : Str × Str) : Prop := ' ' ∉ p.1 ∧ ' ' ∉ p.2

end Verif.Spec
