import Verif.Model.BpeEncode
/-!
# Specification: splitting a whole dictionary of words
-/
namespace Verif.Spec

/-- A text in which every '@' is doubled. -/
def atDoubled (u : Str) : Str := u.flatMap fun c => if c = '@' then ['@', '@'] else [c]

/-- A word is escaped legally: all '@' are doubled, except possibly one that marks the end. -/
def LegalWord (w : Str) : Prop := ∃ u, w = atDoubled u ∨ w = atDoubled u ++ ['@']

/-- The merges join two texts, none of which is empty. -/
def PartsNonempty (m : MergeList) : Prop := ∀ p k, m.priority? p = some k → p.1 ≠ [] ∧ p.2 ≠ []

/-- In the same order, `out` has for every word the word as it is split alone, its parts separated by spaces,
with the number of the word. -/
def EachSplitAlone (words : Dict Str Int) (m : MergeList) (out : Dict Str Int) : Prop :=
  out.length = words.length ∧
    ∀ (i : Nat) (w : Str) (n : Int), words[i]? = some (w, n) →
      ∃ parts, encodeWord w m = .ok parts ∧ out[i]? = some (pyJoin [' '] parts, n)

end Verif.Spec
