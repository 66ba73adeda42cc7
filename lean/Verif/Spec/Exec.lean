import Verif.Spec.Vocab
import Verif.Model.Literal
/-!
# Specifications for executions and for vocabularies of a corpus
-/
namespace Verif.Spec

/-- Finitely many steps, one after the other. -/
inductive Star {α : Type} (r : α → α → Prop) (a : α) : α → Prop where
  | refl : Star r a a
  | tail {b c : α} : Star r a b → r b c → Star r a c

/-- A table of counts has every word of some tables exactly once, together with the sum of its counts in them. -/
structure IsSum (tables : List (List (Str × Nat))) (d : List (Str × Nat)) : Prop where
  once : (d.map (·.1)).Nodup
  words : ∀ w, w ∈ d.map (·.1) ↔ ∃ t ∈ tables, w ∈ t.map (·.1)
  counts : ∀ w, countIn d w = (tables.map fun t => countIn t w).sum

/-- The text of a vocabulary file for some tables of counts: a line with a word, a tab and the sum of its counts for every
word, the more frequent words first. -/
def IsVocabFile (tables : List (List (Str × Nat))) (text : Str) : Prop :=
  ∃ d : List (Str × Nat), IsSum tables d ∧ d.Pairwise (fun a b => b.2 ≤ a.2) ∧
    text = (d.map fun e => e.1 ++ '\t' :: (natStr e.2 ++ ['\n'])).flatten

end Verif.Spec
