import Verif.Spec.Vocab
/-!
# Specification of the statistics of a vocabulary
-/
namespace Verif.Spec

/-- The mean of some numbers, rounded down. -/
def mean (l : List Nat) : Nat := l.sum / l.length

/-- How often words that are not English are counted in some table. -/
def nonEnglishIn (t : List (Str × Nat)) : Nat := countIn t "<non-en>".toList

/-- Statistics of a vocabulary that is collected from some tables of counts: a size, and lines with a number of tables, a mean
number of words and a mean count of words that are not English in vocabularies of so many tables. -/
structure IsStatistics (tables : List (List (Str × Nat))) (size : Nat) (lines : List (Nat × Nat × Nat)) : Prop where
  /-- The size is the number of different words. -/
  words : ∃ ws : List Str, ws.Nodup ∧ (∀ x, x ∈ ws ↔ ∃ t ∈ tables, x ∈ t.map (·.1)) ∧ size = ws.length
  /-- The lines are in increasing order, and there are never two for the same number of tables. -/
  increasing : lines.Pairwise fun a b => a.1 < b.1
  /-- The first line is about single tables, and has the means over all of them. -/
  first : lines.head? = some (1, mean (tables.map (·.length)), mean (tables.map nonEnglishIn))
  /-- The last line is about all tables together. -/
  last : lines.getLast? = some (tables.length, size, (tables.map nonEnglishIn).sum)
  /-- No line has more words, or more words that are not English, than all tables together. -/
  bounded : ∀ l ∈ lines, l.2.1 ≤ size ∧ l.2.2 ≤ (tables.map nonEnglishIn).sum

end Verif.Spec
