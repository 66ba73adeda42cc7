import Verif.Spec.Bpe
/-!
# Specification: merges whose text occurs in a word
-/
namespace Verif.Spec

/-- The text of a word in which merges are looked for: every '@' is written '@@', spaces are left out, and the end is marked with '@'. -/
def searched (w : Str) : Str := ((w.filter (· ≠ ' ')).flatMap fun c => if c = '@' then ['@', '@'] else [c]) ++ ['@']

/-- The two parts of a merge stand somewhere in the word one after the other. -/
def OccursIn (p : Str × Str) (w : Str) : Prop := ∃ u v, searched w = u ++ p.1 ++ p.2 ++ v

end Verif.Spec
