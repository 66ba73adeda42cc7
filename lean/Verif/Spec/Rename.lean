import Verif.Spec.BpeLearn
/-!
# Specification: renaming characters
-/
namespace Verif.Spec

/-- Another name for every character: different characters get different names, and the characters with a meaning of their own, '@' and
the space, stay. -/
structure Renaming (f : Char → Char) : Prop where
  inj : ∀ a b, f a = f b → a = b
  mark : f '@' = '@'
  space : f ' ' = ' '

/-- Split words with renamed characters. -/
def renamedWords (f : Char → Char) (v : List (List Str × Nat)) : List (List Str × Nat) := v.map fun e => (e.1.map (List.map f), e.2)

/-- Merges with renamed characters. -/
def renamedMerges (f : Char → Char) (ms : List ((Str × Str) × (Option Int × Nat))) : List ((Str × Str) × (Option Int × Nat)) :=
  ms.map fun e => ((e.1.1.map f, e.1.2.map f), e.2)

end Verif.Spec
