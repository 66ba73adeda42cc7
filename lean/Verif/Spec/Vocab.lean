import Verif.Base.Str
/-!
# Specifications for dividing work and for counting words
-/
namespace Verif.Spec

/-- The elements of a list at the positions that leave remainder `i` when divided by `n`. -/
def atRemainder {α : Type} (l : List α) (n i : Nat) : List α :=
  (l.zipIdx.filter fun e => e.2 % n = i).map (·.1)

/-- How often a word is counted in a table of counts. -/
def countIn (d : List (Str × Nat)) (w : Str) : Nat := ((d.filter fun e => e.1 = w).map (·.2)).sum

end Verif.Spec
