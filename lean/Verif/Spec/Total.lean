import Verif.Spec.Exec
/-!
# Specification: totals of tables of counts
-/
namespace Verif.Spec

/-- What all counts of a table add up to. -/
def countsTotal {α : Type} (d : List (α × Nat)) : Nat := (d.map (·.2)).sum

end Verif.Spec
