/-!
# Reference behaviour of a counter with "pop the most frequent key"

The state is the list of keys with their counts, ordered by the time of their last update.
-/
namespace Verif.Spec

/-- Keys with their counts; the key updated last comes last. -/
abbrev Ref (α : Type) := List (α × Int)

namespace Ref
variable {α : Type} [DecidableEq α]

/-- The count of a key; keys that are not present count 0. -/
def value (r : Ref α) (k : α) : Int := ((r.find? (fun e => e.1 = k)).map (·.2)).getD 0

/-- Forget a key. -/
def erase (r : Ref α) (k : α) : Ref α := r.filter (fun e => e.1 ≠ k)

/-- Add `x` to the count of `k`; a key whose count becomes 0 is forgotten. -/
def add (r : Ref α) (k : α) (x : Int) : Ref α :=
  if r.value k + x = 0 then r.erase k else r.erase k ++ [(k, r.value k + x)]

/-- `m` has the largest count, and among the keys with this count it is the one that was updated first. -/
def IsTop (r : Ref α) (m : α × Int) : Prop :=
  ∃ older newer, r = older ++ m :: newer ∧ (∀ x ∈ older, x.2 < m.2) ∧ (∀ x ∈ newer, x.2 ≤ m.2)

end Ref
end Verif.Spec
