import Verif.Spec.Modes
/-!
# Fewer merges of the same list
-/
namespace Verif.Spec
open Verif

/-- `few` consists of the first merges of `many`: those with a priority below some number. -/
def FirstOf (few many : MergeList) : Prop :=
  ∃ k, ∀ p r, few.priority? p = some r ↔ many.priority? p = some r ∧ r < k

/-- Every word that is in the cache of words is stored as the merges split it. -/
def GenuineWords (d : BpeData) : Prop :=
  ∀ w l, d.cache.get? (escape w true) = some l → encodeWord (escape w true) d.merges = .ok l

/-- No pair of symbols is repeated in the first `n` lines of a file with merges that is read as `m`. -/
def NoneRepeated (text : Str) (n : Nat) (m : MergeList) : Prop := m.length = min n (readLines text).length

end Verif.Spec
