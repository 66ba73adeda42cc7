import Verif.Spec.BpeLearn
import Verif.Model.BpeLearn
/-!
# Ties in learning merges
-/
namespace Verif.Spec
open Verif

/-- Whenever one of the merges was made, all other pairs of neighbours were less frequent. -/
inductive NoTies : List (List Str × Nat) → List (Str × Str) → Prop
  | nil {v} : NoTies v []
  | cons {v p ms} : (∀ q, q ≠ p → weightedCount v q < weightedCount v p) → NoTies (mergeIn p v) ms → NoTies v (p :: ms)

/-- Split words, each `k` times as frequent. -/
def timesWords (k : Nat) (v : List (List Str × Nat)) : List (List Str × Nat) := v.map fun e => (e.1, k * e.2)

/-- Merges, each `k` times as frequent. -/
def timesMerges (k : Nat) (ms : List ((Str × Str) × (Option Int × Nat))) : List ((Str × Str) × (Option Int × Nat)) :=
  ms.map fun e => (e.1, (e.2.1.map fun f => (k : Int) * f, e.2.2))

end Verif.Spec
