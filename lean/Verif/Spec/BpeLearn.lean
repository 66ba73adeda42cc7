import Verif.Spec.Bpe
/-!
# Independent specification of byte-pair learning
-/
namespace Verif.Spec
open Verif

/-- Number of positions at which `p.1` is directly followed by `p.2`. -/
def pairCount (p : Str × Str) : List Str → Nat
  | a :: b :: r => (if a = p.1 ∧ b = p.2 then 1 else 0) + pairCount p (b :: r)
  | _ => 0

/-- Number of occurrences of a pair in a vocabulary of split words with frequencies. -/
def weightedCount (v : List (List Str × Nat)) (p : Str × Str) : Nat :=
  (v.map fun e => e.2 * pairCount p e.1).sum

/-- Join the pair `p` in all words. -/
def mergeIn (p : Str × Str) (v : List (List Str × Nat)) : List (List Str × Nat) :=
  v.map fun e => (replaceAll p e.1, e.2)

/-- `Learns v ms v'`: byte-pair learning may turn `v` into `v'` by the merges `ms` (pairs with frequencies): every merge
is, at its time, a pair of neighbours with the largest number of occurrences, and this number is recorded. -/
inductive Learns : List (List Str × Nat) → List ((Str × Str) × Int) → List (List Str × Nat) → Prop
  | done (v) : Learns v [] v
  | step {v v' p ms} : 0 < weightedCount v p → (∀ q, weightedCount v q ≤ weightedCount v p) →
      Learns (mergeIn p v) ms v' → Learns v ((p, (weightedCount v p : Int)) :: ms) v'

/-- The training vocabulary made of words with their frequencies. -/
def trainingVocab (words : List (Str × Nat)) : List (List Str × Nat) :=
  words.map fun e => (initialSymbols e.1, e.2)

/-- Entries of the merge list: pair, frequency, rank counted from `i`. -/
def ranked : Nat → List ((Str × Str) × Int) → List ((Str × Str) × (Option Int × Nat))
  | _, [] => []
  | i, (p, f) :: r => (p, (some f, i)) :: ranked (i + 1) r

end Verif.Spec
