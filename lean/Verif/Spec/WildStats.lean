import Verif.Model.WildStats
import Verif.Spec.WildBpe
/-!
# What the performance statistics of `wild_bpe` should say
-/
namespace Verif.Spec
open Verif

/-- The text `s` has `n` different pairs of adjacent tokens. -/
def HasPairs (s : List Str) (n : Nat) : Prop := ∃ ps : List (Str × Str), ps.Nodup ∧ (∀ p, p ∈ ps ↔ Adjacent p s) ∧ ps.length = n

/-- The entry `e` describes the state for the text `s`: the index has an entry for every pair, the queue has at least as many, and
it is said that `i` merges have been done. -/
def Describes (e : Wild.StatEntry) (i : Nat) (s : List Str) : Prop :=
  e.mergesDone = i ∧ HasPairs s e.indexEntries ∧ e.indexEntries ≤ e.queueEntries

/-- The limit for memory: 3072 megabytes. -/
def WithinLimit (m : Wild.Memory) : Prop := m.location + m.neighbour + m.queue ≤ 3072000000

/-- `Reported k n i s st l`: `l` are the next `n` merges of the text `s`, after `i` merges, with the statistics `st` so far.  After
the first merge, the second one, and then after every `k`-th one an entry is added; the run ends if that shows too much memory. -/
inductive Reported (k : Int) : Nat → Nat → List Str → List Wild.StatEntry → List (Str × Int × Option (List Wild.StatEntry)) → Prop
  | zero (i s st) : Reported k 0 i s st []
  | done (n i s st) : s.length ≤ 1 → Reported k n i s st []
  | quiet {n i : Nat} {s a b st l} : IsBest s (a, b) → ¬ (i = 0 ∨ i = 1 ∨ k ∣ (i : Int)) → Reported k n (i + 1) (replaceAll (a, b) s) st l →
      Reported k (n + 1) i s st ((a ++ ' ' :: b, (s.length : Int) - (replaceAll (a, b) s).length, some st) :: l)
  | entry {n i : Nat} {s a b st l e} : IsBest s (a, b) → (i = 0 ∨ i = 1 ∨ k ∣ (i : Int)) → Describes e i (replaceAll (a, b) s) → WithinLimit e.memory →
      Reported k n (i + 1) (replaceAll (a, b) s) (st ++ [e]) l →
      Reported k (n + 1) i s st ((a ++ ' ' :: b, (s.length : Int) - (replaceAll (a, b) s).length, some (st ++ [e])) :: l)
  | full {n i : Nat} {s a b st e} : IsBest s (a, b) → (i = 0 ∨ i = 1 ∨ k ∣ (i : Int)) → Describes e i (replaceAll (a, b) s) → ¬ WithinLimit e.memory →
      Reported k (n + 1) i s st [(a ++ ' ' :: b, (s.length : Int) - (replaceAll (a, b) s).length, some (st ++ [e]))]

end Verif.Spec
