import Verif.Base.Str
/-!
# Independent specification of byte-pair encoding on symbol lists
-/
namespace Verif.Spec
open Verif

/-- `p.1` and `p.2` are neighbours (in this order) somewhere in `s`. -/
def Adjacent (p : Str × Str) (s : List Str) : Prop :=
  ∃ pre post, s = pre ++ p.1 :: p.2 :: post

/-- Replace all non-overlapping occurrences of the pair `p`, from left to right, by its concatenation. -/
def replaceAll (p : Str × Str) : List Str → List Str
  | [] => []
  | [a] => [a]
  | a :: b :: r =>
    if a = p.1 ∧ b = p.2 then (a ++ b) :: replaceAll p r
    else a :: replaceAll p (b :: r)

/-- One BPE step with ranks `rank`: pick a pair of neighbours of the smallest rank and replace all its occurrences. -/
def Step (rank : Str × Str → Option Nat) (s s' : List Str) : Prop :=
  ∃ p k, rank p = some k ∧ Adjacent p s ∧
    (∀ q k', rank q = some k' → Adjacent q s → k ≤ k') ∧ s' = replaceAll p s

/-- Reflexive transitive closure of `Step`. -/
inductive Steps (rank : Str × Str → Option Nat) : List Str → List Str → Prop
  | refl (s) : Steps rank s s
  | head {s t u} : Step rank s t → Steps rank t u → Steps rank s u

/-- No two neighbours form a ranked pair. -/
def Final (rank : Str × Str → Option Nat) (s : List Str) : Prop :=
  ∀ p, Adjacent p s → rank p = none

/-- `coarse` is obtained from `fine` by gluing together consecutive symbols. -/
def Coarsens (coarse fine : List Str) : Prop :=
  ∃ groups : List (List Str), groups.flatten = fine ∧ (∀ g ∈ groups, g ≠ []) ∧
    coarse = groups.map List.flatten

/-- The symbols BPE starts from: one symbol per character, where the character '@' is written '@@', followed by the
end-of-word symbol '@'. -/
def initialSymbols (w : Str) : List Str :=
  w.map (fun c => if c = '@' then ['@', '@'] else [c]) ++ [['@']]

end Verif.Spec
