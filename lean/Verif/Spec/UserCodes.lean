import Verif.Model.UserCodes
import Verif.Spec.Bpe
import Verif.Spec.BpeState
import Verif.Spec.VocabLoader
/-!
# What learnt merges do to words (C75)
-/
namespace Verif.Spec
open Verif

/-- A piece of a word as a symbol: `@` is doubled. -/
def symbol (s : Str) : Str := s.flatMap fun c => if c = '@' then ['@', '@'] else [c]

/-- The pieces of a word as symbols: the last one is marked with a single `@`. -/
def symbols : List Str → List Str
  | [] => []
  | [s] => [symbol s ++ ['@']]
  | s :: r => symbol s :: symbols r

/-- The pieces `subs` of the word come from replacing the pairs by their concatenations, one pair after the other, everywhere in the word. -/
def MergedInOrder (pairs : List (Str × Str)) (w : Str) (subs : List Str) : Prop :=
  subs.flatten = w ∧ symbols subs = pairs.foldl (fun s p => replaceAll p s) (initialSymbols w)

end Verif.Spec
