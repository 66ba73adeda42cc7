import Verif.Spec.BpeLearn
/-!
# The subwords that merges make
-/
namespace Verif.Spec
open Verif

/-- The subword that a merge makes. -/
def made (e : (Str × Str) × Int) : Str := e.1.1 ++ e.1.2

/-- How often a subword occurs in split words with frequencies. -/
def subwordCount (v : List (List Str × Nat)) (x : Str) : Nat := (v.map fun e => e.2 * e.1.count x).sum

/-- The symbols that the words consist of before any merge. -/
def startSymbols (words : List (Str × Nat)) : List Str := words.flatMap fun e => initialSymbols e.1

end Verif.Spec
