import Verif.Spec.Made
/-!
# How many subwords there are after merges
-/
namespace Verif.Spec
open Verif

/-- The number of subwords in split words with frequencies. -/
def pieces (v : List (List Str × Nat)) : Nat := (v.map fun e => e.2 * e.1.length).sum

/-- The sum of the frequencies of merges. -/
def freqSum (ms : List ((Str × Str) × Int)) : Int := (ms.map (·.2)).sum

end Verif.Spec
