import Verif.Model.WildBpe
/-!
# Model of the helpers `swap_pair`, `are_symmetric` and `self_merge` of `codeprep/bpepkg/wild_bpe.py`
-/
namespace Verif.Wild
open Verif

/-- wild_bpe.py 84-86 `swap_pair`: `pair_split[1]` is looked up first. -/
def swapPair (pair : Str) : Except PyErr Str := do
  let b ← part pair 1
  let a ← part pair 0
  .ok (join b a)

/-- wild_bpe.py 89-106 `are_symmetric`; `and` does not look at its right side if the left one is false. -/
def areSymmetric (pair1 pair2 : Str) : Except PyErr Bool := do
  if pair1.length ≠ pair2.length then .ok false
  else
    let a ← part pair1 0
    let b ← part pair2 1
    if a ≠ b then .ok false
    else
      let c ← part pair1 1
      let d ← part pair2 0
      .ok (decide (c = d))

/-- wild_bpe.py 142-151 `self_merge`, the second of the lists it returns (the first is always empty): the loop over the
positions `i` and `i + 1`. -/
def selfMerge (shift : Int) : List Int → List Int
  | a :: b :: r => if a + shift = b then a :: selfMerge shift r else selfMerge shift (b :: r)
  | _ => []

end Verif.Wild
