import Verif.Model.BpeEncode
/-!
# Looking a word up several times
-/
namespace Verif.Spec
open Verif

/-- The results of looking a word up `k` times, one time after another, and the data afterwards; or the first exception. -/
def lookups (w : Str) : Nat → BpeData → Except PyErr (List (List Str) × BpeData)
  | 0, d => .ok ([], d)
  | k + 1, d =>
    match getBpeSubwordsSt w d with
    | .error e => .error e
    | .ok (r, d') =>
      match lookups w k d' with
      | .error e => .error e
      | .ok (rs, d'') => .ok (r :: rs, d'')

end Verif.Spec
