import Verif.Model.BpeEncode
/-!
# Splitting a part of a word again
-/
namespace Verif.Spec
open Verif

/-- No merge is about the end of a word: none has the end-of-word symbol as its second part. -/
def NoEndMerges (m : MergeList) : Prop := ∀ p, p.2 = ['@'] → m.priority? p = none

end Verif.Spec
