import Verif.Spec.LearnDisk
import Verif.Spec.Gather
import Verif.Spec.Solid
import Verif.Model.Text
/-!
# What is learnt from the files of a dataset (C68)
-/
namespace Verif.Spec
open Verif

/-- The call of the Python API that shows the words of a text which are learnt from: no splitting, comments left out, literals in one
piece, and empty if they are longer than 14 characters. -/
def learnCall (b : BpeConfig) : ApiCall :=
  .nosplit { noUnicode := decide (b.unicode = "no".toList), noCom := true, maxStrLength := 14 } true

/-- Number of occurrences of a word in several outputs. -/
def occurrencesIn (outs : List (List Str)) (w : Str) : Nat := (outs.map fun l => l.count w).sum

/-- The word is not to be split: it was recorded in the metadata of one of the outputs, or it is a placeholder. -/
def KeptWhole (mds : List Meta) (w : Str) : Prop := (∃ md ∈ mds, w ∈ md.nonproc) ∨ w ∈ Ph.all

end Verif.Spec
