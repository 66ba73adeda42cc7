import Verif.Model.Api
import Verif.Model.Files
/-!
# Specifications for option handling and for the replacement of non-ASCII text
-/
namespace Verif.Spec
open Verif

/-- The command line on which a user asks for the same preprocessing as the given API call
(`codeprep nosplit | chars | basic | bpe ...`).  The maximal string length is written in decimal. -/
def commandLine : ApiCall → CliArgs
  | .nosplit o fs =>
    { nosplit := true, chars := false, basic := false, bpe := false, k1 := false, k5 := false, k10 := false, bpeCodesId := none,
      noSpaces := o.noSpaces, noUnicode := o.noUnicode, noCase := false, noCom := o.noCom, noStr := o.noStr, fullStrings := fs,
      maxStrLength := some (intStr o.maxStrLength), splitNumbers := false, ronin := false, stem := false }
  | .chars o =>
    { nosplit := false, chars := true, basic := false, bpe := false, k1 := false, k5 := false, k10 := false, bpeCodesId := none,
      noSpaces := o.noSpaces, noUnicode := o.noUnicode, noCase := false, noCom := o.noCom, noStr := o.noStr, fullStrings := false,
      maxStrLength := some (intStr o.maxStrLength), splitNumbers := false, ronin := false, stem := false }
  | .basic o sn ro st nc =>
    { nosplit := false, chars := false, basic := true, bpe := false, k1 := false, k5 := false, k10 := false, bpeCodesId := none,
      noSpaces := o.noSpaces, noUnicode := o.noUnicode, noCase := nc, noCom := o.noCom, noStr := o.noStr, fullStrings := false,
      maxStrLength := some (intStr o.maxStrLength), splitNumbers := sn, ronin := ro, stem := st }
  | .bpe i o =>
    { nosplit := false, chars := false, basic := false, bpe := true,
      k1 := i = "1k".toList, k5 := i = "5k".toList, k10 := i = "10k".toList,
      bpeCodesId := if i = "1k".toList ∨ i = "5k".toList ∨ i = "10k".toList then none else some i,
      noSpaces := o.noSpaces, noUnicode := o.noUnicode, noCase := false, noCom := o.noCom, noStr := o.noStr, fullStrings := false,
      maxStrLength := some (intStr o.maxStrLength), splitNumbers := false, ronin := false, stem := false }

/-- The common options of a call. -/
def optsOf : ApiCall → CommonOpts
  | .nosplit o _ => o
  | .chars o => o
  | .basic o _ _ _ _ => o
  | .bpe _ o => o

/-- The character for the splitting mode in a configuration string. -/
def splitCode : ApiCall → Char
  | .nosplit _ fs => if fs then 'F' else '0'
  | .chars _ => '8'
  | .basic _ sn ro st _ => if st then 's' else if ro then '3' else if sn then '2' else '1'
  | .bpe i _ => if i = "1k".toList then '5' else if i = "5k".toList then '4' else if i = "10k".toList then '6' else '9'

/-- Whether a call asks for lower-casing. -/
def noCaseOf : ApiCall → Bool
  | .basic _ _ _ _ nc => nc
  | _ => false

/-- `out` is `w` with every maximal run of non-ASCII characters replaced by `ph`. -/
inductive Replaced (ph : Str) : Str → Str → Prop
  | nil : Replaced ph [] []
  | keep {c : Char} {w out : Str} : c.toNat < 128 → Replaced ph w out → Replaced ph (c :: w) (c :: out)
  | run {run w out : Str} : run ≠ [] → (∀ c ∈ run, 128 ≤ c.toNat) → (∀ c, w.head? = some c → c.toNat < 128) →
      Replaced ph w out → Replaced ph (run ++ w) (ph ++ out)

end Verif.Spec
