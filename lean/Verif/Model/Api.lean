import Verif.Model.Iterators
/-!
# Model of the entry points of `codeprep/api/text.py`, `codeprep/api/corpus.py` and `codeprep/cli/impl.py`:
from options to a configuration and an id of BPE codes
-/
namespace Verif

/-- The options all entry points have in common (text.py 43-44, 166-167, 240-242, 357-359; corpus.py 72-73, 105-106,
139-142, 183-184). -/
structure CommonOpts where
  noSpaces : Bool := false
  noUnicode : Bool := false
  noCom : Bool := false
  noStr : Bool := false
  maxStrLength : Int := sysMaxsize
deriving DecidableEq, Repr

/-- A call of one of the four preprocessing functions of the Python API. -/
inductive ApiCall where
  | nosplit (o : CommonOpts) (fullStrings : Bool)
  | chars (o : CommonOpts)
  | basic (o : CommonOpts) (splitNumbers ronin stem noCase : Bool)
  | bpe (bpeCodesId : Str) (o : CommonOpts)
deriving DecidableEq, Repr

/-- text.py 161-162, 233-234, 351-353, 453-454: the configuration `codeprep.api.text` builds. -/
def textConfig : ApiCall → Except PyErr PrepConfig
  | .nosplit o fs => createPrepConfig
      { splType := "nosplit".toList, noSpaces := o.noSpaces, noUnicode := o.noUnicode, noCom := o.noCom, noStr := o.noStr,
        fullStrings := fs, maxStrLength := o.maxStrLength }
  | .chars o => createPrepConfig
      { splType := "chars".toList, noSpaces := o.noSpaces, noUnicode := o.noUnicode, noCom := o.noCom, noStr := o.noStr,
        maxStrLength := o.maxStrLength }
  | .basic o sn ro st nc => createPrepConfig
      { splType := "basic".toList, noSpaces := o.noSpaces, noUnicode := o.noUnicode, noCase := nc, noCom := o.noCom,
        noStr := o.noStr, maxStrLength := o.maxStrLength, splitNumbers := sn || ro || st, ronin := ro || st, stem := st }
  | .bpe i o => createPrepConfig
      { splType := "bpe".toList, bpeCodesId := some i, noSpaces := o.noSpaces, noUnicode := o.noUnicode, noCom := o.noCom,
        noStr := o.noStr, maxStrLength := o.maxStrLength }

/-- corpus.py 99-100, 133-134, 176-178, 218-219: the configuration `codeprep.api.corpus` builds. -/
def corpusConfig : ApiCall → Except PyErr PrepConfig
  | .nosplit o fs => createPrepConfig
      { splType := "nosplit".toList, noSpaces := o.noSpaces, noUnicode := o.noUnicode, noCom := o.noCom, noStr := o.noStr,
        fullStrings := fs, maxStrLength := o.maxStrLength }
  | .chars o => createPrepConfig
      { splType := "chars".toList, noSpaces := o.noSpaces, noUnicode := o.noUnicode, noCom := o.noCom, noStr := o.noStr,
        maxStrLength := o.maxStrLength }
  | .basic o sn ro st nc => createPrepConfig
      { splType := "basic".toList, noSpaces := o.noSpaces, noUnicode := o.noUnicode, noCase := nc, noCom := o.noCom,
        noStr := o.noStr, maxStrLength := o.maxStrLength, splitNumbers := sn || st || ro, ronin := ro || st, stem := st }
  | .bpe i o => createPrepConfig
      { splType := "bpe".toList, bpeCodesId := some i, noSpaces := o.noSpaces, noUnicode := o.noUnicode, noCom := o.noCom,
        noStr := o.noStr, maxStrLength := o.maxStrLength }

/-- The BPE codes id passed on by the four functions (text.py 163, 235, 354, 455; corpus.py 101, 135, 179, 220). -/
def apiBpeCodesId : ApiCall → Option Str
  | .nosplit _ _ => none
  | .chars _ => some "0".toList
  | .basic _ _ _ _ _ => none
  | .bpe i _ => some i

/-- `a or b` for two optional strings; the empty string is false. -/
def pyOr (a b : Option Str) : Option Str :=
  match a with
  | some (c :: r) => some (c :: r)
  | _ => b

/-- impl.py 69: `get_option(args, '<bpe-codes-id>') or get_predefined_bpe_codes_id(args)`. -/
def cliBpeCodesId (a : CliArgs) : Option Str := pyOr a.bpeCodesId (cliPredefinedId a)

end Verif
