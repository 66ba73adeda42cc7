import Verif.Model.Tokens
import Verif.Model.BpeEncode
/-!
# Model of `codeprep/prepconfig.py`, `codeprep/stemming.py` and the option handling of `codeprep/api/common.py`
-/
namespace Verif

/-- prepconfig.py 26-32 `PrepParam`. -/
inductive PrepParam where
  | enOnly | com | str | split | tabsNewlines | case
deriving DecidableEq, Repr

/-- Iterating over the enum `PrepParam` (prepconfig.py 26-32). -/
def PrepParam.all : List PrepParam := [.enOnly, .com, .str, .split, .tabsNewlines, .case]

/-- prepconfig.py 35-37 `get_possible_str_values`. -/
def possibleStrValues : List Str :=
  (((List.range (58 - 48)).map (48 + ·)) ++ ((List.range (91 - 65)).map (65 + ·)) ++
    ((List.range (123 - 97)).map (97 + ·))).map fun n => [Char.ofNat n]

/-- `lst.index(x)`. -/
def pyIndex (l : List Str) (x : Str) : Except PyErr Nat :=
  if x ∈ l then .ok (l.idxOf x) else .error .valueError

/-- prepconfig.py 40-47 `get_max_str_length`. -/
def getMaxStrLength (ch : Str) : Except PyErr (Option Nat) := do
  let num ← pyIndex possibleStrValues ch
  if num = 0 then .ok none
  else if num = 1 then .ok (some sysMaxsize)
  else .ok (some num)

/-- prepconfig.py 51-58 `possible_param_values`. -/
def possibleParamValues : PrepParam → List Str
  | .enOnly => [['u'], ['U']]
  | .com => [['0'], ['c']]
  | .str => possibleStrValues
  | .split => [['0'], ['F'], ['1'], ['2'], ['3'], ['s'], ['4'], ['5'], ['6'], ['7'], ['8'], ['9']]
  | .tabsNewlines => [['s'], ['0']]
  | .case => [['u'], ['l']]

/-- prepconfig.py 117-120 `PrepConfig`: one value per parameter. -/
structure PrepConfig where
  enOnly : Str
  com : Str
  str : Str
  split : Str
  tabsNewlines : Str
  case : Str
deriving DecidableEq, Repr

/-- prepconfig.py 131-132 `get_param_value`. -/
def PrepConfig.get (c : PrepConfig) : PrepParam → Str
  | .enOnly => c.enOnly
  | .com => c.com
  | .str => c.str
  | .split => c.split
  | .tabsNewlines => c.tabsNewlines
  | .case => c.case

/-- `params[pp]`. -/
def paramOf (d : Dict PrepParam Str) (p : PrepParam) : Except PyErr Str :=
  match d.get? p with
  | some v => .ok v
  | none => .error .keyError

/-- prepconfig.py 105-108: the loop over all parameters. -/
def checkValues (d : Dict PrepParam Str) : List PrepParam → Except PyErr Unit
  | [] => .ok ()
  | p :: r => do
    let v ← paramOf d p
    if v ∈ possibleParamValues p then checkValues d r else .error .valueError

/-- prepconfig.py 117-120 `PrepConfig(params)` with 102-115 `__check_invariants`. -/
def PrepConfig.make (d : Dict PrepParam Str) : Except PyErr PrepConfig :=
  if d.length ≠ PrepParam.all.length then .error .valueError
  else do
    checkValues d PrepParam.all
    let case ← paramOf d .case
    let split ← paramOf d .split
    if case = ['l'] ∧ split ∈ [['0'], ['F']] then .error .valueError
    else if case = ['l'] ∧ split ∈ [['4'], ['5'], ['6'], ['7'], ['9']] then .error .valueError
    else do
      let enOnly ← paramOf d .enOnly
      let com ← paramOf d .com
      let str ← paramOf d .str
      let tabs ← paramOf d .tabsNewlines
      .ok ⟨enOnly, com, str, split, tabs, case⟩

/-- prepconfig.py 97-99: `for ch, pp in zip(s, PrepParam): res[pp] = ch`. -/
def paramDict (s : Str) : Dict PrepParam Str :=
  (s.zip PrepParam.all).foldl (fun d e => d.set e.2 [e.1]) []

/-- prepconfig.py 93-100 `from_encoded_string`. -/
def PrepConfig.fromEncoded (s : Str) : Except PyErr PrepConfig :=
  if s.length ≠ PrepParam.all.length then .error .valueError
  else PrepConfig.make (paramDict s)

/-- prepconfig.py 122-126 `__str__`. -/
def PrepConfig.toStr (c : PrepConfig) : Str := concat (PrepParam.all.map c.get)

/-- External libraries used by the splitters: spiral's ronin splitter and NLTK's Porter stemmer (arbitrary functions). -/
structure Env where
  ucd : Ucd
  ronin : Str → List Str
  porter : Str → Str

/-- stemming.py 10-20 `stem`. -/
def stem (env : Env) (w : Str) : Str :=
  match w with
  | [] => w
  | c :: _ =>
    let stemmed := env.porter w
    if env.ucd.isUpper w then env.ucd.toUpper stemmed
    else if env.ucd.isUpper [c] then env.ucd.capitalize stemmed
    else stemmed

/-- prepconfig.py 191-200 `is_bpe`. -/
def PrepConfig.isBpe (c : PrepConfig) : Bool := c.split ∈ [['4'], ['5'], ['6'], ['7'], ['8'], ['9']]

/-- prepconfig.py 203-208 `is_base_bpe_config`. -/
def PrepConfig.isBaseBpeConfig (c : PrepConfig) : Bool :=
  c.com = ['0'] && c.str = ['E'] && c.split = ['F'] && c.tabsNewlines = ['s'] && c.case = ['u']

/-- `get_bpe_subwords(s, c)` where `c` may be missing (`None.merges` raises `AttributeError`). -/
def bpeSplitter (bd : Option BpeData) (s : Str) : Except PyErr (List Str) :=
  match bd with
  | none => .error .attributeError
  | some d => getBpeSubwords s d

/-- prepconfig.py 137-146 `get_number_splitter`; `bd` is the BPE data the splitter will be called with. -/
def PrepConfig.numberSplitter (c : PrepConfig) (bd : Option BpeData) :
    Except PyErr (Str → Except PyErr (List Str)) :=
  if c.split ∈ [['0'], ['F'], ['1']] then .ok fun s => .ok [s]
  else if c.split ∈ [['2'], ['3'], ['s']] then .ok fun s => .ok (s.map fun ch => [ch])
  else if c.split ∈ [['4'], ['5'], ['6'], ['7'], ['8'], ['9']] then .ok (bpeSplitter bd)
  else .error .valueError

/-- prepconfig.py 148-164 `get_word_splitter`. -/
def PrepConfig.wordSplitter (env : Env) (c : PrepConfig) (bd : Option BpeData) :
    Except PyErr (Option (Str → Except PyErr (List Str))) :=
  if c.split ∈ [['4'], ['5'], ['6'], ['7'], ['8'], ['9']] then .ok (some (bpeSplitter bd))
  else if c.split ∈ [['1'], ['2']] then .ok (some fun s => .ok [s])
  else if c.split = ['3'] then .ok (some fun s => .ok (env.ronin s))
  else if c.split = ['s'] then .ok (some fun s => .ok ((env.ronin s).map (stem env)))
  else if c.split ∈ [['0'], ['F']] then .ok none
  else .error .valueError

/-- prepconfig.py 166-180 `get_types_to_be_repr`. -/
def PrepConfig.typesToBeRepr (c : PrepConfig) : List Ty :=
  (if c.split ∈ [['1'], ['2'], ['3'], ['4'], ['5'], ['6'], ['7'], ['8'], ['9'], ['s']] then [Ty.splitContainer, .word] else []) ++
  (if c.split ∈ [['2'], ['3'], ['4'], ['5'], ['6'], ['7'], ['8'], ['9'], ['s']] then [Ty.number] else []) ++
  (if c.com = ['0'] then [Ty.oneLineComment, .multilineComment] else []) ++
  (if c.str = ['0'] then [Ty.stringLiteral] else []) ++
  (if c.enOnly = ['U'] then [Ty.nonEng] else []) ++
  (if c.tabsNewlines = ['0'] then [Ty.newLine, .tab] else [])

/-- prepconfig.py 182-189 `get_repr_config`. -/
def PrepConfig.reprConfig (env : Env) (c : PrepConfig) (bd : Option BpeData) : Except PyErr ReprConfig := do
  let bd' := if c.isBpe then bd else none
  let ns ← c.numberSplitter bd'
  let ws ← c.wordSplitter env bd'
  let ml ← getMaxStrLength c.str
  .ok { types := c.typesToBeRepr
        bpe := bd'.isSome
        lowercase := c.case = ['l']
        numberSplitter := ns
        wordSplitter := ws
        fullStrings := c.split = ['F']
        maxStrLength := ml }

/-! ## Building a configuration from options -/

/-- api/common.py 11-36 `create_split_value`. -/
def createSplitValue (splitType : Str) (bpeCodesId : Option Str) (fullStrings splitNumbers ronin stem : Bool) :
    Except PyErr Str :=
  if splitType = "nosplit".toList then .ok (if fullStrings then ['F'] else ['0'])
  else if splitType = "chars".toList then .ok ['8']
  else if splitType = "basic".toList then
    .ok (if stem then ['s'] else if ronin then ['3'] else if splitNumbers then ['2'] else ['1'])
  else if splitType = "bpe".toList then
    .ok (if bpeCodesId = some "1k".toList then ['5']
      else if bpeCodesId = some "5k".toList then ['4']
      else if bpeCodesId = some "10k".toList then ['6']
      else ['9'])
  else .error .assertionError

/-- api/common.py 39-47 `create_str_value`. -/
def createStrValue (noStr : Bool) (maxLen : Int) : Except PyErr Str :=
  if noStr then .ok ['0']
  else if 0 ≤ maxLen ∧ maxLen < 2 then .ok ['2']
  else if 2 ≤ maxLen ∧ maxLen < possibleStrValues.length then
    match possibleStrValues[maxLen.toNat]? with
    | some v => .ok v
    | none => .error .indexError
  else .ok ['1']

/-- The keyword arguments of `create_prep_config` (api/common.py 50-53). -/
structure PrepOpts where
  splType : Str
  bpeCodesId : Option Str := none
  noSpaces : Bool := false
  noUnicode : Bool := false
  noCase : Bool := false
  noCom : Bool := false
  noStr : Bool := false
  fullStrings : Bool := false
  maxStrLength : Int := sysMaxsize
  splitNumbers : Bool := false
  ronin : Bool := false
  stem : Bool := false
deriving DecidableEq, Repr

/-- api/common.py 50-62 `create_prep_config`. -/
def createPrepConfig (o : PrepOpts) : Except PyErr PrepConfig := do
  let sv ← createStrValue o.noStr o.maxStrLength
  let spv ← createSplitValue o.splType o.bpeCodesId o.fullStrings o.splitNumbers o.ronin o.stem
  PrepConfig.make [
    (.enOnly, if o.noUnicode then ['U'] else ['u']),
    (.com, if o.noCom then ['0'] else ['c']),
    (.str, sv),
    (.split, spv),
    (.tabsNewlines, if o.noSpaces then ['0'] else ['s']),
    (.case, if o.noCase then ['l'] else ['u'])]

/-! ## `to_repr` -/

/-- to_repr.py 40-44 `insert_and_word_tokens`; `list_copy[index-1]` with Python's negative indices. -/
def insertWordEnds (l : List Str) : List Nat → Except PyErr (List Str)
  | [] => .ok l
  | i :: r =>
    let k := if i = 0 then l.length - 1 else i - 1
    match l[k]? with
    | none => .error .indexError
    | some x => insertWordEnds (l.set k (x ++ Ph.compoundWordEnd)) r

/-- to_repr.py 47-53 `to_repr`, with `bd` the BPE data passed or globally available. -/
def toRepr (env : Env) (c : PrepConfig) (ts : List Tok) (bd : Option BpeData) : Except PyErr (List Str × Meta) := do
  let rc ← c.reprConfig env bd
  let (l, md) ← toReprList env.ucd rc ts
  if c.isBpe then do
    let l' ← insertWordEnds l (md.bounds.drop 1)
    .ok (l', md)
  else .ok (l, md)

end Verif
