import Verif.Model.PrepConfig
import Verif.Model.Regex
import Verif.Model.Files
/-!
# Model of the registry of learnt merges and of the names of directories

`codeprep/bpepkg/bpe_config.py`, `codeprep/pipeline/bperegistry.py`, `codeprep/pipeline/dataset.py`.
-/
namespace Verif

/-! ## BPE configurations -/

/-- bpe_config.py 15-28, 44-47: `BpeConfig`, one value per parameter. -/
structure BpeConfig where
  case : Str
  wordEnd : Bool
  base : Str
  unicode : Str
deriving DecidableEq, Repr

/-- bpe_config.py 23-28, 36-47: `BpeConfig(...)` checks the values.  All parameters are passed by all callers. -/
def BpeConfig.make (case : Str) (wordEnd : Bool) (base unicode : Str) : Except PyErr BpeConfig :=
  if case ∉ ["yes".toList] then .error .valueError
  else if base ∉ ["all".toList, "code".toList, "java".toList] then .error .valueError
  else if unicode ∉ ["yes".toList, "no".toList, "bytes".toList] then .error .valueError
  else .ok ⟨case, wordEnd, base, unicode⟩

/-- bpe_config.py 52-60 `to_prep_config`; the values are all possible ones, so the check of `PrepConfig` succeeds. -/
def BpeConfig.toPrepConfig (b : BpeConfig) : PrepConfig :=
  ⟨if b.unicode = "no".toList then ['U'] else ['u'], ['0'], ['E'], ['F'], ['s'], ['u']⟩

/-- `s.find(t) != -1`. -/
def contains (s t : Str) : Bool :=
  t.isPrefixOf s || match s with
    | [] => false
    | _ :: r => contains r t

/-- bpe_config.py 68-90 `from_suffix`. -/
def BpeConfig.fromSuffix (suffix : Str) : Except PyErr BpeConfig :=
  let case := if contains suffix "nocase".toList then "no".toList
    else if contains suffix "prefix".toList then "prefix".toList
    else "yes".toList
  let unicode := if contains suffix "nounicode".toList then "no".toList
    else if contains suffix "bytes".toList then "bytes".toList
    else "yes".toList
  BpeConfig.make case (contains suffix "we".toList) "code".toList unicode

/-- bpe_config.py 92-137 `to_suffix`. -/
def BpeConfig.toSuffix (b : BpeConfig) : Str :=
  pyJoin ['_'] (
    (if b.case = "no".toList then ["nocase".toList] else if b.case = "prefix".toList then ["prefix".toList] else []) ++
    (if b.wordEnd then ["we".toList] else []) ++
    (if b.unicode = "no".toList then ["nounicode".toList] else if b.unicode = "bytes".toList then ["bytes".toList] else []))

/-! ## Names of directories -/

/-- `os.path.basename(path)`. -/
def basename (path : Str) : Str := (path.reverse.takeWhile (· ≠ '/')).reverse

/-- dataset.py 173-178 `get_dataset_dir_name`; an empty list of extensions is false. -/
def datasetDirName (path timestamp : Str) (exts : Option (List Str)) : Str :=
  let name := basename path ++ '_' :: timestamp
  match exts with
  | none => name
  | some [] => name
  | some (e :: es) => name ++ '_' :: pyJoin ['_'] (e :: es)

/-- dataset.py 191-195 `_get_prep_suffix`; `custom` is the identifier and the number of merges of a custom BPE configuration. -/
def prepSuffix (c : PrepConfig) (custom : Option (Str × Nat)) : Str :=
  match custom with
  | none => c.toStr
  | some (id, n) => c.toStr ++ '_' :: id ++ '-' :: natStr n

/-- dataset.py 200-203: the last part of `_get_path_to_prep_dataset`. -/
def prepDirName (dirName : Str) (c : PrepConfig) (custom : Option (Str × Nat)) (overridden : Bool) : Str :=
  let base := dirName ++ "_-_".toList ++ prepSuffix c custom
  if overridden then base ++ "_-_prep".toList else base

/-- dataset.py 215-223: the last part of `bpe_path`. -/
def bpeDirName (dirName : Str) (b : Option BpeConfig) : Str :=
  match b with
  | none => dirName
  | some b => if b.toSuffix = [] then dirName else pyJoin "_-_".toList [dirName, b.toSuffix]

/-- dataset.py 225-227: the last part of `base_bpe_vocab_path`. -/
def baseBpeVocabDirName (dirName : Str) (b : BpeConfig) : Str := dirName ++ "_-_".toList ++ b.toPrepConfig.toStr

/-- dataset.py 229-231: the last part of `vocab_path`. -/
def vocabDirName (dirName : Str) (c : PrepConfig) (custom : Option (Str × Nat)) : Str := dirName ++ "_-_".toList ++ prepSuffix c custom

/-- What is before the first `_-_` and the rest, which is empty if there is none. -/
def cutSep : Str → Str × Str
  | [] => ([], [])
  | c :: r => if "_-_".toList.isPrefixOf (c :: r) then ([], c :: r) else let e := cutSep r; (c :: e.1, e.2)

/-- bperegistry.py 157: `regex.fullmatch(r'(.*?)((?:_-_.*)?)', s)`.  The dot does not match a new line; the lazy group ends at the
first place from which the rest matches. -/
def matchBpeDir (s : Str) : Option (Str × Str) := if '\n' ∈ s then none else some (cutSep s)

/-- bperegistry.py 153-162: the last part of `get_base_vocab_dir`, from the name of the directory with the merges. -/
def getBaseVocabDirName (bpeDir : Str) : Except PyErr Str :=
  match matchBpeDir bpeDir with
  | none => .error .valueError
  | some (d, suffix) => do
    let b ← BpeConfig.fromSuffix suffix
    .ok (d ++ "_-_".toList ++ b.toPrepConfig.toStr)

/-! ## Identifiers -/

/-- The part before the last `sep` and the part after it. -/
def rsplitOnce (sep : Char) (s : Str) : Option (Str × Str) :=
  let tail := (s.reverse.takeWhile (· ≠ sep)).reverse
  match (s.reverse.dropWhile (· ≠ sep)) with
  | [] => none
  | _ :: r => some (r.reverse, tail)

/-- The value of a string of ASCII digits. -/
def digitsVal (s : Str) : Nat := s.foldl (fun n c => n * 10 + (c.toNat - 48)) 0

/-- bperegistry.py 128-150 `parse_merge_list_id`: `regex.match("(.*)-([1-9][0-9]*)$", s)`.  The dot does not match a new line,
`$` also matches before a new line at the end. -/
def parseMergeListId (s : Str) : Except PyErr (Str × Nat) :=
  let t := if s.getLast? = some '\n' then s.dropLast else s
  match rsplitOnce '-' t with
  | none => .error .invalidBpeCodesId
  | some (id, ds) =>
    if '\n' ∈ id then .error .invalidBpeCodesId
    else match ds with
      | [] => .error .invalidBpeCodesId
      | d :: r => if 49 ≤ d.toNat ∧ d.toNat ≤ 57 ∧ r.all asciiDigit then .ok (id, digitsVal (d :: r)) else .error .invalidBpeCodesId

/-- bperegistry.py 28-29, 71-88 `is_predefined_id`. -/
def isPredefinedId (id : Str) : Bool := id ∈ ["1k".toList, "5k".toList, "10k".toList, "0".toList]

/-- What is stored for a dataset in `USER_BPE_DIR`: the name of its directory, the text in the file `.name`, and the names of
the subdirectories. -/
structure BpeDir where
  name : Str
  idFile : Option Str
  subdirs : List Str
deriving DecidableEq, Repr

/-- The contents of `USER_BPE_DIR`. -/
abbrev Registry := List BpeDir

/-- `s.strip()`. -/
def strip (u : Ucd) (s : Str) : Str := ((s.dropWhile u.space).reverse.dropWhile u.space).reverse

/-- bperegistry.py 91-97 `get_codes_id_by_bpe_path`. -/
def BpeDir.codesId (u : Ucd) (d : BpeDir) : Option Str := d.idFile.map fun t => strip u (univNl t)

/-- bperegistry.py 199-212 `_get_extreme_n_merges`; `inOrder extreme num` is the condition of line 205. -/
def extremeLoop (inOrder : Int → Int → Bool) : Int → List Str → Int
  | e, [] => e
  | e, s :: r => match pyInt s with
    | .ok num => extremeLoop inOrder (if inOrder e num then num else e) r
    | .error _ => extremeLoop inOrder e r

/-- bperegistry.py 209-212. -/
def extreme (init : Int) (inOrder : Int → Int → Bool) (subdirs : List Str) : Option Int :=
  let e := extremeLoop inOrder init subdirs
  if e ≠ init then some e else none

/-- bperegistry.py 215-216 `get_min_merges`. -/
def getMinMerges (subdirs : List Str) (limit : Int) : Option Int :=
  extreme sysMaxsize (fun e n => e > n && n ≥ limit) subdirs

/-- bperegistry.py 219-220 `get_max_merges`. -/
def getMaxMerges (subdirs : List Str) (limit : Int) : Option Int :=
  extreme 0 (fun e n => e < n && n ≤ limit) subdirs

/-- bperegistry.py 173-174: the directory has the identifier. -/
def BpeDir.hasId (u : Ucd) (id : Str) (d : BpeDir) : Bool :=
  match d.codesId u with
  | none => false
  | some i => i ≠ [] && i = id

/-- bperegistry.py 165-176 `get_dataset_bpe_dir`; `none`: there is no `USER_BPE_DIR`. -/
def getDatasetBpeDir (u : Ucd) (reg : Option Registry) (id : Str) : Except PyErr BpeDir :=
  match reg with
  | none => .error .invalidBpeCodesId
  | some ds => match ds.find? (BpeDir.hasId u id) with
    | some d => .ok d
    | none => .error .invalidBpeCodesId

/-- bperegistry.py 36-41 `CustomBpeConfig`.  The files are given by the directory of the dataset and the name of the
subdirectory; `cached`: there is a cache file. -/
structure CustomBpeConfig where
  id : Str
  nMerges : Int
  dir : BpeDir
  sub : Str
  cached : Bool
deriving DecidableEq, Repr

/-- bperegistry.py 50-65 `CustomBpeConfig.create`. -/
def CustomBpeConfig.create (u : Ucd) (reg : Option Registry) (id : Str) (n : Int) : Except PyErr CustomBpeConfig := do
  let d ← getDatasetBpeDir u reg id
  match getMinMerges d.subdirs n with
  | none => .error .invalidBpeCodesId
  | some m =>
    if m = 0 then .error .invalidBpeCodesId
    else .ok ⟨id, n, d, intStr m, !(n == 0) || m == n⟩

/-- bperegistry.py 43-44 `can_use_cache_file`. -/
def CustomBpeConfig.canUseCacheFile (c : CustomBpeConfig) : Bool := c.cached && c.nMerges == 0

/-- bperegistry.py 46-48 `CustomBpeConfig.from_id`. -/
def CustomBpeConfig.fromId (u : Ucd) (reg : Option Registry) (s : Str) : Except PyErr CustomBpeConfig := do
  let p ← parseMergeListId s
  CustomBpeConfig.create u reg p.1 p.2

/-- bperegistry.py 179-184 `get_bpe_dir`: the directory and the name of the subdirectory. -/
def getBpeDir (u : Ucd) (reg : Option Registry) (id : Str) (n : Int) : Except PyErr (BpeDir × Str) := do
  let d ← getDatasetBpeDir u reg id
  if intStr n ∈ d.subdirs then .ok (d, intStr n) else .error .invalidBpeCodesId

/-- bperegistry.py 223-232 `_get_all_custom_bpe_codes_and_max_merges`. -/
def allCodesLoop (u : Ucd) (acc : Dict Str Int) : Registry → Dict Str Int
  | [] => acc
  | d :: r => match d.codesId u, getMaxMerges d.subdirs sysMaxsize with
    | some (c :: i), some m => allCodesLoop u (if m = 0 then acc else acc.set (c :: i) m) r
    | _, _ => allCodesLoop u acc r

/-- bperegistry.py 223-232 `_get_all_custom_bpe_codes_and_max_merges`. -/
def allCodes (u : Ucd) (reg : Registry) : Dict Str Int := allCodesLoop u [] reg

/-- Characters with a meaning in patterns, except the dot. -/
def special (c : Char) : Bool := c ∈ ['\\', '^', '$', '*', '+', '?', '{', '}', '[', ']', '|', '(', ')']

/-- The pattern of a character outside of brackets. -/
def atomRe (c : Char) : Re := if c = '.' then .cls (· ≠ '\n') else .ch c

/-- An identifier read as a regular expression, as in bperegistry.py 114, where it is not escaped: characters, dots, and single
quantifiers.  `none`: the pattern is not valid, or it uses something else; the latter is not modelled.  `a` is what was read
last. -/
def idReLoop (a : Option Re) : Str → Option Re
  | [] => some (a.getD .eps)
  | c :: r =>
    if c = '+' then a.bind fun x => (idReLoop none r).map fun p => .seq (.plus x) p
    else if c = '*' then a.bind fun x => (idReLoop none r).map fun p => .seq (.star x) p
    else if c = '?' then a.bind fun x => (idReLoop none r).map fun p => .seq (.opt x) p
    else if special c then none
    else (idReLoop (some (atomRe c)) r).map fun p => match a with
      | none => p
      | some x => .seq x p

/-- An identifier read as a regular expression. -/
def idRe (base : Str) : Option Re := idReLoop none base

/-- bperegistry.py 113-115 `extract_number`: `regex.fullmatch(f"{id_base}_([0-9]+)", full_id)`.  The group holds no underscore, so it
is what follows the last underscore. -/
def extractNumber (base : Re) (full : Str) : Nat :=
  match rsplitOnce '_' full with
  | none => 0
  | some (p, ds) => if ds ≠ [] ∧ ds.all asciiDigit ∧ base.fullmatch p then digitsVal ds else 0

/-- bperegistry.py 104-108: the identifier without a number. -/
def idBase (path : Str) (b : BpeConfig) : Str :=
  pyJoin ['_'] (basename path :: if b.toSuffix = [] then [] else [b.toSuffix])

/-- bperegistry.py 100-119 `create_new_id_from`.  `max(numbers)` is not empty here. -/
def createNewId (u : Ucd) (reg : Registry) (path : Str) (b : BpeConfig) (predefined : Option Str) : Except PyErr Str :=
  match predefined with
  | some (c :: r) => .ok (c :: r)
  | _ =>
    let base := idBase path b
    let existing := (allCodes u reg).keys
    if base ∉ existing then .ok base
    else match idRe base with
      | none => .error .regexError
      | some re => .ok (base ++ '_' :: natStr ((existing.map (extractNumber re)).foldl max 0 + 1))

/-- dataset.py 249-251 `assign_bpe_codes_id`, bperegistry.py 122-125 `write_bpe_codes_id`: `d` is the directory of the dataset. -/
def assignId (u : Ucd) (reg : Registry) (path : Str) (b : BpeConfig) (predefined : Option Str) (d : Str) : Except PyErr Registry := do
  let id ← createNewId u reg path b predefined
  .ok (reg.map fun e => if e.name = d then { e with idFile := some id } else e)

/-- dataset.py 150-151: the directory of the dataset is created unless it exists. -/
def ensureDir (reg : Registry) (d : Str) : Registry := if d ∈ reg.map (·.name) then reg else reg ++ [⟨d, none, []⟩]

/-- cli/impl.py 54-60: the part of `handle_learnbpe` before learning; `d` is the name of the dataset's directory. -/
def prepareLearning (u : Ucd) (reg : Registry) (path : Str) (b : BpeConfig) (predefined : Option Str) (d : Str) :
    Except PyErr Registry :=
  let reg' := ensureDir reg d
  match reg'.find? (·.name = d) with
  | none => .error .fileNotFound            -- never happens
  | some e => match e.codesId u with
    | some (_ :: _) => .ok reg'
    | _ => assignId u reg' path b predefined d

/-- bpelearner.py 110-115: a subdirectory named by the number of merges is created unless it exists. -/
def saveMerges (reg : Registry) (d : Str) (n : Nat) : Registry :=
  reg.map fun e => if e.name = d ∧ natStr n ∉ e.subdirs then { e with subdirs := e.subdirs ++ [natStr n] } else e

end Verif
