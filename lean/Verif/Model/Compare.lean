import Verif.Model.Tokens
import Verif.Model.Cli
/-!
# Model of the methods `__eq__` and `__hash__`

dataset.py, prepconfig.py, bpe_config.py, merge.py, tokens/*.py.
-/
namespace Verif.Compare

/-! ## Datasets -/

/-- An object of the class `CustomBpeConfig` (bperegistry.py 36-41) at the address `ref`. -/
structure CustomObj where
  ref : Nat
  content : CustomBpeConfig

/-- dataset.py 34-38 `SubDataset`; of the dataset only the path is compared. -/
structure Sub where
  dataset : Str
  path : Str
  suffix : Str
deriving DecidableEq, Repr

/-- dataset.py 95-109 `Dataset`. -/
structure Dataset where
  path : Str
  prep : PrepConfig
  exts : Option (List Str)
  custom : Option CustomObj
  bpe : Option BpeConfig
  modified : Str
  original : Sub
  parsed : Sub
  preprocessed : Sub
  suppress : Bool

/-- config.py: `DEFAULT_PARSED_DATASETS_DIR` and `DEFAULT_PREP_DATASETS_DIR`. -/
structure Dirs where
  parsed : Str
  prep : Str

/-- What goes into the names for a custom BPE configuration (dataset.py 191-195); numbers of merges are not negative. -/
def customName (c : Option CustomObj) : Option (Str × Nat) := c.map fun c => (c.content.id, c.content.nMerges.toNat)

/-- dataset.py 197-205 `_get_path_to_prep_dataset`; an empty path is false. -/
def prepPath (dirs : Dirs) (dirName : Str) (c : PrepConfig) (custom : Option (Str × Nat)) (overridden : Option Str) : Str :=
  match overridden with
  | some (ch :: r) => pathJoin (ch :: r) (prepDirName dirName c custom true)
  | _ => pathJoin dirs.prep (prepDirName dirName c custom false)

/-- dataset.py 95-109 `Dataset.__init__`; `modified` is the result of `get_timestamp`. -/
def Dataset.make (dirs : Dirs) (path : Str) (prep : PrepConfig) (exts : Option (List Str)) (custom : Option CustomObj)
    (bpe : Option BpeConfig) (overridden : Option Str) (suppress : Bool) (modified : Str) : Dataset :=
  let dirName := datasetDirName path modified exts
  { path := path, prep := prep, exts := exts, custom := custom, bpe := bpe, modified := modified
    original := ⟨path, path, []⟩
    parsed := ⟨path, pathJoin dirs.parsed dirName, ".parsed".toList⟩
    preprocessed := ⟨path, prepPath dirs dirName prep (customName custom) overridden, ".prep".toList⟩
    suppress := suppress }

/-- prepconfig.py 134-135 `PrepConfig.__eq__`; `none` is a value without the attribute `params`, such as `None`. -/
def prepEq (a : PrepConfig) (b : Option PrepConfig) : Except PyErr Bool :=
  match b with
  | none => .error .attributeError
  | some b => .ok (a.enOnly = b.enOnly && a.com = b.com && a.str = b.str && a.split = b.split && a.tabsNewlines = b.tabsNewlines &&
      a.case = b.case)

/-- bpe_config.py 139-140 `BpeConfig.__eq__`; for `None == config` Python calls this method, too. -/
def bpeEq (a b : Option BpeConfig) : Except PyErr Bool :=
  match a, b with
  | none, none => .ok true
  | some a, some b => .ok (a.case = b.case && a.wordEnd = b.wordEnd && a.base = b.base && a.unicode = b.unicode)
  | _, _ => .error .attributeError

/-- `CustomBpeConfig` (bperegistry.py 36-68) has no method `__eq__`: objects are equal if they are identical. -/
def customEq (a b : Option CustomObj) : Bool :=
  match a, b with
  | none, none => true
  | some a, some b => a.ref = b.ref
  | _, _ => false

/-- dataset.py 77-80 `SubDataset.__eq__`. -/
def subEq (a b : Sub) : Bool := a.dataset = b.dataset && a.path = b.path && a.suffix = b.suffix

/-- dataset.py 111-122 `Dataset.__eq__`: the comparisons from left to right until one is false. -/
def datasetEq (a b : Dataset) : Except PyErr Bool :=
  if a.path ≠ b.path then .ok false
  else do
    if !(← prepEq a.prep (some b.prep)) then .ok false
    else if a.exts ≠ b.exts then .ok false
    else if !customEq a.custom b.custom then .ok false
    else if !(← bpeEq a.bpe b.bpe) then .ok false
    else .ok (a.modified = b.modified && subEq a.original b.original && subEq a.parsed b.parsed &&
      subEq a.preprocessed b.preprocessed && a.suppress = b.suppress)

/-! ## Merges -/

/-- merge.py 36-38 `Merge.__eq__`. -/
def mergeEq (a b : Merge) : Bool := a.pair = b.pair && a.priority = b.priority && a.freq = b.freq

/-- merge.py 40-41 `Merge.__hash__`; `h` is the hash function of tuples. -/
def mergeHash (h : (Str × Str) × Option Nat × Option Int → Nat) (m : Merge) : Nat := h (m.pair, m.priority, m.freq)

/-- `==` of lists of merges. -/
def mergesEq : List Merge → List Merge → Bool
  | [], [] => true
  | a :: r, b :: s => mergeEq a b && mergesEq r s
  | _, _ => false

/-- merge.py 155-156 `MergeList.__eq__`. -/
def mergeListEq (a b : MergeList) : Bool := mergesEq a.toMerges b.toMerges

/-- A dict with merges as keys: the hash at the time of insertion, the address of the key, the value. -/
abbrev MergeDict := List (Nat × Nat × Int)

/-- The lookup of Python's dicts: the hashes are compared first, then identity, then `==`. -/
def findEntry (h : (Str × Str) × Option Nat × Option Int → Nat) (heap : Nat → Merge) (d : MergeDict) (ref : Nat) : Option (Nat × Nat × Int) :=
  d.find? fun e => e.1 = mergeHash h (heap ref) && (e.2.1 = ref || mergeEq (heap e.2.1) (heap ref))

/-- `d[merge] = value`. -/
def setEntry (h : (Str × Str) × Option Nat × Option Int → Nat) (heap : Nat → Merge) (d : MergeDict) (ref : Nat) (v : Int) : MergeDict :=
  match findEntry h heap d ref with
  | none => d ++ [(mergeHash h (heap ref), ref, v)]
  | some e => d.map fun f => if f = e then (e.1, e.2.1, v) else f

/-- merge.py 136-137: `append` gives a merge without a priority the length of the list. -/
def appendEffect (len : Nat) (m : Merge) : Merge :=
  match m.priority with
  | none => { m with priority := some len }
  | some _ => m

/-! ## Tokens -/

/-- word.py 15-16, 101-103. -/
def subtokEq : Subtok → Subtok → Bool
  | .underscore, .underscore => true
  | .word a c, .word b d => a = b && c = d
  | _, _ => false

/-- `==` of lists of subtokens. -/
def subtoksEq : List Subtok → List Subtok → Bool
  | [], [] => true
  | a :: r, b :: s => subtokEq a b && subtoksEq r s
  | _, _ => false

mutual
/-- numeric.py 36-37, whitespace.py 16-17, 54-55, word.py 124-125, noneng.py (tokens) 38-39, containers.py 29-30, 88-89, 153-154: the
classes are compared first. -/
def tokEq : Tok → Tok → Bool
  | .number a, .number b => a = b
  | .one, .one => true
  | .zero, .zero => true
  | .newLine, .newLine => true
  | .tab, .tab => true
  | .spaceInString n, .spaceInString m => n = m
  | .keyWord a, .keyWord b => a = b
  | .operator a, .operator b => a = b
  | .semicolon, .semicolon => true
  | .openingCurly, .openingCurly => true
  | .closingCurly, .closingCurly => true
  | .openingBracket, .openingBracket => true
  | .closingBracket, .closingBracket => true
  | .nonCodeChar a, .nonCodeChar b => a = b
  | .specialToken a, .specialToken b => a = b
  | .split a, .split b => subtoksEq a b
  | .nonEng a, .nonEng b => subtoksEq a b
  | .oneLineComment a, .oneLineComment b => toksEq a b
  | .multilineComment a, .multilineComment b => toksEq a b
  | .stringLiteral a n, .stringLiteral b m => toksEq a b && n = m
  | _, _ => false

/-- `==` of lists of tokens. -/
def toksEq : List Tok → List Tok → Bool
  | [], [] => true
  | a :: r, b :: s => tokEq a b && toksEq r s
  | _, _ => false
end

end Verif.Compare
