import Verif.Model.BpeLearner
import Verif.Model.Files
import Verif.Model.Registry
/-!
# Model of `codeprep/pipeline/bpelearner.py` (`run` with the files it reads and writes)
-/
namespace Verif

/-- A subdirectory of the BPE directory of a dataset, with the four files of bpelearner.py 71-84 (`none`: no such file):
`vocab_res.txt`, `merges_cache.txt`, `merges.txt`, `bpe_vocab_reassembled.txt` (bperegistry.py 21-25). -/
structure MergesDir where
  name : Str
  vocab : Option Str
  cache : Option Str
  merges : Option Str
  splits : Option Str
deriving DecidableEq, Repr

/-- What a learning run finds: the subdirectories of `dataset.bpe_path` in the order of `os.walk`, the vocabulary file of the
dataset as it is after `stages.run_until_base_bpe_vocab`, and the file of the words that are not split. -/
structure LearnDisk where
  dirs : List MergesDir
  baseVocab : Option Str
  nonbpe : Option Str
deriving DecidableEq, Repr

/-- `open(path, 'r')` and reading. -/
def openText : Option Str → Except PyErr Str
  | some t => .ok t
  | none => .error .fileNotFound

/-- vocab.py 333-340 `_load_vocab_dict`; frequencies are natural numbers in the model of learning. -/
def loadCounts (text : Str) : Except PyErr (Dict Str Nat) := do
  let d ← loadVocabDict text
  .ok (d.map fun e => (e.1, e.2.toNat))

/-- bpelearner.py 37-45 `check_if_bpe_config_supported`. -/
def checkSupported (b : BpeConfig) : Except PyErr Unit :=
  if b.unicode = "bytes".toList then .error .notSupported
  else if b.wordEnd then .error .notSupported
  else if b.case = "prefix".toList then .error .notSupported
  else .ok ()

/-- bpelearner.py 62-68 `get_dir_with_most_merges`: the name of the directory. -/
def dirWithMost (dirs : List MergesDir) (n : Int) : Option Str :=
  match getMaxMerges (dirs.map (·.name)) n with
  | none => none
  | some m => if m = 0 then none else some (intStr m)

/-- A file in a subdirectory, if both exist. -/
def LearnDisk.file (d : LearnDisk) (name : Str) (f : MergesDir → Option Str) : Option Str :=
  (d.dirs.find? (·.name = name)).bind f

/-- The text form of a vocabulary of split words: subwords joined by spaces. -/
def joinKeys (v : SplitVocab) : Dict Str Nat := v.map fun e => (pyJoin [' '] e.1, e.2)

/-- A vocabulary of split words read from its text form (`word.split(' ')`, as all its users do, bpe_learn.py 23, 45, 123, 132). -/
def splitKeys (v : Dict Str Nat) : SplitVocab := v.map fun e => (pySplit ' ' e.1, e.2)

/-- bpelearner.py 48-59 `prepare_vocabs`, 22-26 `get_base_vocab`, 29-34 `load_nonbpe_vocab`. -/
def prepareVocabs (d : LearnDisk) (most : Option Str) : Except PyErr (SplitVocab × SplitVocab) :=
  match most with
  | none => do
    let all ← loadCounts (← openText d.baseVocab)
    let nonbpe ← loadVocabSet (← openText d.nonbpe)
    .ok (prepareScratch all nonbpe)
  | some name => do
    let nonbpe ← loadVocabSet (← openText d.nonbpe)
    let saved ← loadCounts (← openText (d.file name (·.splits)))
    let (a, b) := separateVocabs saved (fun s => s ∈ nonbpe.map fun w => escape w true)
    .ok (splitKeys a, splitKeys b)

/-- bpelearner.py 71-84 `save_results`: the directory written. -/
def resultsDir (v : SplitVocab) (ms : MergeList) : MergesDir :=
  ⟨natStr ms.length,
   some (dumpVocabDict (sortDesc (createResultingVocab v)) true),
   some (dumpBpeCache (createBpeCache v)),
   some (dumpMerges ms),
   some (dumpVocabDict (joinKeys v) true)⟩

/-- bpelearner.py 94-99: the merges that are already done. -/
def doneMerges (d : LearnDisk) (most : Option Str) : Except PyErr MergeList :=
  match most with
  | none => .ok []
  | some name => do readMerges (← openText (d.file name (·.merges))) none

/-- bpelearner.py 87-115 `run`: the directory to be saved; `none` if it exists already. -/
def learnOnDisk (b : BpeConfig) (d : LearnDisk) (n : Int) : Except PyErr (Option MergesDir) := do
  checkSupported b
  let most := dirWithMost d.dirs n
  let done ← doneMerges d most
  let (base, other) ← prepareVocabs d most
  let (v, ms) ← learnRun base other done n.toNat
  if natStr ms.length ∈ d.dirs.map (·.name) then .ok none
  else .ok (some (resultsDir v ms))

/-- The disk after `run` has ended. -/
def LearnDisk.save (d : LearnDisk) : Option MergesDir → LearnDisk
  | none => d
  | some m => { d with dirs := d.dirs ++ [m] }

/-- A file of which, when the process is killed, `i` files are complete and the next has `j` characters (`none`: it has not been
created); `k` is the position of the file in the order of bpelearner.py 77-83. -/
def cutFile (i : Nat) (j : Option Nat) (k : Nat) (t : Option Str) : Option Str :=
  if k < i then t else if k = i then (match j with | none => none | some l => t.map (List.take l)) else none

/-- What is in the directory if the process is killed in `save_results` (bpelearner.py 73-83). -/
def MergesDir.cut (m : MergesDir) (i : Nat) (j : Option Nat) : MergesDir :=
  ⟨m.name, cutFile i j 0 m.vocab, cutFile i j 1 m.cache, cutFile i j 2 m.merges, cutFile i j 3 m.splits⟩

/-- bperegistry.py 50-65 `CustomBpeConfig.create` and 187-189 `load_bpe_merges` (as to_repr.py 96 does): the merges used for the
identifier of the dataset with `n` merges. -/
def LearnDisk.load (d : LearnDisk) (n : Nat) : Except PyErr MergeList :=
  match getMinMerges (d.dirs.map (·.name)) n with
  | none => .error .invalidBpeCodesId
  | some m =>
    if m = 0 then .error .invalidBpeCodesId
    else do readMerges (← openText (d.file (intStr m) (·.merges))) (some n)

end Verif
