import Verif.Model.LearnDisk
/-!
# Model of `codeprep/pipeline/vocabloader.py` and of what it reads in the user's directories
-/
namespace Verif

/-- A directory in `USER_VOCAB_DIR` with its files `vocab` and `nonbpe_vocab` (vocab.py 36, dataset.py 31, 238-243). -/
structure VocabDir where
  name : Str
  vocab : Option Str
  nonbpe : Option Str
deriving DecidableEq, Repr

/-- A directory in `USER_BPE_DIR` with the file `.name` and the directories of merges. -/
structure CodesDir where
  name : Str
  idFile : Option Str
  subs : List MergesDir
deriving DecidableEq, Repr

/-- The directory as it is seen by the functions that look for identifiers and numbers of merges. -/
def CodesDir.entry (d : CodesDir) : BpeDir := ⟨d.name, d.idFile, d.subs.map (·.name)⟩

/-- The user's directories (config.py 30-39); `none`: there is no `USER_BPE_DIR`. -/
structure UserDir where
  codes : Option (List CodesDir)
  vocabs : List VocabDir
deriving DecidableEq, Repr

/-- The directories of datasets in `USER_BPE_DIR`; there are none if it does not exist. -/
def UserDir.dirs (h : UserDir) : List CodesDir :=
  match h.codes with
  | none => []
  | some cs => cs

/-- What bperegistry.py sees of them. -/
def UserDir.registry (h : UserDir) : Option Registry := h.codes.map fun cs => cs.map CodesDir.entry

/-- A file in a directory of `USER_VOCAB_DIR`, if both exist. -/
def UserDir.vocabFile (h : UserDir) (dir : Str) (f : VocabDir → Option Str) : Option Str :=
  (h.vocabs.find? (·.name = dir)).bind f

/-- A file in a directory of merges, if it exists. -/
def UserDir.mergesFile (h : UserDir) (dir sub : Str) (f : MergesDir → Option Str) : Option Str :=
  match h.codes with
  | none => none
  | some cs => ((cs.find? (·.name = dir)).bind fun d => d.subs.find? (·.name = sub)).bind f

/-- bperegistry.py 153-162 `get_base_vocab_dir`: the last part of the path. -/
def UserDir.baseVocabDir (u : Ucd) (h : UserDir) (id : Str) : Except PyErr Str := do
  let d ← getDatasetBpeDir u h.registry id
  getBaseVocabDirName d.name

/-- vocabloader.py 18-20 `all`. -/
def UserDir.loadAll (u : Ucd) (h : UserDir) (id : Str) : Except PyErr (Dict Str Int) := do
  let dir ← h.baseVocabDir u id
  loadVocabDict (← openText (h.vocabFile dir (·.vocab)))

/-- vocabloader.py 23-25 `nonbpe`. -/
def UserDir.loadNonbpe (u : Ucd) (h : UserDir) (id : Str) : Except PyErr (List Str) := do
  let dir ← h.baseVocabDir u id
  loadVocabSet (← openText (h.vocabFile dir (·.nonbpe)))

/-- vocabloader.py 31-33: the loop of `base`. -/
def delTokens (d : Dict Str Int) : List Str → Dict Str Int
  | [] => d
  | t :: ts => delTokens (if t ∈ d.map (·.1) then d.filter (·.1 ≠ t) else d) ts

/-- vocabloader.py 28-34 `base`. -/
def UserDir.loadBase (u : Ucd) (h : UserDir) (id : Str) : Except PyErr (Dict Str Int) := do
  let all ← h.loadAll u id
  let nonbpe ← h.loadNonbpe u id
  .ok (delTokens all nonbpe)

/-- vocabloader.py 37-39 `bpe`. -/
def UserDir.loadBpe (u : Ucd) (h : UserDir) (id : Str) (n : Int) : Except PyErr (Dict Str Int) := do
  let p ← getBpeDir u h.registry id n
  loadVocabDict (← openText (h.mergesFile p.1.name p.2 (·.vocab)))

/-- bperegistry.py 187-189 `load_bpe_merges`. -/
def UserDir.loadMerges (u : Ucd) (h : UserDir) (id : Str) (n : Nat) : Except PyErr MergeList := do
  let c ← CustomBpeConfig.create u h.registry id n
  readMerges (← openText (h.mergesFile c.dir.name c.sub (·.merges))) (some n)

/-- bperegistry.py 192-196 `format_available_merge_list_ids`; without `USER_BPE_DIR`, `next(os.walk(...))` raises `StopIteration`. -/
def formatAvailable (u : Ucd) (reg : Registry) : Str :=
  concat ((allCodes u reg).map fun e => e.1 ++ "-[1..".toList ++ intStr e.2 ++ "]\n".toList)

/-- api/corpus.py 42-46 `load_vocab`: `path` is what `preprocess_corpus` passed (lines 236-242), `file` what is there. -/
def corpusLoadVocab (path : Option Str) (file : Str → Option Str) : Except PyErr (Dict Str Int) :=
  match path with
  | none => .error .valueError
  | some [] => .error .valueError
  | some p => do loadVocabDict (← openText (file p))

/-- dataset.py 150-151: the directory of the dataset is created unless it exists. -/
def ensureCodes (cs : List CodesDir) (d : Str) : List CodesDir := if d ∈ cs.map (·.name) then cs else cs ++ [⟨d, none, []⟩]

/-- What a learning run for a dataset finds: the directories of its merges, and the vocabulary files in the directory `dir`. -/
def UserDir.disk (h : UserDir) (subs : List MergesDir) (dir : Str) : LearnDisk :=
  ⟨subs, h.vocabFile dir (·.vocab), h.vocabFile dir (·.nonbpe)⟩

/-- impl.py 54-61: `handle_learnbpe` for a dataset whose directories are named after `dn`; `USER_BPE_DIR` is created if it is not there.
The vocabularies are those left by the stages (bpelearner.py 91).  If there is an error, the directory and the identifier stay; this
model only describes runs that succeed. -/
def UserDir.learn (u : Ucd) (h : UserDir) (path dn : Str) (b : BpeConfig) (given : Option Str) (n : Int) : Except PyErr UserDir :=
  let d := bpeDirName dn (some b)
  let cs := ensureCodes h.dirs d
  match cs.find? (·.name = d) with
  | none => .error .fileNotFound            -- never happens
  | some e => do
    let idFile ← match e.entry.codesId u with
      | some (_ :: _) => .ok e.idFile
      | _ => do
        let id ← createNewId u (cs.map CodesDir.entry) path b given
        .ok (some id)
    let disk := h.disk e.subs (baseBpeVocabDirName dn b)
    let r ← learnOnDisk b disk n
    .ok { h with codes := some (cs.map fun x => if x.name = d then ⟨x.name, idFile, (disk.save r).dirs⟩ else x) }

end Verif
