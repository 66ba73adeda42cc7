import Verif.Model.Text
import Verif.Model.Registry
/-!
# Model of the global BPE data of `codeprep/pipeline/to_repr.py` and of its use by `codeprep/api/text.py`
-/
namespace Verif

/-- The files `init_bpe_data` reads: merges and caches shipped with the package or in the user's cache directory
(to_repr.py 105-110), merges and caches of learnt codes (bperegistry.py 50-65), vocabularies of unsplittable tokens
(vocabloader.py 23-25). -/
inductive BpeFile where
  | defaultMerges (caseDir n : Str)
  | defaultCache (caseDir n : Str)
  | learntMerges (dir sub : Str)
  | learntCache (dir sub : Str)
  | nonbpeVocab (dir : Str)
deriving DecidableEq, Repr

/-- The files on the disk, and the registry of learnt codes (`none`: there is no `USER_BPE_DIR`). -/
structure BpeDisk where
  reg : Option Registry
  text : BpeFile → Option Str

/-- `open(path, 'r')` and reading. -/
def BpeDisk.read (d : BpeDisk) (f : BpeFile) : Except PyErr Str :=
  match d.text f with
  | some t => .ok t
  | none => .error .fileNotFound

/-- bpe_encode.py 20-23 `BpeData`: the fields are `None` until they are set. -/
structure BpeState where
  cache : Option BpeCache
  merges : Option MergeList

/-- vocabloader.py 23-25 `nonbpe`, bperegistry.py 153-162 `get_base_vocab_dir`. -/
def nonbpeVocab (u : Ucd) (d : BpeDisk) (id : Str) : Except PyErr (List Str) := do
  let bd ← getDatasetBpeDir u d.reg id
  let vd ← getBaseVocabDirName bd.name
  let t ← d.read (.nonbpeVocab vd)
  loadVocabSet t

/-- to_repr.py 91-94. -/
def customCache (d : BpeDisk) (c : CustomBpeConfig) : Except PyErr BpeCache :=
  if c.canUseCacheFile then do
    let t ← d.read (.learntCache c.dir.name c.sub)
    readBpeCache t
  else .ok []

/-- to_repr.py 100: `merges_cache.update({s: [s] for s in nonbpe_vocab})`. -/
def addNonbpe (c : BpeCache) (ws : List Str) : BpeCache := ws.foldl (fun c s => c.set s [s]) c

/-- to_repr.py 90-100: `init_bpe_data` for learnt codes, with the global data afterwards.  The number of merges is positive
whenever the configuration comes from an identifier. -/
def initCustom (u : Ucd) (d : BpeDisk) (c : CustomBpeConfig) : Except PyErr Unit × BpeState :=
  match customCache d c with
  | .error e => (.error e, ⟨none, none⟩)
  | .ok cache =>
    match (do let t ← d.read (.learntMerges c.dir.name c.sub); readMerges t (some c.nMerges.toNat)) with
    | .error e => (.error e, ⟨some cache, none⟩)
    | .ok m =>
      match nonbpeVocab u d c.id with
      | .error e => (.error e, ⟨some cache, some m⟩)
      | .ok ws => (.ok (), ⟨some (addNonbpe cache ws), some m⟩)

/-- to_repr.py 102-103: `bpe_n_merges_dict[split]`. -/
def defaultMergesDir (split : Str) : Except PyErr Str :=
  if split = ['4'] then .ok "5k".toList
  else if split = ['5'] then .ok "1k".toList
  else if split = ['6'] then .ok "10k".toList
  else if split = ['7'] then .ok "20k".toList
  else if split = ['8'] then .ok "0".toList
  else .error .keyError

/-- to_repr.py 106, 109. -/
def caseDir (c : PrepConfig) : Str := if c.case = ['u'] then "case".toList else "nocase".toList

/-- to_repr.py 111-114. -/
def defaultCache (d : BpeDisk) (cd n : Str) : Except PyErr BpeCache :=
  match d.text (.defaultCache cd n) with
  | some t => readBpeCache t
  | none => .ok []

/-- to_repr.py 102-115: `init_bpe_data` for codes shipped with the package. -/
def initDefault (d : BpeDisk) (c : PrepConfig) : Except PyErr Unit × BpeState :=
  match defaultMergesDir c.split with
  | .error e => (.error e, ⟨none, none⟩)
  | .ok n =>
    match defaultCache d (caseDir c) n with
    | .error e => (.error e, ⟨none, none⟩)
    | .ok cache =>
      match (do let t ← d.read (.defaultMerges (caseDir c) n); readMerges t none) with
      | .error e => (.error e, ⟨some cache, none⟩)
      | .ok m => (.ok (), ⟨some cache, some m⟩)

/-- to_repr.py 84-115 `init_bpe_data`; `g` is the global variable, `none` if it has not been set. -/
def initBpeData (u : Ucd) (d : BpeDisk) (c : PrepConfig) (custom : Option CustomBpeConfig) (force : Bool) (g : Option BpeState) :
    Except PyErr Unit × Option BpeState :=
  if g.isSome && !force then (.ok (), g)
  else match custom with
    | some cc => let r := initCustom u d cc; (r.1, some r.2)
    | none => let r := initDefault d c; (r.1, some r.2)

/-- bpe_encode.py 62-112 with `merges = None`: `candidate in None` raises `TypeError` as soon as there are two characters. -/
def encodeNoMerges (word : Str) : Except PyErr (List Str) := do
  let cl ← toCharList word
  let subs := pySplit ' ' (pyJoin [' '] cl)
  if 2 ≤ subs.length then .error .typeError else .ok subs

/-- bpe_encode.py 150-159 `get_bpe_subwords` with data that may be incomplete, without its effect on the cache. -/
def BpeState.subwords (s : BpeState) (word : Str) : Except PyErr (List Str) :=
  match s.cache, s.merges with
  | none, _ => .error .typeError
  | some cache, some m => getBpeSubwords word ⟨cache, m⟩
  | some cache, none =>
    match cache.get? (escape word true) with
    | some result => (unescape result).map (·.1)
    | none => do
      let result ← encodeNoMerges (escape word true)
      (unescape result).map (·.1)

/-- prepconfig.py 182-189 `get_repr_config` with the global data.  A BPE configuration splits words and numbers alike
(prepconfig.py 137-164). -/
def PrepConfig.reprConfigSt (env : Env) (c : PrepConfig) (g : Option BpeState) : Except PyErr ReprConfig := do
  let rc ← c.reprConfig env (g.map fun _ => ⟨[], []⟩)
  match g with
  | some s => .ok (if c.isBpe then { rc with numberSplitter := s.subwords, wordSplitter := some s.subwords } else rc)
  | none => .ok rc

/-- to_repr.py 47-53 `to_repr` without the parameter `bpe_data`. -/
def toReprSt (env : Env) (c : PrepConfig) (ts : List Tok) (g : Option BpeState) : Except PyErr (List Str × Meta) := do
  let rc ← c.reprConfigSt env g
  let (l, md) ← toReprList env.ucd rc ts
  if c.isBpe then do
    let l' ← insertWordEnds l (md.bounds.drop 1)
    .ok (l', md)
  else .ok (l, md)

/-- A call of `nosplit`, `chars`, `basic` or `bpe`: the arguments, and what the lexer delivers for the text.  Looking up a word in
the cache changes the entry in place (bpe_encode.py 41); `wear` is what the lookups of the call do to the cache. -/
structure TextCall where
  api : ApiCall
  lexed : List (TokType × Str)
  appendEof : Bool
  force : Bool
  wear : BpeCache → BpeCache

/-- text.py 26, 163, 235, 354, 455-456: only `bpe` passes `force_reinit_bpe_data` on, for the others it is true. -/
def TextCall.forced (t : TextCall) : Bool :=
  match t.api with
  | .bpe _ _ => t.force
  | _ => true

/-- The global data after the lookups of a call. -/
def BpeState.worn (w : BpeCache → BpeCache) (s : BpeState) : BpeState := { s with cache := s.cache.map w }

/-- text.py 32-36: loading the data, with the global data afterwards. -/
def loadForText (u : Ucd) (d : BpeDisk) (c : PrepConfig) (id : Option Str) (force : Bool) (g : Option BpeState) :
    Except PyErr Unit × Option BpeState :=
  match id with
  | none => (.error .assertionError, g)
  | some [] => (.error .assertionError, g)
  | some (ch :: r) =>
    if isPredefinedId (ch :: r) then initBpeData u d c none force g
    else match CustomBpeConfig.fromId u d.reg (ch :: r) with
      | .error e => (.error e, g)
      | .ok cc => initBpeData u d c (some cc) force g

/-- text.py 25-40 `preprocess`, with the global data before and after the call. -/
def preprocessSt (env : Env) (d : BpeDisk) (c : PrepConfig) (id : Option Str) (t : TextCall) (g : Option BpeState) :
    Except PyErr (List Str × Meta) × Option BpeState :=
  match convertText env.ucd t.lexed with
  | .error e => (.error e, g)
  | .ok parsed =>
    let ts := finishParsed parsed t.appendEof
    if c.isBpe then
      match loadForText env.ucd d c id t.forced g with
      | (.error e, g') => (.error e, g')
      | (.ok (), g') => (toReprSt env c ts g', g'.map (BpeState.worn t.wear))
    else (toReprSt env c ts g, g)

/-- text.py 43-455: a call of the API, with the global data before and after it. -/
def textApiSt (env : Env) (d : BpeDisk) (t : TextCall) (g : Option BpeState) :
    Except PyErr (List Str × Meta) × Option BpeState :=
  match textConfig t.api with
  | .error e => (.error e, g)
  | .ok c => preprocessSt env d c (apiBpeCodesId t.api) t g

/-- A process that makes calls, one after the other; the files may be others at each call.  The result is the global data. -/
def afterCalls (env : Env) : List (BpeDisk × TextCall) → Option BpeState → Option BpeState
  | [], g => g
  | (d, t) :: r, g => afterCalls env r (textApiSt env d t g).2

end Verif
