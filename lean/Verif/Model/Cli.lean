import Verif.Model.BpeState
import Verif.Model.Corpus
import Verif.Model.FileList
import Verif.Model.LearnDisk
/-!
# Model of `codeprep/cli/impl.py` (`handle_splitting`, `handle_learnbpe`) and of `preprocess_corpus` up to the stages
-/
namespace Verif

/-- What the commands ask the operating system: whether a path exists, the time of the last modification as it is written in names of
directories (dirutils.py 80-81 `get_timestamp`), the current directory. -/
structure Host where
  pathExists : Str → Bool
  timestamp : Str → Str
  cwd : Str

/-- `os.path.join` for two paths. -/
def pathJoin (a b : Str) : Str :=
  if b.head? = some '/' then b
  else if a = [] ∨ a.getLast? = some '/' then a ++ b
  else a ++ '/' :: b

/-- One round of the loop of `posixpath.normpath`; the components found so far are in reverse order. -/
def normStep (absolute : Bool) (acc : List Str) (comp : Str) : List Str :=
  if comp = [] ∨ comp = ['.'] then acc
  else if comp ≠ ['.', '.'] ∨ (absolute = false ∧ acc = []) ∨ acc.head? = some ['.', '.'] then comp :: acc
  else acc.tail

/-- `posixpath.normpath`: the slashes at the beginning.  Two slashes are kept, three are one. -/
def initialSlashes : Str → Str
  | '/' :: '/' :: '/' :: _ => ['/']
  | '/' :: '/' :: _ => ['/', '/']
  | '/' :: _ => ['/']
  | _ => []

/-- `posixpath.normpath`. -/
def normpath (p : Str) : Str :=
  let slashes := initialSlashes p
  let r := slashes ++ pyJoin ['/'] ((pySplit '/' p).foldl (normStep (slashes ≠ [])) []).reverse
  if r = [] then ['.'] else r

/-- `posixpath.abspath` (impl.py 41). -/
def abspath (cwd p : Str) : Str :=
  if p.head? = some '/' then normpath p else normpath (pathJoin cwd p)

/-! ## Splitting -/

/-- What `preprocess_corpus` runs the stages with: the dataset and the call in the sense of `Verif.Model.Corpus`. -/
structure CorpusPlan where
  path : Str
  exts : Option (List Str)
  config : PrepConfig
  custom : Option CustomBpeConfig
  call : Corpus.Call

/-- dataset.py 197-205 `_get_path_to_prep_dataset` with a directory that is given: the directory with the results. -/
def CorpusPlan.results (h : Host) (p : CorpusPlan) : Str :=
  pathJoin p.call.out (prepDirName (datasetDirName p.path (h.timestamp p.path) p.exts) p.config
    (p.custom.map fun c => (c.id, c.nMerges.toNat)) true)

/-- corpus.py 229-233: the custom BPE codes. -/
def corpusCustom (u : Ucd) (reg : Option Registry) (c : PrepConfig) (id : Option Str) : Except PyErr (Option CustomBpeConfig) :=
  if c.isBpe then
    match id with
    | none => .error .assertionError
    | some [] => .error .assertionError
    | some (ch :: r) =>
      if isPredefinedId (ch :: r) then .ok none
      else do .ok (some (← CustomBpeConfig.fromId u reg (ch :: r)))
  else .ok none

/-- corpus.py 225-244 `preprocess_corpus` and dataset.py 128-136: what is done before the stages are run.  `str(None)` is `"None"`. -/
def preprocessCorpus (u : Ucd) (reg : Option Registry) (h : Host) (path : Option Str) (c : PrepConfig) (id ext out : Option Str)
    (calcVocab suppressCaching : Bool) : Except PyErr CorpusPlan := do
  let out := Corpus.outputPath out h.cwd
  let custom ← corpusCustom u reg c id
  let path := match path with
    | none => "None".toList
    | some p => p
  if h.pathExists path = false then .error .valueError
  else .ok {
      path := path
      exts := normalizeExtensions ext
      config := c
      custom := custom
      call := ⟨out, prepSuffix c (custom.map fun c => (c.id, c.nMerges.toNat)), if calcVocab then .vocab else .prep, !suppressCaching⟩ }

/-- corpus.py 72-222: the functions `nosplit`, `chars`, `basic` and `bpe` of `codeprep.api.corpus`. -/
def corpusApi (u : Ucd) (reg : Option Registry) (h : Host) (call : ApiCall) (path : Str) (ext out : Option Str)
    (calcVocab suppressCaching : Bool) : Except PyErr CorpusPlan := do
  let c ← corpusConfig call
  preprocessCorpus u reg h (some path) c (apiBpeCodesId call) ext out calcVocab suppressCaching

/-- What docopt delivers for the commands `nosplit`, `chars`, `basic` and `bpe` (spec.py 15-164). -/
structure SplitArgs where
  opts : CliArgs
  text : Option Str
  path : Option Str
  outputPath : Option Str
  ext : Option Str
  calcVocab : Bool

/-- What a command does: it prints tokens, preprocesses a corpus, logs that the id of the codes is not valid, or raises an error. -/
inductive SplitOutcome where
  | printed (tokens : List Str)
  | preprocessed (plan : CorpusPlan)
  | logged
  | raised (e : PyErr)

/-- impl.py 79-81. -/
def SplitOutcome.ofError : PyErr → SplitOutcome
  | .invalidBpeCodesId => .logged
  | e => .raised e

/-- text.py 25-40 `preprocess` as it is called from impl.py 71-72: in a new process, with the defaults `append_eof=False` and
`force_reinit_bpe_data=True`.  Only the tokens are returned. -/
def preprocessFresh (env : Env) (d : BpeDisk) (c : PrepConfig) (id : Option Str) (lexed : List (TokType × Str)) :
    Except PyErr (List Str) :=
  (preprocessSt env d c id ⟨.bpe [] {}, lexed, false, true, fun c => c⟩ none).1.map (·.1)

/-- impl.py 64-81 `handle_splitting`.  `lex` is the lexer: the text and the extension give classified pieces. -/
def handleSplitting (env : Env) (d : BpeDisk) (h : Host) (lex : Str → Option Str → List (TokType × Str)) (a : SplitArgs) :
    SplitOutcome :=
  match cliPrepConfig a.opts with
  | .error e => .ofError e
  | .ok c =>
    let id := cliBpeCodesId a.opts
    match a.text with
    | some (ch :: r) =>
      match preprocessFresh env d c id (lex (ch :: r) a.ext) with
      | .error e => .ofError e
      | .ok ts => .printed ts
    | _ =>
      match preprocessCorpus env.ucd d.reg h a.path c id a.ext a.outputPath a.calcVocab false with
      | .error e => .ofError e
      | .ok p => .preprocessed p

/-! ## Learning -/

/-- What docopt delivers for the command `learn-bpe` (spec.py 167-186). -/
structure LearnArgs where
  nMerges : Str
  path : Str
  ext : Option Str
  id : Option Str
  noUnicode : Bool
  bytes : Bool
  wordEnd : Bool
  legacy : Bool
deriving DecidableEq, Repr

/-- impl.py 84-96 `create_bpe_config_from_args`. -/
def cliBpeConfig (a : LearnArgs) : Except PyErr BpeConfig :=
  let unicode := if a.noUnicode then "no".toList else if a.bytes then "bytes".toList else "yes".toList
  BpeConfig.make "yes".toList a.wordEnd (if a.legacy then "java".toList else "code".toList) unicode

/-- The command has learnt something, has printed a message, or has raised an error. -/
inductive LearnOutcome where
  | done
  | message
  | raised (e : PyErr)
deriving DecidableEq, Repr

/-- impl.py 44-52: the extensions; `none`: a message is printed and nothing else happens. -/
def learnExtensions (a : LearnArgs) : Option (Option Str) :=
  if a.legacy then
    match normalizeExtensions a.ext with
    | none => some (some "java".toList)
    | some [] => some (some "java".toList)
    | some (e :: es) => if e :: es ≠ ["java".toList] then none else some (some "java".toList)
  else some a.ext

/-- dataset.py 215-223 `bpe_path`: the name of the directory for the merges. -/
def learnDir (h : Host) (path : Str) (ext : Option Str) (b : BpeConfig) : Str :=
  bpeDirName (datasetDirName path (h.timestamp path) (normalizeExtensions ext)) (some b)

/-- impl.py 39-61 `handle_learnbpe`, with the directories of merges before and after it.  `learner` is bpelearner.py 91-115, the part of
`run` after the check of the configuration: it is given what it reads from the dataset (path, extensions, configuration of
preprocessing, directory), and returns the number of merges of the list it saves. -/
def handleLearn (u : Ucd) (h : Host) (learner : Str → Option (List Str) → PrepConfig → Str → Int → Except PyErr Nat)
    (a : LearnArgs) (reg : Registry) : LearnOutcome × Registry :=
  let path := abspath h.cwd a.path
  match cliBpeConfig a with
  | .error e => (.raised e, reg)
  | .ok b => match pyInt a.nMerges with
    | .error e => (.raised e, reg)
    | .ok n => match learnExtensions a with
      | none => (.message, reg)
      | some ext =>
        if h.pathExists path = false then (.raised .valueError, reg)
        else
          let dir := learnDir h path ext b
          match prepareLearning u reg path b a.id dir with
          | .error e => (.raised e, ensureDir reg dir)
          | .ok reg' => match checkSupported b with
            | .error e => (.raised e, reg')
            | .ok () => match learner path (normalizeExtensions ext) b.toPrepConfig dir n with
              | .error e => (.raised e, reg')
              | .ok k => (.done, saveMerges reg' dir k)

end Verif
