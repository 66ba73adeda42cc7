import Verif.Model.Vocab
/-!
# Model of the parallel calculation of a vocabulary (`codeprep/pipeline/vocab.py`)

The merger processes, the main process, the files they write and the crashes are a transition system.  Every transition is
one access to something shared: a queue, a counter or a file.  Queues and counters are atomic.  The directory of partial
vocabularies, called `path_to_dump` in the code, is a map from file names to contents; a missing directory is treated like
an empty one.  A vocabulary file that is being written can be cut off anywhere.  Identifiers are numbers made up from the
process id, the time and a random number; the model only assumes that a new one is not in use yet.
-/
namespace Verif

/-! ## Files in the directory of partial vocabularies -/

/-- What a file in the directory contains: a completely written vocabulary, a beginning of one (then it matters which
exception loading it raises), or nothing, for the file that marks the directory as complete. -/
inductive DumpFile where
  | vocab (v : PVocab)
  | truncated (eof : Bool)
  | mark
deriving DecidableEq, Repr

/-- The directory. -/
abbrev DumpDir := Dict Str DumpFile

/-- `pickle.load(open(path, 'rb'))`. -/
def pickleLoad : DumpFile → Except PyErr PVocab
  | .vocab v => .ok v
  | .truncated true => .error .eofError
  | .truncated false => .error .unpicklingError
  | .mark => .error .eofError

/-- vocab.py 32 `PARTVOCAB_EXT` with the dot before it. -/
def partvocabExt : Str := ".partvocab".toList

/-- vocab.py 33 `PARTIAL_VOCABS_READY_FILENAME`. -/
def readyName : Str := "ready".toList

/-- vocab.py 220, 240, 244, 248: name of the file of a vocabulary. -/
def simpleName (id : Str) : Str := id ++ partvocabExt

/-- vocab.py 199: name of the file of the result of a merge until the merge is completed. -/
def tripleName (first second new : Str) : Str := first ++ '_' :: (second ++ '_' :: (new ++ partvocabExt))

/-- One element of a shell-style pattern. -/
inductive Glob where
  | digit
  | star
  | lit (c : Char)
deriving DecidableEq, Repr

/-- `fnmatch(name, pattern)` for patterns of digits `[0-9]`, `*` and ordinary characters. -/
def fnmatch : List Glob → Str → Bool
  | [], [] => true
  | [], _ :: _ => false
  | .star :: p, [] => fnmatch p []
  | .star :: p, c :: s => fnmatch p (c :: s) || fnmatch (.star :: p) s
  | .digit :: p, c :: s => decide ('0' ≤ c ∧ c ≤ '9') && fnmatch p s
  | .digit :: _, [] => false
  | .lit d :: p, c :: s => decide (c = d) && fnmatch p s
  | .lit _ :: _, [] => false
termination_by p s => (p.length, s.length)

/-- vocab.py 288: the pattern `[0-9]*_[0-9]*_[0-9]*.partvocab`. -/
def triplePattern : List Glob :=
  [.digit, .star, .lit '_', .digit, .star, .lit '_', .digit, .star] ++ partvocabExt.map .lit

/-- vocab.py 235-239: the three identifiers in a file name. -/
def idsOfName (name : Str) : Except PyErr (Str × Str × Str) :=
  match pySplit '.' name with
  | [] => .error .indexError
  | stem :: _ =>
    match pySplit '_' stem with
    | [a, b, c] => .ok (a, b, c)
    | _ => .error .assertionError

/-- Where the execution of `finish_file_dumping` is: before loading the file, before removing the first file, before
removing the second file, before renaming. -/
inductive FinSt where
  | check | first | second | rename
deriving DecidableEq, Repr

/-- Result of one step of `finish_file_dumping`. -/
inductive FinRes where
  | next (dir : DumpDir) (st : FinSt)
  | finished (dir : DumpDir)
  | raised (e : PyErr)

/-- `if os.path.exists(file): os.remove(file)`.  Nobody else removes the file, so this is one step. -/
def removeIfExists (dir : DumpDir) (name : Str) : DumpDir := if dir.has name then dir.del name else dir

/-- vocab.py 226-249 `finish_file_dumping`, one step. -/
def finStep (name : Str) : FinSt → DumpDir → FinRes
  | .check, dir =>
    match dir.get? name with
    | none => .raised .fileNotFound
    | some f =>
      match pickleLoad f with
      | .error .eofError => .finished (dir.del name)
      | .error e => .raised e
      | .ok _ =>
        match idsOfName name with
        | .error e => .raised e
        | .ok _ => .next dir .first
  | .first, dir =>
    match idsOfName name with
    | .error e => .raised e
    | .ok (a, _, _) => .next (removeIfExists dir (simpleName a)) .second
  | .second, dir =>
    match idsOfName name with
    | .error e => .raised e
    | .ok (_, b, _) => .next (removeIfExists dir (simpleName b)) .rename
  | .rename, dir =>
    match idsOfName name, dir.get? name with
    | .error e, _ => .raised e
    | .ok _, none => .raised .fileNotFound
    | .ok (_, _, c), some f => .finished ((dir.del name).set (simpleName c) f)

/-- Identifiers are digits (vocab.py 59-60). -/
def IsId (id : Str) : Prop := id ≠ [] ∧ ∀ c ∈ id, '0' ≤ c ∧ c ≤ '9'

/-- A new identifier: it is not part of the name of any file in the directory. -/
def FreshId (dir : DumpDir) (id : Str) : Prop :=
  IsId id ∧ ∀ name ∈ dir.keys, ∀ stem ∈ pySplit '.' name, id ∉ pySplit '_' stem

/-! ## Merging two vocabularies -/

/-- Where the execution of `VocabMerger._merge` is: at its beginning, while the file with the result is being written,
in `finish_file_dumping`, or after it.  `first` and `second` are the two vocabularies as they were before. -/
inductive MState where
  | ready (first second : PVocab)
  | dumping (first second res : PVocab) (eof : Bool)
  | finishing (first second res : PVocab) (st : FinSt)
  | done (res : PVocab)
deriving DecidableEq, Repr

/-- vocab.py 192-203 `VocabMerger._merge`, one step. -/
inductive MStep : DumpDir → MState → DumpDir → MState → Prop where
  | create {dir f s id eof} : FreshId dir id →
      MStep dir (.ready f s) (dir.set (tripleName f.id s.id id) (.truncated eof))
        (.dumping f s ((f.addVocab s).1.renewId id) eof)
  | complete {dir f s res eof} :
      MStep dir (.dumping f s res eof) (dir.set (tripleName f.id s.id res.id) (.vocab res)) (.finishing f s res .check)
  | next {dir f s res st dir' st'} : finStep (tripleName f.id s.id res.id) st dir = .next dir' st' →
      MStep dir (.finishing f s res st) dir' (.finishing f s res st')
  | last {dir f s res st dir'} : finStep (tripleName f.id s.id res.id) st dir = .finished dir' →
      MStep dir (.finishing f s res st) dir' (.done res)

/-! ## The merger processes -/

/-- The file with statistics: being written, or completely written (then its first line is the vocabulary size, and the other lines have
the number of partial vocabularies, from which the percentage is calculated, and two more numbers). -/
inductive StatsFile where
  | incomplete
  | complete (vocabSize : Nat) (lines : List (Nat × Nat × Nat))
deriving DecidableEq, Repr

/-- The files of the calculation: the directory of partial vocabularies, `vocabsize` and `vocab`. -/
structure Disk where
  dir : DumpDir
  stats : Option StatsFile
  vocab : Option Str

/-- What the merger processes share: the queue of chunks (`none` is `-1`), the queues of vocabularies, the number of
processes and the number of merges left. -/
structure Queues where
  chunkQ : List (Option Nat)
  tasks : Dict Nat (List PVocab)
  counter : Nat
  mergesLeft : Nat

/-- Where a merger process is. -/
inductive PState where
  | idle                                                   -- vocab.py 126
  | assigned (c : Nat)                                     -- vocab.py 141
  | holding (c : Nat) (first : PVocab)                     -- vocab.py 142
  | counting (c : Nat) (first second : PVocab)             -- vocab.py 151
  | merging (c : Nat) (m : MState)                         -- vocab.py 158, 163
  | stopping                                               -- vocab.py 128
  | collecting (todo : List Nat) (got : List PVocab)       -- vocab.py 167
  | combining (m : MState) (rest : List PVocab)            -- vocab.py 172-179
  | writingStats (v : PVocab)                              -- vocab.py 183
  | openVocab (v : PVocab)                                 -- vocab.py 184
  | writingVocab (v : PVocab) (rest : Str)                 -- vocab.py 184
  | removing                                               -- vocab.py 185
  | ended
deriving DecidableEq, Repr

/-- vocab.py 124-185 `VocabMerger.run` and `_finish_merges`, one step of a process. -/
inductive PStep : Disk → Queues → PState → Disk → Queues → PState → Prop where
  | take {dk q c r} : q.chunkQ = some c :: r → PStep dk q .idle dk { q with chunkQ := r } (.assigned c)
  | takeEnd {dk q r} : q.chunkQ = none :: r → PStep dk q .idle dk { q with chunkQ := r } .stopping
  | first {dk q c v r} : q.tasks.get? c = some (v :: r) →
      PStep dk q (.assigned c) dk { q with tasks := q.tasks.set c r } (.holding c v)
  | second {dk q c f v r} : q.tasks.get? c = some (v :: r) →
      PStep dk q (.holding c f) dk { q with tasks := q.tasks.set c r } (.counting c f v)
  | count {dk q c f s n} : q.mergesLeft = n + 1 →
      PStep dk q (.counting c f s) dk { q with mergesLeft := n } (.merging c (.ready f s))
  | merge {dk q c m dir' m'} : MStep dk.dir m dir' m' →
      PStep dk q (.merging c m) { dk with dir := dir' } q (.merging c m')
  | put {dk q c v l} : q.tasks.get? c = some l →
      PStep dk q (.merging c (.done v)) dk { q with tasks := q.tasks.set c (l ++ [v]) } .idle
  | lastProcess {dk q} : q.counter = 1 →
      PStep dk q .stopping dk { q with counter := 0 } (.collecting q.tasks.keys [])
  | notLast {dk q n} : q.counter = n + 1 → n ≠ 0 → PStep dk q .stopping dk { q with counter := n } .ended
  | collect {dk q c todo got v r} : q.tasks.get? c = some (v :: r) →
      PStep dk q (.collecting (c :: todo) got) dk { q with tasks := q.tasks.set c r } (.collecting todo (got ++ [v]))
  | collected {dk q got v} : PStep dk q (.collecting [] (got ++ [v])) dk q (.combining (.done v) got)
  | combine {dk q f v rest} : PStep dk q (.combining (.done f) (v :: rest)) dk q (.combining (.ready f v) rest)
  | combineStep {dk q m rest dir' m'} : MStep dk.dir m dir' m' →
      PStep dk q (.combining m rest) { dk with dir := dir' } q (.combining m' rest)
  | combined {dk q v} : PStep dk q (.combining (.done v) []) { dk with stats := some .incomplete } q (.writingStats v)
  | statsWritten {dk q v n ls} : v.writeStats = .ok (n, ls) →
      PStep dk q (.writingStats v) { dk with stats := some (.complete n ls) } q (.openVocab v)
  | vocabOpened {dk q v} :
      PStep dk q (.openVocab v) { dk with vocab := some [] } q (.writingVocab v (writeVocab v.counts))
  | write {dk q v a b t} : a ≠ [] → dk.vocab = some t →
      PStep dk q (.writingVocab v (a ++ b)) { dk with vocab := some (t ++ a) } q (.writingVocab v b)
  | written {dk q v} : PStep dk q (.writingVocab v []) dk q .removing
  | remove {dk q l e r} : dk.dir = l ++ e :: r → PStep dk q .removing { dk with dir := l ++ r } q .removing
  | removed {dk q} : dk.dir = [] → PStep dk q .removing dk q .ended

/-- A run of the merger processes; the flag says whether a process is alive. -/
structure Run where
  disk : Disk
  queues : Queues
  procs : List (PState × Bool)

/-- A process makes a step. -/
inductive RunStep : Run → Run → Prop where
  | step {dk q l p r dk' q' p'} : PStep dk q p dk' q' p' →
      RunStep ⟨dk, q, l ++ (p, true) :: r⟩ ⟨dk', q', l ++ (p', true) :: r⟩

/-- Something goes wrong: a process is killed, or dies of an exception such as a timeout; or the timeout of vocab.py 142
expires, so that the process puts its vocabulary back and terminates. -/
inductive RunFault : Run → Run → Prop where
  | die {dk q l p r} : RunFault ⟨dk, q, l ++ (p, true) :: r⟩ ⟨dk, q, l ++ (p, false) :: r⟩
  | giveBack {dk q l c f r qs} : q.tasks.get? c = some qs →
      RunFault ⟨dk, q, l ++ (.holding c f, true) :: r⟩
        ⟨dk, { q with tasks := q.tasks.set c (qs ++ [f]) }, l ++ (.assigned c, false) :: r⟩

/-- vocab.py 374-386: the start of the merger processes. -/
def startQueues (tasks : List PVocab) (n : Nat) : Queues :=
  let t := mapifyTasks tasks
  let cq := createChunkQueue (t.map fun e => (e.1, e.2.length)) n
  { chunkQ := cq.1, tasks := t, counter := n, mergesLeft := cq.2 }

/-! ## The main process -/

/-- Where `calc_vocab` is. -/
inductive Phase where
  | start                                                              -- vocab.py 361
  | clearing                                                           -- vocab.py 306
  | creating (todo : List (Dict Str Nat × Nat)) (busy done : List PVocab) -- vocab.py 265-268
  | recovering (todo : List Str) (cur : Option (Str × FinSt))          -- vocab.py 287-290
  | running (queues : Queues) (procs : List (PState × Bool))           -- vocab.py 385-389
  | returned                                                           -- after the call, however it ended

/-- The state of everything. -/
structure World where
  disk : Disk
  phase : Phase

/-- vocab.py 292-300: loading the partial vocabularies in the order in which the directory is listed. -/
def loadAll (dir : DumpDir) (names : List Str) : Except PyErr (List PVocab) :=
  (names.filter fun n => endsWith n "partvocab".toList).mapM fun n =>
    match dir.get? n with
    | none => .error .fileNotFound
    | some f => pickleLoad f

/-- vocab.py 351-391 `calc_vocab` and what it calls, one step.  `parts` are the word counts of the groups of files together
with their chunks, `n` is the number of processors.  The order in which a directory is listed is arbitrary. -/
inductive WStep (parts : List (Dict Str Nat × Nat)) (n : Nat) : World → World → Prop where
  | exists_ {dk} : dk.stats.isSome = true → dk.vocab.isSome = true → WStep parts n ⟨dk, .start⟩ ⟨dk, .returned⟩
  | recover {dk} {names : List Str} : ¬ (dk.stats.isSome = true ∧ dk.vocab.isSome = true) → dk.dir.has readyName = true →
      names.Perm dk.dir.keys →
      WStep parts n ⟨dk, .start⟩ ⟨dk, .recovering (names.filter (fnmatch triplePattern)) none⟩
  | fromScratch {dk} : ¬ (dk.stats.isSome = true ∧ dk.vocab.isSome = true) → dk.dir.has readyName = false →
      WStep parts n ⟨dk, .start⟩ ⟨dk, .clearing⟩
  | clear {dk l e r} : dk.dir = l ++ e :: r → WStep parts n ⟨dk, .clearing⟩ ⟨{ dk with dir := l ++ r }, .clearing⟩
  | cleared {dk} : dk.dir = [] → parts ≠ [] → WStep parts n ⟨dk, .clearing⟩ ⟨dk, .creating parts [] []⟩
  | noFiles {dk} : dk.dir = [] → parts = [] → WStep parts n ⟨dk, .clearing⟩ ⟨dk, .returned⟩
  | dump {dk l d c r busy done id eof} : FreshId dk.dir id →
      WStep parts n ⟨dk, .creating (l ++ (d, c) :: r) busy done⟩
        ⟨{ dk with dir := dk.dir.set (simpleName id) (.truncated eof) },
          .creating (l ++ r) (PVocab.init d c id :: busy) done⟩
  | dumped {dk todo l v r done} :
      WStep parts n ⟨dk, .creating todo (l ++ v :: r) done⟩
        ⟨{ dk with dir := dk.dir.set (simpleName v.id) (.vocab v) }, .creating todo (l ++ r) (done ++ [v])⟩
  | created {dk done} :
      WStep parts n ⟨dk, .creating [] [] done⟩
        ⟨{ dk with dir := dk.dir.set readyName .mark },
          .running (startQueues done n) (List.replicate n (.idle, true))⟩
  | recoverFile {dk name todo} :
      WStep parts n ⟨dk, .recovering (name :: todo) none⟩ ⟨dk, .recovering todo (some (name, .check))⟩
  | recoverNext {dk name st todo dir' st'} : finStep name st dk.dir = .next dir' st' →
      WStep parts n ⟨dk, .recovering todo (some (name, st))⟩
        ⟨{ dk with dir := dir' }, .recovering todo (some (name, st'))⟩
  | recoverLast {dk name st todo dir'} : finStep name st dk.dir = .finished dir' →
      WStep parts n ⟨dk, .recovering todo (some (name, st))⟩ ⟨{ dk with dir := dir' }, .recovering todo none⟩
  | recoverRaised {dk name st todo e} : finStep name st dk.dir = .raised e →
      WStep parts n ⟨dk, .recovering todo (some (name, st))⟩ ⟨dk, .returned⟩
  | loaded {dk} {names : List Str} {tasks} : names.Perm dk.dir.keys → loadAll dk.dir names = .ok tasks →
      WStep parts n ⟨dk, .recovering [] none⟩
        ⟨dk, .running (startQueues tasks n) (List.replicate n (.idle, true))⟩
  | loadRaised {dk} {names : List Str} {e} : names.Perm dk.dir.keys → loadAll dk.dir names = .error e →
      WStep parts n ⟨dk, .recovering [] none⟩ ⟨dk, .returned⟩
  | run {dk q ps dk' q' ps'} : RunStep ⟨dk, q, ps⟩ ⟨dk', q', ps'⟩ →
      WStep parts n ⟨dk, .running q ps⟩ ⟨dk', .running q' ps'⟩
  | joined {dk q ps} : (∀ p ∈ ps, p.1 = .ended ∨ p.2 = false) → WStep parts n ⟨dk, .running q ps⟩ ⟨dk, .returned⟩

/-- Something goes wrong: a merger process has a problem, or the program is killed and, at some time later, started again.
A call that has returned may also be repeated. -/
inductive WFault : World → World → Prop where
  | run {dk q ps dk' q' ps'} : RunFault ⟨dk, q, ps⟩ ⟨dk', q', ps'⟩ → WFault ⟨dk, .running q ps⟩ ⟨dk', .running q' ps'⟩
  | restart {dk ph} : WFault ⟨dk, ph⟩ ⟨dk, .start⟩

end Verif
