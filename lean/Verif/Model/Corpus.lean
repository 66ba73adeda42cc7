import Verif.Model.Stages
/-!
# Model of a whole call of `codeprep/api/corpus.py` (`codeprep/pipeline/stages.py`, `Dataset.create`)

A dataset that does not change is preprocessed again and again: into different directories, with different configurations, with or
without a vocabulary, also as the first part of learning byte-pair encoding.  The stages are those of `Verif.Model.Stages`; here they
share the directory of the parsed files.  Calls are made one after another; each can be killed between any two accesses to the disk.
How a vocabulary is calculated is in `Verif.Model.VocabMerge`; here the vocabulary file is first incomplete and then complete.
-/
namespace Verif.Corpus
open Verif Stage

/-- What is run: stages.py 30-39 `run_until_preprocessing`, 54-70 `run_until_vocab` or 42-51 `run_until_base_bpe_vocab`. -/
inductive Kind where
  | prep
  | vocab
  | base
deriving DecidableEq, Repr

/-- A call: the directory to which the results are written, the configuration with the id of the codes (dataset.py 191-195
`_get_prep_suffix`), what is run, and whether the parsed files are marked (`not suppress_caching`). -/
structure Call where
  out : Str
  cfg : Str
  kind : Kind
  caching : Bool
deriving DecidableEq, Repr

/-- corpus.py 228: where the results are written; `cwd` is the current directory. -/
def outputPath (o : Option Str) (cwd : Str) : Str :=
  match o with
  | some (c :: r) => c :: r
  | _ => cwd

/-- A directory with results and the marker next to it. -/
structure Place where
  dir : Option RDir
  marker : Option (Option Nat)
deriving DecidableEq, Repr

/-- A vocabulary file: incomplete, or calculated from the given texts. -/
inductive VFile where
  | cut
  | whole (texts : List Str)
deriving DecidableEq, Repr

/-- Where a call is: nowhere; before making the two directories; before looking for the vocabulary file; in one of the two stages (then
`Pc` says where); before the vocabulary; while it is written; at the end (`early` says that the vocabulary file was found at the
beginning). -/
inductive CPc where
  | off
  | create (c : Call)
  | createOut (c : Call)
  | look (c : Call)
  | parse (c : Call) (p : Pc)
  | prep (c : Call) (p : Pc)
  | count (c : Call)
  | counting (c : Call)
  | returned (c : Call) (early : Bool)
deriving DecidableEq, Repr

/-- The parsed files; the results by directory and configuration; the vocabulary files by configuration, for dataset.py 229-235 has no
directory in it; archived directories, whose names (dataset.py 323) have no directory in them either. -/
structure CWorld where
  parsed : Place
  prep : Str → Str → Place
  vocab : Str → Option VFile
  archParsed : List (Nat × RDir)
  archPrep : Str → List (Nat × RDir)
  now : Nat
  pc : CPc

/-- The parsed files as a stage. -/
def CWorld.parseStage (w : CWorld) (p : Pc) : World := ⟨w.parsed.dir, w.parsed.marker, w.archParsed, w.now, p⟩

/-- The results as a stage. -/
def CWorld.prepStage (w : CWorld) (out cfg : Str) (p : Pc) : World :=
  ⟨(w.prep out cfg).dir, (w.prep out cfg).marker, w.archPrep cfg, w.now, p⟩

/-- After a step of the first stage. -/
def CWorld.putParse (w : CWorld) (c : Call) (s : World) : CWorld :=
  { w with parsed := ⟨s.dir, s.marker⟩, archParsed := s.archived, now := s.now, pc := .parse c s.pc }

/-- A function changed at a place. -/
def upd {α β : Type} [DecidableEq α] (f : α → β) (a : α) (b : β) : α → β := fun x => if x = a then b else f x

/-- After a step of the second stage. -/
def CWorld.putPrep (w : CWorld) (c : Call) (s : World) : CWorld :=
  { w with
    prep := upd w.prep c.out (upd (w.prep c.out) c.cfg ⟨s.dir, s.marker⟩)
    archPrep := upd w.archPrep c.cfg s.archived
    now := s.now
    pc := .prep c s.pc }

/-- to_repr.py 60-81, 118-121: the results, computed from the parsed files that are there.  `names` are the files of the dataset,
`repr` is what is done with the text of a parsed file. -/
def prepResults (names : List Bytes) (repr : Str → Str → Str) (cfg : Str) (files : List RFile) : List (Bytes × Str) :=
  names.filterMap fun n => (files.find? (·.name = n)).map fun f => (n, repr cfg f.content)

/-- to_repr.py 67-72: a file of the dataset has no result, and its parsed file does not exist. -/
def Missing (names : List Bytes) (parsed results : List RFile) : Prop :=
  ∃ n ∈ names, n ∉ parsed.map (·.name) ∧ n ∉ results.map (·.name)

/-- The vocabulary file exists. -/
def CWorld.hasVocab (w : CWorld) (cfg : Str) : Prop := w.vocab cfg ≠ none

/-- One step of a call.  `input` are the names of the files of the dataset and what parsing them gives. -/
inductive CorpusStep (input : List (Bytes × Str)) (repr : Str → Str → Str) : CWorld → CWorld → Prop where
  /-- corpus.py 225-236, bpelearner.py 88: a call begins. -/
  | begin {w : CWorld} (c : Call) (h : w.pc = .off) : CorpusStep input repr w { w with pc := .create c }
  /-- dataset.py 138-139. -/
  | create {w : CWorld} {c : Call} (h : w.pc = .create c) :
      CorpusStep input repr w { w with parsed := ⟨some (w.parsed.dir.getD ⟨w.now, []⟩), w.parsed.marker⟩, pc := .createOut c }
  /-- dataset.py 141-142. -/
  | createOut {w : CWorld} {c : Call} (h : w.pc = .createOut c) :
      CorpusStep input repr w
        { w with
          prep := upd w.prep c.out (upd (w.prep c.out) c.cfg ⟨some ((w.prep c.out c.cfg).dir.getD ⟨w.now, []⟩), (w.prep c.out c.cfg).marker⟩)
          pc := .look c }
  /-- stages.py 56-58: the vocabulary file exists. -/
  | found {w : CWorld} {c : Call} (h : w.pc = .look c) (hk : c.kind = .vocab) (hv : w.hasVocab c.cfg) :
      CorpusStep input repr w { w with pc := .returned c true }
  /-- stages.py 60-61, 31, 43. -/
  | notFound {w : CWorld} {c : Call} (h : w.pc = .look c) (hv : c.kind = .vocab → ¬ w.hasVocab c.cfg) :
      CorpusStep input repr w { w with pc := .parse c .ready }
  /-- stages.py 19-27 `run_parsing`. -/
  | parse {w : CWorld} {c : Call} {p : Pc} {s : World} (h : w.pc = .parse c p) (hs : CallStep input c.caching (w.parseStage p) s)
      (he : s.pc ≠ .off) : CorpusStep input repr w (w.putParse c s)
  /-- stages.py 32-33. -/
  | parsed {w : CWorld} {c : Call} (h : w.pc = .parse c .done) : CorpusStep input repr w { w with pc := .prep c .ready }
  /-- stages.py 33-39.  The workers are not finished before they have looked at every file. -/
  | prep {w : CWorld} {c : Call} {p : Pc} {s : World} (h : w.pc = .prep c p)
      (hd : ∀ r, p = .run r → w.parsed.dir ≠ none)
      (hm : p = .run [] → ¬ Missing (input.map (·.1)) (filesOf w.parsed.dir) (filesOf (w.prep c.out c.cfg).dir))
      (hs : CallStep (prepResults (input.map (·.1)) repr c.cfg (filesOf w.parsed.dir)) true (w.prepStage c.out c.cfg p) s) (he : s.pc ≠ .off) :
      CorpusStep input repr w (w.putPrep c s)
  /-- to_repr.py 132-136: there is no directory with parsed files. -/
  | prepExits {w : CWorld} {c : Call} {p : List (Bytes × Str)} (h : w.pc = .prep c (.run p)) (hd : w.parsed.dir = none) :
      CorpusStep input repr w { w with pc := .prep c (.raised .systemExit) }
  /-- to_repr.py 63-72: a parsed file does not exist; the directory for the result has been made. -/
  | prepFails {w : CWorld} {c : Call} {p : List (Bytes × Str)} (h : w.pc = .prep c (.run p)) (hd : w.parsed.dir ≠ none)
      (hm : Missing (input.map (·.1)) (filesOf w.parsed.dir) (filesOf (w.prep c.out c.cfg).dir)) :
      CorpusStep input repr w
        { w with
          prep := upd w.prep c.out (upd (w.prep c.out) c.cfg ⟨some ((w.prep c.out c.cfg).dir.getD ⟨w.now, []⟩), (w.prep c.out c.cfg).marker⟩)
          pc := .prep c (.raised .fileNotFound) }
  /-- corpus.py 241: no vocabulary is wanted. -/
  | prepared {w : CWorld} {c : Call} (h : w.pc = .prep c .done) (hk : c.kind = .prep) :
      CorpusStep input repr w { w with pc := .returned c false }
  /-- stages.py 45-46, 62-63. -/
  | toCount {w : CWorld} {c : Call} (h : w.pc = .prep c .done) (hk : c.kind ≠ .prep) :
      CorpusStep input repr w { w with pc := .count c }
  /-- vocab.py 353-355 `calc_vocab`: the files exist.  The file with statistics is written before the vocabulary. -/
  | counted {w : CWorld} {c : Call} (h : w.pc = .count c) (hv : w.hasVocab c.cfg) :
      CorpusStep input repr w { w with pc := .returned c false }
  /-- vocab.py 313-315 `create_partial_vocabs`: without files, the program exits. -/
  | countNothing {w : CWorld} {c : Call} (h : w.pc = .count c) (hv : ¬ w.hasVocab c.cfg) (hi : input = []) :
      CorpusStep input repr w { w with pc := .off }
  /-- vocab.py 184 `_finish_merges`: the vocabulary file is opened. -/
  | countBegin {w : CWorld} {c : Call} (h : w.pc = .count c) (hv : ¬ w.hasVocab c.cfg) (hi : input ≠ []) :
      CorpusStep input repr w { w with vocab := upd w.vocab c.cfg (some .cut), pc := .counting c }
  /-- vocab.py 184 `_finish_merges`: the vocabulary of the results is written. -/
  | countEnd {w : CWorld} {c : Call} (h : w.pc = .counting c) :
      CorpusStep input repr w
        { w with vocab := upd w.vocab c.cfg (some (.whole ((filesOf (w.prep c.out c.cfg).dir).map (·.content)))), pc := .returned c false }
  /-- The call is over, or it is killed. -/
  | exit {w : CWorld} : CorpusStep input repr w { w with pc := .off }
  /-- Time passes. -/
  | tick {w : CWorld} {now : Nat} (h : w.now ≤ now) : CorpusStep input repr w { w with now := now }

/-- Changes by users when no call is running: in the directory of the parsed files, in one with results; or a vocabulary file is removed. -/
inductive CUserStep : CWorld → CWorld → Prop where
  | parsed {w : CWorld} {s : World} (h : w.pc = .off) (hs : UserStep (w.parseStage .off) s) :
      CUserStep w { w with parsed := ⟨s.dir, s.marker⟩ }
  | prep {w : CWorld} {s : World} (out cfg : Str) (h : w.pc = .off) (hs : UserStep (w.prepStage out cfg .off) s) :
      CUserStep w { w with prep := upd w.prep out (upd (w.prep out) cfg ⟨s.dir, s.marker⟩) }
  | vocab {w : CWorld} (cfg : Str) (h : w.pc = .off) : CUserStep w { w with vocab := upd w.vocab cfg none }

/-- Nothing has been computed. -/
def CWorld.init (now : Nat) : CWorld := ⟨⟨none, none⟩, fun _ _ => ⟨none, none⟩, fun _ => none, [], fun _ => [], now, .off⟩

end Verif.Corpus
