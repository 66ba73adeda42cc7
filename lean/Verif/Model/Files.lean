import Verif.Model.Literal
/-!
# Model of the files written and read by codeprep

Merge files (`bpepkg/merge.py`), BPE cache files (`bpepkg/cache.py`), vocabulary files (`pipeline/vocab.py`),
non-BPE vocabulary files (`preprocess/metadata.py`, `pipeline/vocabloader.py`), `.prep` files
(`pipeline/to_repr.py`) and the corpus size (`api/corpus.py`).  A file is its text; the text encoding (UTF-8) is assumed
lossless.
-/
namespace Verif

/-- Universal newlines: what reading a text file in mode `'r'` does to line ends. -/
def univNl : Str → Str
  | [] => []
  | '\r' :: '\n' :: r => '\n' :: univNl r
  | '\r' :: r => '\n' :: univNl r
  | c :: r => c :: univNl r

/-- `for line in f` for a file opened with `open(file, 'r')`. -/
def readLines (text : Str) : List Str := fileLines (univNl text)

/-! ## Merge files -/

/-- merge.py 19-28 `Merge.parse_file_entry`.  Missing columns raise `IndexError`, which is turned into `ValueError`;
`int(...)` raises `ValueError` itself. -/
def parseFileEntry (line : Str) (priority : Nat) : Except PyErr Merge := do
  let spl := pySplit ' ' (← toNonLiteral line)
  match spl with
  | [a, b] => .ok ⟨(a, b), none, some priority⟩
  | a :: b :: c :: _ => do
    let f ← pyInt c
    .ok ⟨(a, b), some f, some priority⟩
  | _ => .error .valueError

/-- merge.py 163: `n_merges and idx >= n_merges`. -/
def limitReached (lim : Option Nat) (idx : Nat) : Bool :=
  match lim with
  | none => false
  | some n => n != 0 && n ≤ idx

/-- merge.py 162-166: the loop of `read_merges`; `lim` is `n_merges` (`None` and `0` mean "no limit"). -/
def readMergesLoop (lim : Option Nat) : Nat → MergeList → List Str → Except PyErr MergeList
  | _, m, [] => .ok m
  | idx, m, line :: rest =>
    if limitReached lim idx then .ok m
    else do
      let mg ← parseFileEntry (rstripNl line) idx
      let m' ← m.append mg
      readMergesLoop lim (idx + 1) m' rest

/-- merge.py 159-167 `read_merges`. -/
def readMerges (text : Str) (lim : Option Nat) : Except PyErr MergeList :=
  readMergesLoop lim 0 [] (readLines text)

/-- merge.py 173: one line of `dump_merges`. -/
def mergeLine (mg : Merge) : Str :=
  toLiteral (pyJoin [' '] [mg.pair.1, mg.pair.2]) ++ ' ' :: optIntStr mg.freq ++ ['\n']

/-- merge.py 170-173 `dump_merges`: the text written. -/
def dumpMerges (m : MergeList) : Str := concat (m.toMerges.map mergeLine)

/-! ## BPE cache files -/

/-- cache.py 24-28: one line of `read_bpe_cache`. -/
def readCacheLine (line : Str) : Except PyErr (Str × List Str) :=
  match pySplit '\t' (rstripNl line) with
  | a :: b :: _ => do
    let v ← toNonLiteral b
    let k ← toNonLiteral a
    .ok (k, pySplit ' ' v)
  | _ => .error .indexError

/-- cache.py 24-28: the loop of `read_bpe_cache`. -/
def readCacheLoop (d : Dict Str (List Str)) : List Str → Except PyErr (Dict Str (List Str))
  | [] => .ok d
  | line :: rest => do
    let e ← readCacheLine line
    readCacheLoop (d.set e.1 e.2) rest

/-- cache.py 21-29 `read_bpe_cache`. -/
def readBpeCache (text : Str) : Except PyErr (Dict Str (List Str)) := readCacheLoop [] (readLines text)

/-- cache.py 32-36 `dump_bpe_cache`: the text written. -/
def dumpBpeCache (d : Dict Str (List Str)) : Str :=
  concat (d.map fun e => toLiteral e.1 ++ '\t' :: toLiteral (pyJoin [' '] e.2) ++ ['\n'])

/-! ## Vocabulary files -/

/-- vocab.py 324-327: one line of `_dump_vocab_dict`. -/
def vocabLine (toLit : Bool) (e : Str × Nat) : Str :=
  (if toLit then toLiteral e.1 else e.1) ++ '\t' :: natStr e.2 ++ ['\n']

/-- vocab.py 322-327 `_dump_vocab_dict`: the text written. -/
def dumpVocabDict (l : List (Str × Nat)) (toLit : Bool) : Str := concat (l.map (vocabLine toLit))

/-- vocab.py 337-339: one line of `_load_vocab_dict`.  In the assignment `words[key] = value` Python evaluates the value
first. -/
def loadVocabLine (line : Str) : Except PyErr (Str × Int) :=
  match pySplit '\t' (rstripNl line) with
  | a :: b :: _ => do
    let v ← pyInt b
    let k ← toNonLiteral a
    .ok (k, v)
  | _ => .error .indexError

/-- vocab.py 336-339: the loop of `_load_vocab_dict`. -/
def loadVocabLoop (d : Dict Str Int) : List Str → Except PyErr (Dict Str Int)
  | [] => .ok d
  | line :: rest => do
    let e ← loadVocabLine line
    loadVocabLoop (d.set e.1 e.2) rest

/-- vocab.py 333-340 `_load_vocab_dict`. -/
def loadVocabDict (text : Str) : Except PyErr (Dict Str Int) := loadVocabLoop [] (readLines text)

/-- `set.add`: the set as a duplicate-free list (the order of a Python set is not observable here). -/
def setAdd (s : List Str) (w : Str) : List Str := if w ∈ s then s else s ++ [w]

/-- vocab.py 343-348 `_load_vocab_set` (the same loop is in bpelearner.py 29-34 `load_nonbpe_vocab`). -/
def loadVocabSetLoop (s : List Str) : List Str → Except PyErr (List Str)
  | [] => .ok s
  | line :: rest => do
    let w ← toNonLiteral (rstripNl line)
    loadVocabSetLoop (setAdd s w) rest

/-- vocab.py 343-348 `_load_vocab_set`. -/
def loadVocabSet (text : Str) : Except PyErr (List Str) := loadVocabSetLoop [] (readLines text)

/-- metadata.py 68-71 `save_metadata` and vocabloader.py 52-54: one literal per line, for the given order of the set. -/
def dumpTokenSet (ws : List Str) : Str := concat (ws.map fun w => toLiteral w ++ ['\n'])

/-- Stable insertion of an entry before the first entry whose number is not larger. -/
def insertDesc (e : Str × Nat) : List (Str × Nat) → List (Str × Nat)
  | [] => [e]
  | x :: r => if x.2 ≤ e.2 then e :: x :: r else x :: insertDesc e r

/-- `sorted(d.items(), key=lambda x: x[1], reverse=True)` (stable), as in vocab.py 98, 88 and bpelearner.py 76. -/
def sortDesc : List (Str × Nat) → List (Str × Nat)
  | [] => []
  | e :: r => insertDesc e (sortDesc r)

/-- vocab.py 97-99 `write_vocab`: the text written. -/
def writeVocab (counts : Dict Str Nat) : Str := dumpVocabDict (sortDesc counts) false

/-! ## `.prep` files -/

/-- to_repr.py 56-57, 76: the text of a `.prep` file. -/
def prepText (repr : List Str) : Str := toLiteral (pyJoin [' '] repr) ++ ['\n']

/-- corpus.py 26-32 `_calc_n_tokens`. -/
def calcNTokens (text : Str) : Nat := ((readLines text).map fun line => (pySplit ' ' line).length).sum

/-- corpus.py 56-69 `_calc_corpus_size`: the results are added in whatever order they arrive; here in the order of the
list. -/
def calcCorpusSize (texts : List Str) : Nat := (texts.map calcNTokens).sum

/-- fileutils.py 46-48: the lines of a file without their line ends. -/
def readFileContents (text : Str) : List Str := (readLines text).map rstripNl

/-- `Counter.update(words)`. -/
def counterUpdate (d : Dict Str Nat) : List Str → Dict Str Nat
  | [] => d
  | w :: r => counterUpdate (d.set w ((d.get? w).getD 0 + 1)) r

/-- vocab.py 206-213 `get_vocab`. -/
def getVocab (texts : List Str) : Dict Str Nat :=
  texts.foldl (fun d t => (readFileContents t).foldl (fun d line => counterUpdate d (pySplit ' ' line)) d) []

end Verif
