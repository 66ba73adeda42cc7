import Verif.Model.BpeLearn
/-!
# Model of `codeprep/pipeline/bpelearner.py` (in-memory part)
-/
namespace Verif

/-- bpelearner.py 52: `{escape(" ".join(k)): v for k, v in base_bpe_vocab.items()}`, with each key split at spaces
(as `get_stats` and the other consumers do). -/
def splitBaseVocab (v : Dict Str Nat) : SplitVocab :=
  v.foldl (fun d e => d.set (pySplit ' ' (escape (pyJoin [' '] (e.1.map fun c => [c])) false)) e.2) []

/-- bpelearner.py 51: `{escape(k, merged=True): v for k, v in other_vocab.items()}` (each key is one subword). -/
def escapedOther (v : Dict Str Nat) : SplitVocab :=
  v.foldl (fun d e => d.set [escape e.1 true] e.2) []

/-- bpelearner.py 48-52, 26: `prepare_vocabs` when starting from scratch: the words to learn from and the words
that are kept as they are. -/
def prepareScratch (all : Dict Str Nat) (nonBpe : List Str) : SplitVocab × SplitVocab :=
  let (base, other) := separateVocabs all (fun w => w ∈ nonBpe)
  (splitBaseVocab base, escapedOther other)

/-- bpelearner.py 53-57: `prepare_vocabs` when continuing from the vocabulary saved by an earlier run. -/
def prepareResume (saved : SplitVocab) (nonBpe : List Str) : SplitVocab × SplitVocab :=
  separateVocabs saved (fun s => s ∈ nonBpe.map fun w => [escape w true])

/-- bpelearner.py 104-108: learning, putting back the other words, appending to the merges already done. -/
def learnRun (base other : SplitVocab) (done : MergeList) (nMerges : Nat) :
    Except PyErr (SplitVocab × MergeList) := do
  let (v, ms) ← doMerges base (nMerges - done.length)
  let v' := other.foldl (fun d e => d.set e.1 e.2) v
  let ms' ← done.add ms
  .ok (v', ms')

end Verif
