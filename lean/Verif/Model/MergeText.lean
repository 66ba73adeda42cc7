import Verif.Model.BpeLearner
/-!
# Learning merges on texts

Model of `codeprep/bpepkg/bpe_learn.py` as it is written: split words are texts with spaces between the subwords, and pairs are
found with a regular expression.  Model/BpeLearn has the same functions on lists of subwords.
-/
namespace Verif.Txt
open Verif

/-- A vocabulary of split words, `Dict[str, int]`. -/
abbrev TextVocab := Dict Str Nat

/-! ## The regular expression of `merge_vocab`

`(^|[^ ]+ )(x y)( [^ ]+|$)` (bpe_learn.py 44).  Every part is modelled by all its matches at the beginning of a text, in the order
in which a backtracking matcher tries them, each one with the rest of the text. -/

/-- `[^ ]+`, greedy: the longest match first. -/
def runs : Str → List (Str × Str)
  | [] => []
  | c :: r => if c = ' ' then [] else (runs r).map (fun m => (c :: m.1, m.2)) ++ [([c], r)]

/-- The space after `[^ ]+` in `[^ ]+ ` (bpe_learn.py 44). -/
def spaceAfter (m : Str × Str) : Option (Str × Str) :=
  match m.2 with
  | ' ' :: r => some (m.1 ++ [' '], r)
  | _ => none

/-- `(^|[^ ]+ )`; `^` matches at the beginning of the whole text only. -/
def group1 (atStart : Bool) (s : Str) : List (Str × Str) :=
  (if atStart then [([], s)] else []) ++ (runs s).filterMap spaceAfter

/-- `(x y)`: the text of the pair is escaped (bpe_learn.py 42), so it stands for itself. -/
def group2 (t s : Str) : List Str := if t.isPrefixOf s then [s.drop t.length] else []

/-- `( [^ ]+|$)`; `$` matches at the end, and before a line feed at the end. -/
def group3 (s : Str) : List (Str × Str) :=
  (match s with
   | ' ' :: r => (runs r).map fun m => (' ' :: m.1, m.2)
   | _ => []) ++ (if s = [] ∨ s = ['\n'] then [([], s)] else [])

/-- A match: the text before it, groups 1 and 3, and the text after it. -/
structure Match where
  before : Str
  g1 : Str
  g3 : Str
  after : Str
deriving DecidableEq, Repr

/-- All matches that begin at a position; `before` is the text before it. -/
def matchesAt (t before s : Str) : List Match :=
  (group1 (before = []) s).flatMap fun m1 =>
    (group2 t m1.2).flatMap fun s2 =>
      (group3 s2).map fun m3 => ⟨before, m1.1, m3.1, m3.2⟩

/-- `reg.search(word)` (bpe_learn.py 48, 63): the first match at the first position that has one. -/
def search (t before : Str) : Str → Option Match
  | [] => (matchesAt t before []).head?
  | c :: r =>
    match (matchesAt t before (c :: r)).head? with
    | some m => some m
    | none => search t (before ++ [c]) r

/-! ## Learning -/

/-- bpe_learn.py 20-26 `get_stats` (before building the queue). -/
def statsDict (v : TextVocab) : Dict Pair Int := v.foldl (fun d e => statsWord e.2 (pySplit ' ' e.1) d) []

/-- bpe_learn.py 20-26 `get_stats`. -/
def getStats (v : TextVocab) : PriorityCounter Pair := PriorityCounter.init (Txt.statsDict v)

/-- bpe_learn.py 51-60: the changes of the frequencies of pairs for one match. -/
def addedFor (p : Pair) (occ : Nat) (m : Match) : List (Pair × Int) :=
  (if m.g1 ≠ [] then
    ((m.g1.dropLast, p.1 ++ p.2), (occ : Int)) ::
      (if p ≠ (m.g1.dropLast, p.1) then [((m.g1.dropLast, p.1), -(occ : Int))] else [])
   else []) ++
  (if m.g3 ≠ [] then
    ((p.1 ++ p.2, m.g3.tail), (occ : Int)) ::
      (if p ≠ (p.2, m.g3.tail) then [((p.2, m.g3.tail), -(occ : Int))] else [])
   else [])

/-- bpe_learn.py 48-63: the loop for one word.  Every round makes the text shorter, as the space goes. -/
def mergeWord (p : Pair) (occ : Nat) : Nat → Str → List (Pair × Int) → Str × List (Pair × Int)
  | 0, w, acc => (w, acc)
  | fuel + 1, w, acc =>
    match search (pyJoin [' '] [p.1, p.2]) [] w with
    | none => (w, acc)
    | some m => mergeWord p occ fuel (m.before ++ m.g1 ++ (p.1 ++ p.2) ++ m.g3 ++ m.after) (acc ++ Txt.addedFor p occ m)

/-- bpe_learn.py 46-64: the loop over the words. -/
def mergeVocabLoop (p : Pair) : TextVocab → TextVocab → List (Pair × Int) → TextVocab × List (Pair × Int)
  | [], out, acc => (out, acc)
  | (w, occ) :: r, out, acc =>
    let (w', acc') := Txt.mergeWord p occ w.length w acc
    mergeVocabLoop p r (out.set w' occ) acc'

/-- bpe_learn.py 29-65 `merge_vocab`. -/
def mergeVocab (p : Pair) (v : TextVocab) : TextVocab × List (Pair × Int) := Txt.mergeVocabLoop p v [] []

/-- bpe_learn.py 103-114: the loop of `do_merges`. -/
def doMergesLoop : Nat → Nat → TextVocab → PriorityCounter Pair → MergeList → Except PyErr (TextVocab × MergeList)
  | 0, _, v, _, ms => .ok (v, ms)
  | n + 1, i, v, c, ms =>
    match c.popPair with
    | none => .ok (v, ms)
    | some (best, occ, c') => do
      let ms' ← ms.append ⟨best, some occ, some i⟩
      let (v', added) := Txt.mergeVocab best v
      let c'' ← addAll c' added
      doMergesLoop n (i + 1) v' c'' ms'

/-- bpe_learn.py 68-115 `do_merges`. -/
def doMerges (v : TextVocab) (n : Nat) : Except PyErr (TextVocab × MergeList) :=
  Txt.doMergesLoop n 0 v (Txt.getStats v) []

/-- bpe_learn.py 120-126 `create_bpe_cache`. -/
def createBpeCache (v : TextVocab) : BpeCache :=
  v.foldl (fun d e => d.set (concat (pySplit ' ' e.1)) (pySplit ' ' e.1)) []

/-- bpe_learn.py 129-134 `create_resulting_vocab`. -/
def createResultingVocab (v : TextVocab) : Dict Str Nat :=
  v.foldl (fun d e => (pySplit ' ' e.1).foldl (fun d s => bumpN d s e.2) d) []

/-- bpelearner.py 52: `{escape(" ".join(k)): v for k, v in base_bpe_vocab.items()}`. -/
def splitBaseVocab (v : Dict Str Nat) : TextVocab :=
  v.foldl (fun d e => d.set (escape (pyJoin [' '] (e.1.map fun c => [c])) false) e.2) []

/-- bpelearner.py 51: `{escape(k, merged=True): v for k, v in other_vocab.items()}`. -/
def escapedOther (v : Dict Str Nat) : TextVocab := v.foldl (fun d e => d.set (escape e.1 true) e.2) []

/-- bpelearner.py 48-52, 26: `prepare_vocabs` when starting from scratch. -/
def prepareScratch (all : Dict Str Nat) (nonBpe : List Str) : TextVocab × TextVocab :=
  let (base, other) := separateVocabs all (fun w => w ∈ nonBpe)
  (Txt.splitBaseVocab base, Txt.escapedOther other)

/-- bpelearner.py 53-57: `prepare_vocabs` when continuing from the vocabulary saved by an earlier run. -/
def prepareResume (saved : TextVocab) (nonBpe : List Str) : TextVocab × TextVocab :=
  separateVocabs saved (fun s => s ∈ nonBpe.map fun w => escape w true)

/-- bpelearner.py 104-108: learning, putting back the other words, appending to the merges already done. -/
def learnRun (base other : TextVocab) (done : MergeList) (nMerges : Nat) : Except PyErr (TextVocab × MergeList) := do
  let (v, ms) ← Txt.doMerges base (nMerges - done.length)
  let v' := other.foldl (fun d e => d.set e.1 e.2) v
  let ms' ← done.add ms
  .ok (v', ms')

end Verif.Txt
