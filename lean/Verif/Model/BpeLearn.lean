import Verif.Model.PriorityCounter
import Verif.Model.BpeEncode
/-!
# Model of `codeprep/bpepkg/bpe_learn.py`

The Python code keeps the split words as text with the subwords separated by spaces; the model keeps the list of
subwords (Model/MergeText has the text form, C80 relates the two).  Frequencies are natural numbers.
-/
namespace Verif

/-- Split vocabulary: list of subwords ↦ frequency (`Dict[str, int]` in the code). -/
abbrev SplitVocab := Dict (List Str) Nat

/-- A pair of neighbouring subwords. -/
abbrev Pair := Str × Str

/-- `pairs[p] += x` on a `defaultdict(int)`. -/
def bump (d : Dict Pair Int) (p : Pair) (x : Int) : Dict Pair Int :=
  d.set p ((d.get? p).getD 0 + x)

/-- bpe_learn.py 23-25: inner loop of `get_stats` over the neighbours in one word. -/
def statsWord (freq : Nat) : List Str → Dict Pair Int → Dict Pair Int
  | a :: b :: r, d => statsWord freq (b :: r) (bump d (a, b) freq)
  | _, d => d

/-- bpe_learn.py 20-26 `get_stats` (before building the queue). -/
def statsDict (v : SplitVocab) : Dict Pair Int :=
  v.foldl (fun d e => statsWord e.2 e.1 d) []

/-- bpe_learn.py 20-26 `get_stats`. -/
def getStats (v : SplitVocab) : PriorityCounter Pair := PriorityCounter.init (statsDict v)

/-- The leftmost occurrence of the pair as neighbours: subwords before it and after it.  This is what the regular
expression `(^|[^ ]+ )(x y)( [^ ]+|$)` finds with `search` (bpe_learn.py 44): group 1 is the last subword before the
occurrence (empty if none), group 3 the first subword after it (empty if none). -/
def findPair (p : Pair) : List Str → Option (List Str × List Str)
  | a :: b :: r =>
    if a = p.1 ∧ b = p.2 then some ([], r)
    else (findPair p (b :: r)).map fun (pre, post) => (a :: pre, post)
  | _ => none

/-- bpe_learn.py 51-60: the changes of pair frequencies caused by one replacement. -/
def addedFor (p : Pair) (occ : Nat) (pre post : List Str) : List (Pair × Int) :=
  (match pre.getLast? with
   | none => []
   | some before =>
     ((before, p.1 ++ p.2), (occ : Int)) ::
       (if p ≠ (before, p.1) then [((before, p.1), -(occ : Int))] else [])) ++
  (match post.head? with
   | none => []
   | some after =>
     ((p.1 ++ p.2, after), (occ : Int)) ::
       (if p ≠ (p.2, after) then [((p.2, after), -(occ : Int))] else []))

/-- bpe_learn.py 48-64: the `while match` loop for one word.  Each round shortens the word, so its length is enough
fuel. -/
def mergeWord (p : Pair) (occ : Nat) : Nat → List Str → List (Pair × Int) → List Str × List (Pair × Int)
  | 0, w, acc => (w, acc)
  | fuel + 1, w, acc =>
    match findPair p w with
    | none => (w, acc)
    | some (pre, post) =>
      mergeWord p occ fuel (pre ++ (p.1 ++ p.2) :: post) (acc ++ addedFor p occ pre post)

/-- bpe_learn.py 29-65 `merge_vocab`: loop over the words with `output_vocab` and `added_pairs`. -/
def mergeVocabLoop (p : Pair) : SplitVocab → SplitVocab → List (Pair × Int) → SplitVocab × List (Pair × Int)
  | [], out, acc => (out, acc)
  | (w, occ) :: r, out, acc =>
    let (w', acc') := mergeWord p occ w.length w acc
    mergeVocabLoop p r (out.set w' occ) acc'

/-- bpe_learn.py 29-65 `merge_vocab`. -/
def mergeVocab (p : Pair) (v : SplitVocab) : SplitVocab × List (Pair × Int) := mergeVocabLoop p v [] []

/-- bpe_learn.py 112-113: `for p in added_pairs: pairs.add(*p)`. -/
def addAll (c : PriorityCounter Pair) : List (Pair × Int) → Except PyErr (PriorityCounter Pair)
  | [] => .ok c
  | (p, x) :: r =>
    match c.add p x with
    | none => .error .keyError
    | some c' => addAll c' r

/-- bpe_learn.py 103-114: the loop of `do_merges`, with `i` the loop index and `n` the remaining iterations.
Only the `KeyError` of `pop_pair` ends the loop; the `ValueError` of `MergeList.append` propagates. -/
def doMergesLoop : Nat → Nat → SplitVocab → PriorityCounter Pair → MergeList → Except PyErr (SplitVocab × MergeList)
  | 0, _, v, _, ms => .ok (v, ms)
  | n + 1, i, v, c, ms =>
    match c.popPair with
    | none => .ok (v, ms)
    | some (best, occ, c') => do
      let ms' ← ms.append ⟨best, some occ, some i⟩
      let (v', added) := mergeVocab best v
      let c'' ← addAll c' added
      doMergesLoop n (i + 1) v' c'' ms'

/-- bpe_learn.py 68-115 `do_merges`. -/
def doMerges (v : SplitVocab) (n : Nat) : Except PyErr (SplitVocab × MergeList) :=
  doMergesLoop n 0 v (getStats v) []

/-- bpe_learn.py 120-126 `create_bpe_cache`. -/
def createBpeCache (v : SplitVocab) : BpeCache :=
  v.foldl (fun d e => d.set e.1.flatten e.1) []

/-- `resulting_vocab[s] += f` on a `defaultdict(int)`. -/
def bumpN (d : Dict Str Nat) (s : Str) (f : Nat) : Dict Str Nat :=
  d.set s ((d.get? s).getD 0 + f)

/-- bpe_learn.py 129-134 `create_resulting_vocab`. -/
def createResultingVocab (v : SplitVocab) : Dict Str Nat :=
  v.foldl (fun d e => e.1.foldl (fun d s => bumpN d s e.2) d) []

/-- bpe_learn.py 139-147 `separate_vocabs` (generic in the keys: it is used with words and with split words). -/
def separateVocabs {κ : Type} [DecidableEq κ] (v : Dict κ Nat) (excl : κ → Bool) : Dict κ Nat × Dict κ Nat :=
  v.foldl (fun st e => if ¬ excl e.1 then (st.1.set e.1 e.2, st.2) else (st.1, st.2.set e.1 e.2)) ([], [])

end Verif
