import Verif.Model.Files
import Verif.Model.Tokens
/-!
# Model of `codeprep/util.py` (dictionaries, groups) and of the partial vocabularies of `codeprep/pipeline/vocab.py`
-/
namespace Verif

/-- util.py 12-31 `merge_dicts_`: the first dictionary afterwards, and the new words. -/
def mergeDicts (d1 : Dict Str Nat) : Dict Str Nat → Dict Str Nat × List Str
  | [] => (d1, [])
  | (k, v) :: r =>
    match d1.get? k with
    | none =>
      let res := mergeDicts (d1.set k v) r
      (res.1, k :: res.2)
    | some v1 => mergeDicts (d1.set k (v1 + v)) r

/-- util.py 205-211 `create_chunk_generator`: everything it yields.  The error is raised when the first label is asked
for. -/
def chunkLabels (total nChunks : Nat) : Except PyErr (List Nat) :=
  if nChunks = 0 then .error .zeroDivision
  else .ok ((List.replicate (total / nChunks) (List.range nChunks)).flatten ++ List.range (total % nChunks))

/-- util.py 233-234: the loop of `groupify` that puts elements into the groups. -/
def fillGroups {α : Type} (groups : List (List α)) : List (α × Nat) → Except PyErr (List (List α))
  | [] => .ok groups
  | (e, label) :: r =>
    match groups[label]? with
    | none => .error .indexError
    | some g => fillGroups (groups.set label (g ++ [e])) r

/-- util.py 214-235 `groupify`.  `zip` asks the list first, so for an empty list the generator is never started. -/
def groupify {α : Type} (all : List α) (nChunks : Nat) : Except PyErr (List (List α)) :=
  let groups := List.replicate (if all.length ≥ nChunks then nChunks else all.length) []
  match all with
  | [] => .ok groups
  | _ :: _ => do
    let labels ← chunkLabels all.length nChunks
    fillGroups groups (all.zip labels)

/-- vocab.py 44-57 `PartialVocab`: `merged_word_counts`, `stats`, `n_files`, `chunk`, `id`. -/
structure PVocab where
  counts : Dict Str Nat
  stats : List (Nat × Nat × Nat)
  nFiles : Nat
  chunk : Nat
  id : Str
deriving DecidableEq, Repr

namespace PVocab

/-- `self.merged_word_counts[placeholders['non_eng']]` of a `Counter`: 0 if missing. -/
def nonEngCount (d : Dict Str Nat) : Nat := (d.get? Ph.nonEng).getD 0

/-- vocab.py 47-57 `PartialVocab.__init__`; the generated id is a parameter. -/
def init (counts : Dict Str Nat) (chunk : Nat) (id : Str) : PVocab :=
  ⟨counts, [(1, counts.length, nonEngCount counts)], 1, chunk, id⟩

/-- vocab.py 68-77 `add_vocab`: the first vocabulary afterwards, and the new words. -/
def addVocab (a b : PVocab) : PVocab × List Str :=
  let m := mergeDicts a.counts b.counts
  let n := a.nFiles + b.nFiles
  ({ a with counts := m.1, nFiles := n, stats := a.stats ++ (b.stats ++ [(n, m.1.length, nonEngCount m.1)]) }, m.2)

/-- vocab.py 62-63 `renew_id`; the generated id is a parameter. -/
def renewId (a : PVocab) (id : Str) : PVocab := { a with id := id }

/-- vocab.py 93-94: the loop that looks for the last word that is more frequent than the first excluded one.  The argument
is `adjusted_threshold + 1`. -/
def adjustThreshold (l : List (Str × Nat)) (freq : Nat) : Nat → Except PyErr Nat
  | 0 => .ok 0
  | k + 1 =>
    match l[k]? with
    | none => .error .indexError
    | some e => if e.2 = freq then adjustThreshold l freq k else .ok (k + 1)

/-- vocab.py 87-95 `limit_max_vocab` for thresholds that are not negative: the word counts afterwards. -/
def limitMaxVocab (counts : Dict Str Nat) (threshold : Nat) : Except PyErr (Dict Str Nat) :=
  let sorted := sortDesc counts
  if threshold > sorted.length then .ok counts
  else
    match sorted[threshold]? with
    | none => .error .indexError
    | some e => do
      let k ← adjustThreshold sorted e.2 threshold
      .ok (sorted.take k)

/-- vocab.py 101-106 `__generate_stats`: `(n, values)` for every number of files `n` in the statistics, in increasing order.
The code divides `n` by the total number of files and sorts by the quotient; the model keeps `n`. -/
def groupStats (stats : List (Nat × Nat × Nat)) : List (Nat × List (Nat × Nat)) :=
  let ks := (List.range ((stats.map (·.1)).foldl max 0 + 1)).filter fun k => k ∈ stats.map (·.1)
  ks.map fun k => (k, (stats.filter fun e => e.1 = k).map (·.2))

/-- The mean of some numbers, rounded down (`int(sum(elm) / len(elm))`; the code computes with floats). -/
def meanOf (l : List Nat) : Nat := l.sum / l.length

/-- vocab.py 79-85 `write_stats`: the first line (the vocabulary size) and for every other line the two numbers after the
percentage.  `int(stats[-1][1][0])` raises an `IndexError` if there are no statistics. -/
def writeStats (v : PVocab) : Except PyErr (Nat × List (Nat × Nat × Nat)) :=
  let st := (groupStats v.stats).map fun e => (e.1, meanOf (e.2.map (·.1)), meanOf (e.2.map (·.2)))
  match st.getLast? with
  | none => .error .indexError
  | some l => .ok (l.2.1, st)

end PVocab

/-- vocab.py 277-282 `mapify_tasks`: the vocabularies of every chunk, in the order in which chunks first appear. -/
def mapifyTasks (tasks : List PVocab) : Dict Nat (List PVocab) :=
  tasks.foldl (fun d t => d.set t.chunk ((d.get? t.chunk).getD [] ++ [t])) []

/-- vocab.py 272-274 `create_chunk_queue`: one entry per merge and then one `-1` (here `none`) per merger process. -/
def createChunkQueue (sizes : Dict Nat Nat) (numMergers : Nat) : List (Option Nat) × Nat :=
  let l := (sizes.map fun e => List.replicate (e.2 - 1) e.1).flatten
  (l.map some ++ List.replicate numMergers none, l.length)

/-- vocab.py 258-264: what the files are divided into: groups of files with their chunks. -/
def fileGroups {α : Type} (files : List α) (maxVocabs nChunks : Nat) : Except PyErr (List (List α × Nat)) := do
  let groups ← groupify files maxVocabs
  match groups with
  | [] => .ok []
  | _ :: _ =>
    let labels ← chunkLabels groups.length nChunks
    .ok (groups.zip labels)

/-- vocab.py 41 `MAX_INIT_PARTIAL_VOCABS`. -/
def maxInitPartialVocabs : Nat := 256 * 20

/-- vocab.py 38 `N_CHUNKS`. -/
def nChunks : Nat := 20

/-- vocab.py 212-217, 258-268: the word counts of the groups of files and their chunks, before they are written.  `texts` are
the contents of the files. -/
def partialCounts (texts : List Str) : Except PyErr (List (Dict Str Nat × Nat)) := do
  let groups ← fileGroups texts maxInitPartialVocabs nChunks
  .ok (groups.map fun g => (getVocab g.1, g.2))

end Verif
