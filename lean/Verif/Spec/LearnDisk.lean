import Verif.Model.LearnDisk
import Verif.Spec.BpeLearn
/-!
# What the directories of learnt merges hold (C59)
-/
namespace Verif.Spec
open Verif

/-- The words of a dataset: those to learn from, with their frequencies, and those kept whole. -/
structure Words where
  learnt : List (Str × Nat)
  kept : List (Str × Nat)

/-- All words with their splits, if those to learn from are split as in `v`. -/
def Words.splits (ws : Words) (v : List (List Str × Nat)) : List (List Str × Nat) :=
  v ++ ws.kept.map fun e => ([escape e.1 true], e.2)

/-- Number of occurrences of a subword in split words. -/
def occurrences (v : List (List Str × Nat)) (s : Str) : Nat := (v.map fun e => e.2 * e.1.count s).sum

/-- The directory holds the result of learning the merges `ms` from the words of the dataset: it is named after the number of
merges, the merge file lists them with their frequencies, and the other files hold the splits of all words, the same as a cache
(from the word as it is looked up to its split), and the subwords with their numbers of occurrences, most frequent first. -/
structure Holds (ws : Words) (m : MergesDir) (ms : List ((Str × Str) × Int)) (v : List (List Str × Nat)) : Prop where
  name : m.name = natStr ms.length
  learnt : Learns (trainingVocab ws.learnt) ms v
  merges : ∃ t, m.merges = some t ∧ readMerges t none = .ok (ranked 0 ms) ∧
    ∀ n, 1 ≤ n → readMerges t (some n) = .ok (ranked 0 (ms.take n))
  splits : ∃ t, m.splits = some t ∧ loadVocabDict t =
    .ok ((ws.splits v).map fun e => (pyJoin [' '] e.1, (e.2 : Int)))
  cache : ∃ t, m.cache = some t ∧ readBpeCache t = .ok ((ws.splits v).map fun e => (e.1.flatten, e.1))
  vocab : ∃ t l, m.vocab = some t ∧ loadVocabDict t = .ok l ∧ (l.map (·.1)).Nodup ∧
    l.Pairwise (fun a b => b.2 ≤ a.2) ∧
    ∀ s x, (s, x) ∈ l ↔ x = (occurrences (ws.splits v) s : Int) ∧ 0 < occurrences (ws.splits v) s

/-- A dataset that is ready for learning, before anything has been learnt: `all` are its words with frequencies, `nonBpe` those
that are not to be split.  Words hold no spaces. -/
structure Ready (all : List (Str × Nat)) (nonBpe : List Str) (d : LearnDisk) : Prop where
  dirs : d.dirs = []
  vocab : ∃ t, d.baseVocab = some t ∧ loadVocabDict t = .ok (all.map fun e => (e.1, (e.2 : Int)))
  nonbpe : ∃ t, d.nonbpe = some t ∧ loadVocabSet t = .ok nonBpe
  distinct : (all.map (·.1)).Nodup
  positive : ∀ e ∈ all, 0 < e.2
  words : ∀ e ∈ all, ' ' ∉ e.1 ∧ e.1 ≠ []
  kept : ∀ w ∈ nonBpe, ' ' ∉ w

/-- The words to learn from and the words kept whole. -/
def datasetWords (all : List (Str × Nat)) (nonBpe : List Str) : Words :=
  ⟨all.filter fun e => e.1 ∉ nonBpe, all.filter fun e => e.1 ∈ nonBpe⟩

/-- The settings with which merges can be learnt. -/
def Supported (b : BpeConfig) : Prop := b.unicode ≠ "bytes".toList ∧ b.wordEnd = false ∧ b.case ≠ "prefix".toList

/-- The directories that are not to be trusted after a run: those before it, and its result if the run continued one of them. -/
def taint (ks : List Str) (d : LearnDisk) (n : Int) (r : Option MergesDir) : List Str :=
  match dirWithMost d.dirs n, r with
  | some name, some m => if name ∈ ks then m.name :: ks else ks
  | _, _ => ks

/-- What may happen to the directories of one dataset: runs with any number of merges, runs that are killed while they save their
result, directories of another kind, listings in another order.  The list of names: directories left by killed runs, and those that
continue one of them. -/
inductive History (b : BpeConfig) (d0 : LearnDisk) : List Str → LearnDisk → Prop
  | start : History b d0 [] d0
  | run {ks d n r} : History b d0 ks d → learnOnDisk b d n = .ok r → History b d0 (taint ks d n r) (d.save r)
  | kill {ks d n m} (i : Nat) (j : Option Nat) : History b d0 ks d → learnOnDisk b d n = .ok (some m) →
      History b d0 (m.name :: ks) (d.save (some (m.cut i j)))
  | other {ks d} (m : MergesDir) : History b d0 ks d → (∀ k, pyInt m.name ≠ .ok k) → m.name ∉ d.dirs.map (·.name) →
      History b d0 ks (d.save (some m))
  | reorder {ks d} (l : List MergesDir) : History b d0 ks d → l.Perm d.dirs → History b d0 ks { d with dirs := l }

/-- Runs one after the other, none of which fails. -/
inductive Runs (b : BpeConfig) : LearnDisk → List Int → LearnDisk → Prop
  | nil (d) : Runs b d [] d
  | cons {d n r ns d'} : learnOnDisk b d n = .ok r → Runs b (d.save r) ns d' → Runs b d (n :: ns) d'

end Verif.Spec
