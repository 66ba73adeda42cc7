import Verif.Proofs.Scale
import Verif.Props.Occurs
/-!
# C100: Learning depends only on the proportions of the frequencies
-/
namespace Verif.Props.Scale
open Verif Spec

/-- Every frequency times `k`. -/
def more {α : Type} (k : Nat) (v : List (α × Nat)) : List (α × Nat) := v.map fun e => (e.1, k * e.2)

/-- Every frequency of a merge times `k`; the pairs and their ranks stay. -/
def moreMerges (k : Nat) (m : MergeList) : MergeList := m.map fun e => (e.1, (e.2.1.map ((k : Int) * ·), e.2.2))

/-- **C100** If every frequency is multiplied by the same positive number, the learner finds the same merges in the same order with
their frequencies multiplied, and leaves the same words split in the same way; or it fails as it failed before. -/
theorem C100_merges {k : Nat} (hk : 0 < k) (v : SplitVocab) (n : Nat) :
    doMerges (more k v) n = (doMerges v n).map fun r => (more k r.1, moreMerges k r.2) :=
  Verif.Scale.doMerges_times hk v n

/-- **C100** The whole run from the words of a vocabulary, with words that are kept as they are. -/
theorem C100_run {k : Nat} (hk : 0 < k) (all : Dict Str Nat) (kept : List Str) (n : Nat) :
    (let s := prepareScratch (more k all) kept; learnRun s.1 s.2 [] n) =
      (let s := prepareScratch all kept; learnRun s.1 s.2 [] n).map fun r => (more k r.1, moreMerges k r.2) := by
  show learnRun (prepareScratch (Verif.Scale.vals (k * ·) all) kept).1 (prepareScratch (Verif.Scale.vals (k * ·) all) kept).2 [] n = _
  rw [Verif.Scale.prepare_times]
  exact Verif.Scale.learnRun_times hk _ _ [] n

/-- **C100** A run that continues an earlier one. -/
theorem C100_continued {k : Nat} (hk : 0 < k) (saved : SplitVocab) (kept : List Str) (done : MergeList) (n : Nat) :
    (let s := prepareResume (more k saved) kept; learnRun s.1 s.2 (moreMerges k done) n) =
      (let s := prepareResume saved kept; learnRun s.1 s.2 done n).map fun r => (more k r.1, moreMerges k r.2) := by
  show learnRun (prepareResume (Verif.Scale.vals (k * ·) saved) kept).1 (prepareResume (Verif.Scale.vals (k * ·) saved) kept).2 _ n = _
  unfold prepareResume
  rw [Verif.Scale.separate_times]
  exact Verif.Scale.learnRun_times hk _ _ done n

/-- **C100** The merges of both runs split every word alike: `getBpeSubwords` looks at the ranks only. No word needs to occur in the
vocabulary. -/
theorem C100_split (k : Nat) (m : MergeList) (cache : BpeCache) (w : Str) :
    getBpeSubwords w ⟨cache, moreMerges k m⟩ = getBpeSubwords w ⟨cache, m⟩ :=
  C94_word cache w fun p _ => by
    show ((Verif.Scale.timesM k m).get? p).map _ = _
    unfold Verif.Scale.timesM
    rw [show Dict.get? (Verif.Scale.vals _ m) p = _ from Verif.Scale.get?_vals _ m p]
    unfold MergeList.priority?
    cases Dict.get? m p <;> rfl

/-- **C100** What is stored beside the merges: the splits of the words are the same, and the frequencies of the subwords are multiplied. -/
theorem C100_stored (k : Nat) (v : SplitVocab) :
    createBpeCache (more k v) = createBpeCache v ∧ createResultingVocab (more k v) = more k (createResultingVocab v) :=
  ⟨Verif.Scale.cache_times k v, Verif.Scale.resulting_times k v⟩

/-- **C100** Zero is no proportion: with frequencies of zero another pair is merged first. -/
theorem C100_zero_violated : ∃ v : SplitVocab, ∃ n, ((doMerges v n).toOption.map fun r => r.2.map (·.1)) = some [("b".toList, "c".toList)] ∧
    ((doMerges (more 0 v) n).toOption.map fun r => r.2.map (·.1)) = some [("a".toList, "b".toList)] :=
  ⟨[(["a".toList, "b".toList], 2), (["b".toList, "c".toList], 3)], 1, by decide +kernel, by decide +kernel⟩

/-- Two words with the frequencies two and three, then four and six: the same two merges, with twice the frequencies. -/
example : ((doMerges [(["a".toList, "b".toList], 2), (["a".toList, "b".toList, "c".toList], 3)] 2).toOption.map fun r => r.2.map (·.1)) =
    some [("a".toList, "b".toList), ("ab".toList, "c".toList)] := by decide +kernel
example : ((doMerges (more 2 [(["a".toList, "b".toList], 2), (["a".toList, "b".toList, "c".toList], 3)]) 2).toOption.map fun r => r.2.map (·.2.1)) =
    some [some 10, some 6] := by decide +kernel

end Verif.Props.Scale
