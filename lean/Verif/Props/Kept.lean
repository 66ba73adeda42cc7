import Verif.Props.BpeResume
/-!
# C101: Words that are kept whole do not influence what is learnt
-/
namespace Verif.Props.Kept
open Verif Spec

/-- The merges of a run from scratch, or the error. -/
def learntFrom (all : Dict Str Nat) (kept : List Str) (n : Nat) : Except PyErr MergeList :=
  (learnRun (prepareScratch all kept).1 (prepareScratch all kept).2 [] n).map (·.2)

theorem learnRun_merges (base other other' : SplitVocab) (done : MergeList) (n : Nat) :
    (learnRun base other done n).map (·.2) = (learnRun base other' done n).map (·.2) := by
  unfold learnRun
  cases doMerges base (n - done.length) with
  | error e => rfl
  | ok r =>
    obtain ⟨v, ms⟩ := r
    simp only [bind, Except.bind]
    cases done.add ms with
    | error e => rfl
    | ok ms' => rfl

theorem filter_WF {d : Dict Str Nat} (h : d.WF) (q : Str × Nat → Bool) : Dict.WF (d.filter q) :=
  List.Nodup.sublist (List.Sublist.map _ List.filter_sublist) h

/-- **C101** The merges are those that are learnt from the other words alone. -/
theorem C101_alone (all : Dict Str Nat) (hw : (all.map (·.1)).Nodup) (kept : List Str) (n : Nat) :
    learntFrom all kept n = learntFrom (all.filter fun e => e.1 ∉ kept) [] n := by
  unfold learntFrom prepareScratch
  rw [C09_separate_vocabs all hw, C09_separate_vocabs (all.filter fun e => e.1 ∉ kept) (filter_WF hw _)]
  have e : (all.filter fun e => !decide (e.1 ∈ kept)) =
      (all.filter fun e => decide (e.1 ∉ kept)).filter (fun e => !decide (e.1 ∈ ([] : List Str))) := by
    simp
  simp only
  rw [← e]
  exact learnRun_merges _ _ _ _ _

/-- **C101** So two vocabularies with the same other words, in the same order and with the same frequencies, lead to the same merges,
whatever words are kept and however frequent they are. -/
theorem C101_kept_irrelevant {all all' : Dict Str Nat} (hw : (all.map (·.1)).Nodup) (hw' : (all'.map (·.1)).Nodup) {kept kept' : List Str}
    (h : (all.filter fun e => e.1 ∉ kept) = all'.filter fun e => e.1 ∉ kept') (n : Nat) : learntFrom all kept n = learntFrom all' kept' n := by
  rw [C101_alone all hw, C101_alone all' hw', h]

/-- **C101** Words to keep that are not in the vocabulary, their order and repetitions do not matter. -/
theorem C101_same_words (all : Dict Str Nat) (hw : (all.map (·.1)).Nodup) {kept kept' : List Str}
    (h : ∀ e ∈ all, e.1 ∈ kept ↔ e.1 ∈ kept') (n : Nat) : learntFrom all kept n = learntFrom all kept' n := by
  refine C101_kept_irrelevant hw hw (List.filter_congr fun e he => ?_) n
  simp only [h e he]

/-- **C101** A run that continues an earlier one: the merges that are added are learnt from the other words alone. -/
theorem C101_continued (saved : SplitVocab) (hw : (saved.map (·.1)).Nodup) (kept : List Str) (done : MergeList) (n : Nat) :
    (learnRun (prepareResume saved kept).1 (prepareResume saved kept).2 done n).map (·.2) =
      (doMerges (saved.filter fun e => e.1 ∉ kept.map fun w => [escape w true]) (n - done.length)).bind fun r => done.add r.2 := by
  unfold prepareResume
  rw [C09_separate_vocabs saved hw]
  have e : (saved.filter fun e => !decide (e.1 ∈ kept.map fun w => [escape w true])) =
      saved.filter fun e => decide (e.1 ∉ kept.map fun w => [escape w true]) :=
    List.filter_congr fun _ _ => decide_not.symm
  simp only
  rw [e]
  unfold learnRun
  cases doMerges (saved.filter fun e => decide (e.1 ∉ kept.map fun w => [escape w true])) (n - done.length) with
  | error e => rfl
  | ok r =>
    obtain ⟨v, ms⟩ := r
    simp only [bind, Except.bind]
    cases done.add ms with
    | error e => rfl
    | ok ms' => rfl

/-- A frequent word that is kept does not change the first merge; if it is not kept, it does. -/
example : (learntFrom [("if".toList, 9), ("ab".toList, 2)] ["if".toList] 1).map (fun m => m.map (·.1)) = .ok [("a".toList, "b".toList)] ∧
    (learntFrom [("ab".toList, 2)] [] 1).map (fun m => m.map (·.1)) = .ok [("a".toList, "b".toList)] ∧
    (learntFrom [("if".toList, 9), ("ab".toList, 2)] [] 1).map (fun m => m.map (·.1)) = .ok [("i".toList, "f".toList)] := by decide +kernel

example : ([("if".toList, 9), ("ab".toList, 2)].map (·.1)).Nodup ∧
    ([("if".toList, 9), ("ab".toList, 2)].filter fun e => e.1 ∉ ["if".toList]) = [("ab".toList, 2)] := by decide

end Verif.Props.Kept
