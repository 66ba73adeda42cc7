import Verif.Proofs.Rename
/-!
# C95: All characters are treated alike by byte-pair encoding
-/
namespace Verif.Props
open Verif Spec

/-- **C95** If all characters of the words are renamed, the same merges are learnt in the same order, with the same frequencies, with
renamed characters.  In particular ties are not broken by the alphabet. -/
theorem C95_learn {f : Char → Char} (hf : ∀ a b, f a = f b → a = b) (v : SplitVocab) (n : Nat) :
    doMerges (renamedWords f v) n = (doMerges v n).map fun x => (renamedWords f x.1, renamedMerges f x.2) :=
  Ren.doMerges_renamed hf n v

/-- **C95** Renamed merges split a renamed word where the merges split the word. -/
theorem C95_split {f : Char → Char} (hf : Renaming f) (m : MergeList) (cache : BpeCache) (w : Str) :
    getBpeSubwords (w.map f) ⟨cache.map fun e => (e.1.map f, e.2.map (List.map f)), renamedMerges f m⟩ =
      (getBpeSubwords w ⟨cache, m⟩).map (List.map (List.map f)) :=
  Ren.getBpeSubwords_renamed hf w cache m

/-- The words to learn from, renamed. -/
theorem training_renamed {f : Char → Char} (hf : Renaming f) (words : List (Str × Nat)) :
    trainingVocab (words.map fun e => (e.1.map f, e.2)) = renamedWords f (trainingVocab words) := by
  unfold trainingVocab renamedWords
  rw [List.map_map, List.map_map]
  refine List.map_congr_left fun e _ => ?_
  simp only [Function.comp, Prod.mk.injEq, and_true]
  unfold initialSymbols
  rw [List.map_append, List.map_map, List.map_map]
  congr 1
  · refine List.map_congr_left fun c _ => ?_
    simp only [Function.comp]
    by_cases h : c = '@'
    · subst h
      rw [hf.mark]
      simp [hf.mark]
    · have : f c ≠ '@' := fun x => h (hf.inj _ _ (x.trans hf.mark.symm))
      rw [if_neg this, if_neg h]
      rfl
  · show [['@']] = [[f '@']]
    rw [hf.mark]

/-- **C95** From words with frequencies to the splits of any word: renaming all characters renames the result and changes nothing else. -/
theorem C95_whole {f : Char → Char} (hf : Renaming f) (words : Dict Str Nat) (n : Nat) {v : SplitVocab} {m : MergeList}
    (h : doMerges (trainingVocab words) n = .ok (v, m)) :
    ∃ m', doMerges (trainingVocab (words.map fun e => (e.1.map f, e.2))) n = .ok (renamedWords f v, m') ∧
      (∀ p, m'.priority? (p.1.map f, p.2.map f) = m.priority? p) ∧
      ∀ w, getBpeSubwords (w.map f) ⟨[], m'⟩ = (getBpeSubwords w ⟨[], m⟩).map (List.map (List.map f)) := by
  refine ⟨renamedMerges f m, ?_, fun p => Ren.priority_renamed hf m p, fun w => C95_split hf m [] w⟩
  rw [training_renamed hf, C95_learn hf.inj, h]
  rfl

/-- Exchanging two letters is a renaming. -/
def swapAB (c : Char) : Char := if c = 'a' then 'b' else if c = 'b' then 'a' else c

theorem swapAB_renaming : Renaming swapAB := by
  refine ⟨fun a b h => ?_, by decide, by decide⟩
  unfold swapAB at h
  by_cases a1 : a = 'a' <;> by_cases a2 : a = 'b' <;> by_cases b1 : b = 'a' <;> by_cases b2 : b = 'b' <;>
    (try simp_all) <;> (try exact absurd h.symm ‹_›)

set_option synthInstance.maxSize 1000 in
/-- All pairs of `xa` and `xb` are equally frequent: the first one met is merged, also after the exchange. -/
example : doMerges (trainingVocab [("xa".toList, 1), ("xb".toList, 1)]) 1 =
      .ok ([([['x', 'a'], ['@']], 1), ([['x'], ['b'], ['@']], 1)], [((['x'], ['a']), (some 1, 0))]) ∧
    doMerges (trainingVocab [("xb".toList, 1), ("xa".toList, 1)]) 1 =
      .ok ([([['x', 'b'], ['@']], 1), ([['x'], ['a'], ['@']], 1)], [((['x'], ['b']), (some 1, 0))]) := by decide +kernel

end Verif.Props
