import Verif.Props.Order
import Verif.Props.Files
import Verif.Proofs.LearnDisk
/-!
# C103: Removing lines from a file of merges
-/
namespace Verif.Props.Order
open Verif Spec

/-- A line of a file of merges. -/
def lineOf (e : (Str × Str) × Int) : Str := toLiteral (e.1.1 ++ ' ' :: e.1.2) ++ ' ' :: intStr e.2 ++ ['\n']

theorem fileOf_ranked (ms : List ((Str × Str) × Int)) : ∀ i, dumpMerges (ranked i ms) = (ms.map lineOf).flatten := by
  induction ms with
  | nil => intro i; rfl
  | cons e ms ih =>
    intro i
    obtain ⟨p, f⟩ := e
    show mergeLine ⟨p, some f, some i⟩ ++ dumpMerges (ranked (i + 1) ms) = _
    rw [ih, List.map_cons, List.flatten_cons]
    simp [mergeLine, lineOf, pyJoin, optIntStr]

theorem read_lines {ms : List ((Str × Str) × Int)} (hd : (ms.map (·.1)).Nodup) (hsp : ∀ e ∈ ms, ' ' ∉ e.1.1 ∧ ' ' ∉ e.1.2) :
    readMerges (ms.map lineOf).flatten none = .ok (ranked 0 ms) := by
  have hmem : ∀ (ms : List ((Str × Str) × Int)) (i : Nat), ∀ e ∈ ranked i ms, (∃ f, (e.1, f) ∈ ms) ∧ e.2.1 ≠ none := by
    intro ms
    induction ms with
    | nil => intro i e he; cases he
    | cons a ms ih =>
      intro i e he
      obtain ⟨p, f⟩ := a
      rcases List.mem_cons.mp he with rfl | he
      · exact ⟨⟨f, by simp⟩, by simp⟩
      · obtain ⟨⟨f', h1⟩, h2⟩ := ih _ e he
        exact ⟨⟨f', List.mem_cons_of_mem _ h1⟩, h2⟩
  rw [← fileOf_ranked ms 0]
  refine C11_merges_roundtrip _ ?_ ?_ (fun e he => (hmem ms 0 e he).2) fun e he => ?_
  · show (Dict.keys (ranked 0 ms)).Nodup
    rw [ranked_keys]; exact hd
  · rw [ranked_ranks, ranked_length, List.range_eq_range']
  · obtain ⟨f, hf⟩ := (hmem ms 0 e he).1
    exact hsp _ hf

/-- **C103** If lines with merges that do not occur in a word are removed from a file of merges, the merges read from it split the word
as before. -/
theorem C103_file {ms : List ((Str × Str) × Int)} (hd : (ms.map (·.1)).Nodup) (hsp : ∀ e ∈ ms, ' ' ∉ e.1.1 ∧ ' ' ∉ e.1.2)
    (hl : ms.length ≤ sysMaxsize) (keep : Str × Str → Bool) :
    ∃ m m', readMerges (ms.map lineOf).flatten none = .ok m ∧
      readMerges ((ms.filter fun e => keep e.1).map lineOf).flatten none = .ok m' ∧
      ∀ (cache : BpeCache) (w : Str), ' ' ∉ w → (∀ e ∈ ms, OccursIn e.1 w → keep e.1 = true) →
        getBpeSubwords w ⟨cache, m'⟩ = getBpeSubwords w ⟨cache, m⟩ := by
  refine ⟨_, _, read_lines hd hsp, read_lines (List.Nodup.sublist (List.Sublist.map _ List.filter_sublist) hd)
    (fun e he => hsp e (List.mem_of_mem_filter he)), fun cache w hs h => C103_removed hl cache hs keep h⟩

/-- The file of two merges. -/
example : ([(("x".toList, "y".toList), 3), (("a".toList, "b".toList), 2)].map lineOf).flatten = "x y 3\na b 2\n".toList ∧
    ([(("x".toList, "y".toList), (3 : Int)), (("a".toList, "b".toList), 2)].map (·.1)).Nodup := by decide +kernel

/-- The rank of a pair depends on the pairs only. -/
theorem priority_pairs (ms : List ((Str × Str) × Int)) : ∀ (ms' : List ((Str × Str) × Int)) (i : Nat) (p : Str × Str),
    ms.map (·.1) = ms'.map (·.1) → MergeList.priority? (ranked i ms) p = MergeList.priority? (ranked i ms') p := by
  induction ms with
  | nil =>
    intro ms' i p h
    cases ms' with
    | nil => rfl
    | cons a l => simp at h
  | cons e ms ih =>
    intro ms' i p h
    cases ms' with
    | nil => simp at h
    | cons a l =>
      rw [List.map_cons, List.map_cons, List.cons.injEq] at h
      rw [priority_ranked_cons, priority_ranked_cons, h.1, ih l (i + 1) p h.2]

/-- **C103** The frequencies in a file of merges do not influence how words are split: two files with the same pairs line by line split
every word alike. -/
theorem C103_frequencies {ms ms' : List ((Str × Str) × Int)} (he : ms.map (·.1) = ms'.map (·.1)) (hd : (ms.map (·.1)).Nodup)
    (hsp : ∀ e ∈ ms, ' ' ∉ e.1.1 ∧ ' ' ∉ e.1.2) (hl : ms.length ≤ sysMaxsize) :
    ∃ m m', readMerges (ms.map lineOf).flatten none = .ok m ∧ readMerges (ms'.map lineOf).flatten none = .ok m' ∧
      ∀ (cache : BpeCache) (w : Str), ' ' ∉ w → getBpeSubwords w ⟨cache, m'⟩ = getBpeSubwords w ⟨cache, m⟩ := by
  have hn : ms.length = ms'.length := by
    have := congrArg List.length he
    rwa [List.length_map, List.length_map] at this
  have hsp' : ∀ e ∈ ms', ' ' ∉ e.1.1 ∧ ' ' ∉ e.1.2 := by
    intro e h
    have : e.1 ∈ ms.map (·.1) := he ▸ List.mem_map_of_mem h
    obtain ⟨a, ha, h1⟩ := List.mem_map.mp this
    exact h1 ▸ hsp a ha
  refine ⟨_, _, read_lines hd hsp, read_lines (he ▸ hd) hsp', fun cache w hs => ?_⟩
  refine (C103_word (ranked_ok hl) (ranked_ok (hn ▸ hl)) cache hs ⟨fun p _ => ?_, fun p q k l k' l' _ _ h1 h2 h3 h4 => ?_⟩).symm
  · rw [priority_pairs ms ms' 0 p he]
  · rw [priority_pairs ms ms' 0 _ he] at h1 h2
    rw [h1] at h3; rw [h2] at h4
    cases h3; cases h4; exact Iff.rfl

/-- Two files with the same pairs and other frequencies. -/
example : ([(("x".toList, "y".toList), (3 : Int)), (("a".toList, "b".toList), 2)].map (·.1)) =
    ([(("x".toList, "y".toList), (1 : Int)), (("a".toList, "b".toList), 9)].map (·.1)) ∧
    ([(("x".toList, "y".toList), (1 : Int)), (("a".toList, "b".toList), 9)].map lineOf).flatten = "x y 1\na b 9\n".toList := by
  decide +kernel

end Verif.Props.Order
