import Verif.Proofs.Saves
import Verif.Props.Made
/-!
# C92: How many subwords the merges save
-/
namespace Verif.Props
open Verif Spec

/-- The length of what is delivered for a word. -/
theorem delivered_length {words : Dict Str Nat} (hw : words.WF) (hp : ∀ e ∈ words, 0 < e.2) {n : Nat} (hn : n ≤ sysMaxsize)
    {ms : List ((Str × Str) × Int)} {v : SplitVocab} (hl : doMerges (trainingVocab words) n = .ok (v, ranked 0 ms)) {w : Str}
    (hs : ' ' ∉ w) {y : List Str} (hy : getBpeSubwords w ⟨[], ranked 0 ms⟩ = .ok y) :
    y.length = (seqAll (ms.map (·.1)) (initialSymbols w)).length := by
  obtain ⟨h, h3, -, hd⟩ := learnt_learns hw hp hl
  have henc := encode_eq_seqAll wordsOf_training hd (Nat.le_trans h3 hn) w hs
  obtain ⟨z, r, h1, h2, h4, h5, -, h7, h8⟩ := getBpeSubwords_miss w ⟨[], ranked 0 ms⟩ hs rfl
  have h1 : encodeWord (escape w true) (ranked 0 ms) = .ok r := h1
  rw [henc] at h1
  obtain rfl := Except.ok.inj h1
  have hz : getBpeSubwords w ⟨[], ranked 0 ms⟩ = .ok z := by
    unfold getBpeSubwords
    rw [h4]
    rfl
  rw [hz] at hy
  obtain rfl := Except.ok.inj hy
  rw [h8]
  obtain ⟨a, b, rfl⟩ : ∃ a b, z = a ++ [b] := ⟨z.dropLast, z.getLast h7, (List.dropLast_concat_getLast h7).symm⟩
  simp

theorem pieces_training (words : Dict Str Nat) : pieces (trainingVocab words) = (words.map fun e => e.2 * (e.1.length + 1)).sum := by
  unfold pieces trainingVocab
  rw [List.map_map]
  congr 1
  apply List.map_congr_left
  intro e _
  simp [initialSymbols]

theorem pieces_delivered {words : Dict Str Nat} (hw : words.WF) (hp : ∀ e ∈ words, 0 < e.2) {n : Nat} (hn : n ≤ sysMaxsize)
    {ms : List ((Str × Str) × Int)} {v : SplitVocab} (hl : doMerges (trainingVocab words) n = .ok (v, ranked 0 ms))
    (hs : ∀ e ∈ words, ' ' ∉ e.1) {split : Str → List Str}
    (hy : ∀ e ∈ words, getBpeSubwords e.1 ⟨[], ranked 0 ms⟩ = .ok (split e.1)) :
    pieces v = (words.map fun e => e.2 * (split e.1).length).sum := by
  obtain ⟨-, -, hv, -⟩ := learnt_learns hw hp hl
  rw [hv]
  unfold pieces
  rw [List.map_map]
  congr 1
  apply List.map_congr_left
  intro e he
  simp only [Function.comp]
  rw [delivered_length hw hp hn hl (hs e he) (hy e he)]

/-- **C92** If no merge joins two equal subwords, the words of the corpus are split into exactly as many subwords fewer than
there are characters and ends of words as the frequencies of the merges add up to. -/
theorem C92_exact_partial (words : Dict Str Nat) (hw : words.WF) (hp : ∀ e ∈ words, 0 < e.2) (hs : ∀ e ∈ words, ' ' ∉ e.1) {n : Nat}
    (hn : n ≤ sysMaxsize) {ms : List ((Str × Str) × Int)} {v : SplitVocab}
    (hl : doMerges (trainingVocab words) n = .ok (v, ranked 0 ms)) (hd : ∀ e ∈ ms, e.1.1 ≠ e.1.2) {split : Str → List Str}
    (hy : ∀ e ∈ words, getBpeSubwords e.1 ⟨[], ranked 0 ms⟩ = .ok (split e.1)) :
    (((words.map fun e => e.2 * (split e.1).length).sum : Nat) : Int) + freqSum ms =
      ((words.map fun e => e.2 * (e.1.length + 1)).sum : Nat) := by
  obtain ⟨h, -⟩ := learnt_learns hw hp hl
  rw [← pieces_delivered hw hp hn hl hs hy, ← pieces_training]
  exact learns_size_eq h hd

/-- **C92** In any case not more subwords are saved than that, and not less than half of it. -/
theorem C92_bounds (words : Dict Str Nat) (hw : words.WF) (hp : ∀ e ∈ words, 0 < e.2) (hs : ∀ e ∈ words, ' ' ∉ e.1) {n : Nat}
    (hn : n ≤ sysMaxsize) {ms : List ((Str × Str) × Int)} {v : SplitVocab}
    (hl : doMerges (trainingVocab words) n = .ok (v, ranked 0 ms)) {split : Str → List Str}
    (hy : ∀ e ∈ words, getBpeSubwords e.1 ⟨[], ranked 0 ms⟩ = .ok (split e.1)) :
    ∃ saved : Nat, (words.map fun e => e.2 * (split e.1).length).sum + saved = (words.map fun e => e.2 * (e.1.length + 1)).sum ∧
      (saved : Int) ≤ freqSum ms ∧ freqSum ms ≤ 2 * saved := by
  obtain ⟨h, -⟩ := learnt_learns hw hp hl
  rw [← pieces_delivered hw hp hn hl hs hy, ← pieces_training]
  have h1 := learns_size_le h
  have h2 := learns_size_twice h
  have h0 := learns_sum_nonneg h
  exact ⟨pieces (trainingVocab words) - pieces v, by omega, by omega, by omega⟩

/-- **C92** Every merge saves something: more merges split the words of the corpus into fewer subwords, as long as there are merges to learn. -/
theorem C92_less (words : Dict Str Nat) (hw : words.WF) (hp : ∀ e ∈ words, 0 < e.2) {n : Nat} {ms : List ((Str × Str) × Int)}
    {v : SplitVocab} (hl : doMerges (trainingVocab words) n = .ok (v, ranked 0 ms)) :
    pieces v + ms.length ≤ pieces (trainingVocab words) := by
  obtain ⟨h, -⟩ := learnt_learns hw hp hl
  exact learns_less h

/-- **C92** There are never more merges than the words have characters, and with as many merges as that every word of the corpus is
delivered in one piece. -/
theorem C92_enough (words : Dict Str Nat) (hw : words.WF) (hp : ∀ e ∈ words, 0 < e.2) (hs : ∀ e ∈ words, ' ' ∉ e.1) {n : Nat}
    (hn : n ≤ sysMaxsize) {ms : List ((Str × Str) × Int)} {v : SplitVocab}
    (hl : doMerges (trainingVocab words) n = .ok (v, ranked 0 ms)) :
    ms.length ≤ (words.map (·.1.length)).sum ∧
      ((words.map (·.1.length)).sum ≤ n → ∀ e ∈ words, getBpeSubwords e.1 ⟨[], ranked 0 ms⟩ = .ok [e.1]) := by
  obtain ⟨ms1, v1, g1, g2, g3, g4, g5, -⟩ := learn_result words hw hp n
  rw [hl] at g1
  obtain ⟨rfl, he⟩ := Prod.mk.inj (Except.ok.inj g1)
  obtain rfl := ranked_inj he
  have hsym := learns_symbols g2
  have hstart : ((trainingVocab words).map (·.1.length)).sum = (words.map (·.1.length)).sum + words.length := by
    clear * -
    unfold trainingVocab
    rw [List.map_map]
    induction words with
    | nil => rfl
    | cons e r ih =>
      simp only [List.map_cons, List.sum_cons, List.length_cons, Function.comp] at ih ⊢
      have : (initialSymbols e.1).length = e.1.length + 1 := by simp [initialSymbols]
      rw [ih, this]
      omega
  have hpos : ∀ e ∈ words, 1 ≤ (seqAll (ms.map (·.1)) (initialSymbols e.1)).length := by
    intro e he
    rw [Nat.one_le_iff_ne_zero, ne_eq, List.length_eq_zero_iff]
    intro h0
    have := seqAll_flatten (ms.map (·.1)) (initialSymbols e.1)
    rw [h0] at this
    simp [initialSymbols] at this
  have hlen : v.length = words.length := by rw [g5]; simp
  have hge : ∀ x ∈ v.map (·.1.length), 1 ≤ x := by
    intro x hx
    rw [g5] at hx
    simp only [List.map_map, List.mem_map, Function.comp] at hx
    obtain ⟨e, he, rfl⟩ := hx
    exact hpos e he
  have hle : v.length ≤ (v.map (·.1.length)).sum := by
    clear * - hge
    induction v with
    | nil => simp
    | cons e r ih =>
      have h1 := hge e.1.length (by simp)
      have := ih (fun x hx => hge x (by rw [List.map_cons]; exact List.mem_cons_of_mem _ hx))
      simp only [List.length_cons, List.map_cons, List.sum_cons]
      omega
  refine ⟨by omega, ?_⟩
  intro hmax e he
  have hone : ∀ e ∈ words, (seqAll (ms.map (·.1)) (initialSymbols e.1)).length = 1 := by
    intro e he
    have hm : (seqAll (ms.map (·.1)) (initialSymbols e.1), e.2) ∈ v := by rw [g5]; exact List.mem_map.2 ⟨e, he, rfl⟩
    rcases Nat.lt_or_ge ms.length n with h | h
    · have := whole_of_no_pair (g4 h) (by
        intro x hx
        rw [g5] at hx
        obtain ⟨y, hy, rfl⟩ := List.mem_map.1 hx
        exact hp y hy) _ hm
      have := hpos e he
      dsimp only at *
      omega
    · exact length_of_sum_le _ hge (by rw [List.length_map]; omega) _ (List.mem_map.2 ⟨_, hm, rfl⟩)
  obtain ⟨y, r, h1, h2, h4, h5, -, h7, h8⟩ := getBpeSubwords_miss e.1 ⟨[], ranked 0 ms⟩ (hs e he) rfl
  have hz : getBpeSubwords e.1 ⟨[], ranked 0 ms⟩ = .ok y := by
    unfold getBpeSubwords
    rw [h4]
    rfl
  have hylen := delivered_length hw hp hn hl (hs e he) hz
  rw [hone e he] at hylen
  obtain ⟨x, rfl⟩ := List.length_eq_one_iff.1 hylen
  rw [hz, show x = e.1 by simpa using h5]

/-! ## Merges of equal subwords -/

set_option synthInstance.maxSize 1000 in
/-- **C92** does not hold exactly for merges of equal subwords: `aaa` has the pair `a`, `a` twice, but it can be joined only once. -/
theorem C92_exact_violated : ∃ (words : Dict Str Nat) (n : Nat) (ms : List ((Str × Str) × Int)) (v : SplitVocab), words.WF ∧
    (∀ e ∈ words, 0 < e.2) ∧ doMerges (trainingVocab words) n = .ok (v, ranked 0 ms) ∧
    (pieces v : Int) + freqSum ms ≠ pieces (trainingVocab words) := by
  refine ⟨[("aaa".toList, 1)], 1, [((['a'], ['a']), 2)], [([['a', 'a'], ['a'], ['@']], 1)], by decide, by decide, ?_, by decide⟩
  decide +kernel

/-! ## Examples -/

set_option synthInstance.maxSize 1000 in
example : doMerges (trainingVocab [("ab".toList, 2), ("abc".toList, 3), ("c".toList, 1)]) 2 =
    .ok ([([['a', 'b'], ['@']], 2), ([['a', 'b'], ['c', '@']], 3), ([['c', '@']], 1)],
      ranked 0 [((['a'], ['b']), 5), ((['c'], ['@']), 4)]) := by decide +kernel
example : pieces (trainingVocab [("ab".toList, 2), ("abc".toList, 3), ("c".toList, 1)]) = 20 ∧
    pieces [([['a', 'b'], ['@']], 2), ([['a', 'b'], ['c', '@']], 3), ([['c', '@']], 1)] = 11 := by decide
example : getBpeSubwords "abc".toList ⟨[], ranked 0 [((['a'], ['b']), 5), ((['c'], ['@']), 4)]⟩ = .ok [['a', 'b'], ['c']] ∧
    getBpeSubwords "ab".toList ⟨[], ranked 0 [((['a'], ['b']), 5), ((['c'], ['@']), 4)]⟩ = .ok [['a', 'b'], []] := by decide +kernel

/-- Non-vacuity: six characters, so six merges are enough; three are learnt. -/
example : [(("a".toList, "b".toList), (5 : Int)), (("c".toList, "@".toList), 4), (("ab".toList, "c@".toList), 3)].length ≤
    (clearWords.map (·.1.length)).sum :=
  (C92_enough clearWords (by decide) (by decide) (by decide) (by decide) clearWords_learnt).1
set_option synthInstance.maxSize 1000 in
example : doMerges (trainingVocab [("ab".toList, 2)]) 2 = .ok ([([['a', 'b', '@']], 2)], ranked 0 [((['a'], ['b']), 2), ((['a', 'b'], ['@']), 2)]) ∧
    getBpeSubwords "ab".toList ⟨[], ranked 0 [((['a'], ['b']), 2), ((['a', 'b'], ['@']), 2)]⟩ = .ok ["ab".toList] := by decide +kernel

/-- Non-vacuity: the merges of `clearWords` are of different subwords and save twelve subwords. -/
example : freqSum [(("a".toList, "b".toList), (5 : Int)), (("c".toList, "@".toList), 4), (("ab".toList, "c@".toList), 3)] = 12 ∧
    pieces (trainingVocab clearWords) = 20 ∧
    pieces [(["ab".toList, "@".toList], 2), (["abc@".toList], 3), (["c@".toList], 1)] = 8 := by decide

end Verif.Props
