import Verif.Proofs.Made
import Verif.Props.BpeLearn
import Verif.Props.Ties
/-!
# C89: Every learnt merge makes a new subword
-/
namespace Verif.Props
open Verif Spec

theorem learnt_learns {words : Dict Str Nat} (hw : words.WF) (hp : ∀ e ∈ words, 0 < e.2) {n : Nat} {ms : List ((Str × Str) × Int)}
    {v : SplitVocab} (hl : doMerges (trainingVocab words) n = .ok (v, ranked 0 ms)) :
    Learns (trainingVocab words) ms v ∧ ms.length ≤ n ∧ v = words.map (fun e => (seqAll (ms.map (·.1)) (initialSymbols e.1), e.2)) ∧
      Derivable (wordsOf (trainingVocab words)) (ms.map (·.1)) := by
  obtain ⟨ms1, v1, h1, h2, h3, -, h5, h6⟩ := learn_result words hw hp n
  rw [hl] at h1
  obtain ⟨rfl, he⟩ := Prod.mk.inj (Except.ok.inj h1)
  obtain rfl := ranked_inj he
  exact ⟨h2, h3, h5, h6⟩

/-- **C89** The subwords that the merges make are all different, and none of them is a character or the end of a word. -/
theorem C89_new (words : Dict Str Nat) (hw : words.WF) (hp : ∀ e ∈ words, 0 < e.2) {n : Nat} {ms : List ((Str × Str) × Int)}
    {v : SplitVocab} (hl : doMerges (trainingVocab words) n = .ok (v, ranked 0 ms)) :
    (ms.map made).Nodup ∧ ∀ e ∈ ms, ∀ w, made e ∉ initialSymbols w := by
  obtain ⟨h, -, -, -⟩ := learnt_learns hw hp hl
  have hc := (good_training hw hp).coh
  exact ⟨learns_made_nodup h initSeg hc, fun e he w hm => learns_not_made h initSeg hc (made e) ((coh_unitsOf w).symbol hm) e he rfl⟩

/-- **C89** The two parts of a merge are symbols of the words or were made by merges before it. -/
theorem C89_parts (words : Dict Str Nat) (hw : words.WF) (hp : ∀ e ∈ words, 0 < e.2) {n : Nat} {pre post : List ((Str × Str) × Int)}
    {e : (Str × Str) × Int} {v : SplitVocab} (hl : doMerges (trainingVocab words) n = .ok (v, ranked 0 (pre ++ e :: post))) :
    (e.1.1 ∈ startSymbols words ∨ e.1.1 ∈ pre.map made) ∧ (e.1.2 ∈ startSymbols words ∨ e.1.2 ∈ pre.map made) := by
  obtain ⟨h, -, -, -⟩ := learnt_learns hw hp hl
  have one : ∀ x, x = e.1.1 ∨ x = e.1.2 → x ∈ startSymbols words ∨ x ∈ pre.map made := by
    intro x hx
    rcases learns_parts h pre e post rfl x hx with ⟨s, hs, hxs⟩ | ⟨q, hq, hxq⟩
    · obtain ⟨e0, he0, rfl⟩ := List.mem_map.1 hs
      exact .inl (List.mem_flatMap.2 ⟨e0, he0, hxs⟩)
    · exact .inr (List.mem_map.2 ⟨q, hq, hxq.symm⟩)
  exact ⟨one _ (.inl rfl), one _ (.inr rfl)⟩

/-- **C89** The words end up split into subwords that merges make and symbols that they consisted of; so there are at most as many
different subwords as symbols and merges together. -/
theorem C89_size (words : Dict Str Nat) (hw : words.WF) (hp : ∀ e ∈ words, 0 < e.2) {n : Nat} {ms : List ((Str × Str) × Int)}
    {v : SplitVocab} (hl : doMerges (trainingVocab words) n = .ok (v, ranked 0 ms)) {symbols : List Str}
    (hs : ∀ x ∈ startSymbols words, x ∈ symbols) :
    (∀ x ∈ (createResultingVocab v).keys, x ∈ startSymbols words ∨ x ∈ ms.map made) ∧
      (createResultingVocab v).length ≤ symbols.length + ms.length := by
  obtain ⟨-, -, h, -⟩ := learnt_learns hw hp hl
  have hk : ∀ x ∈ (createResultingVocab v).keys, x ∈ startSymbols words ∨ x ∈ ms.map made := by
    intro x hx
    obtain ⟨e, he, hxe⟩ := (C09_subword_vocab v x).2.1.1 (by
      obtain ⟨y, hy, hyx⟩ := List.mem_map.1 hx
      have := Dict.mem_get? (C09_subword_vocab v x).2.2 (k := y.1) (v := y.2) hy
      rw [hyx] at this
      simp [Dict.has, this])
    rw [h] at he
    obtain ⟨e0, he0, rfl⟩ := List.mem_map.1 he
    rcases mem_seqAll_made _ _ hxe with h | ⟨p, hp, h⟩
    · exact .inl (List.mem_flatMap.2 ⟨e0, he0, h⟩)
    · obtain ⟨q, hq, rfl⟩ := List.mem_map.1 hp
      exact .inr (List.mem_map.2 ⟨q, hq, h.symm⟩)
  refine ⟨hk, ?_⟩
  have hl : (createResultingVocab v).keys.length ≤ (symbols ++ ms.map made).length := by
    refine List.Nodup.length_le_of_subset (C09_subword_vocab v []).2.2 fun x hx => List.mem_append.2 ?_
    exact (hk x hx).imp_left (hs x)
  simpa [Dict.keys] using hl

/-- **C89** A subword is at most as frequent in the resulting vocabulary as the recorded frequency of the merge that made it. -/
theorem C89_frequency (words : Dict Str Nat) (hw : words.WF) (hp : ∀ e ∈ words, 0 < e.2) {n : Nat} {ms : List ((Str × Str) × Int)}
    {v : SplitVocab} (hl : doMerges (trainingVocab words) n = .ok (v, ranked 0 ms)) :
    ∀ e ∈ ms, ∀ k, (createResultingVocab v).get? (made e) = some k → (k : Int) ≤ e.2 := by
  intro e he k hk
  obtain ⟨h, -, -, -⟩ := learnt_learns hw hp hl
  have h1 := learns_made_count h initSeg (good_training hw hp).coh e he
  have h2 := (C09_subword_vocab v (made e)).1
  rw [hk] at h2
  have h3 : k = subwordCount v (made e) := h2
  omega

/-- **C89** A word is delivered in one piece if and only if one of the merges makes it, with the end of the word. -/
theorem C89_whole (words : Dict Str Nat) (hw : words.WF) (hp : ∀ e ∈ words, 0 < e.2) {n : Nat} (hn : n ≤ sysMaxsize)
    {ms : List ((Str × Str) × Int)} {v : SplitVocab} (hl : doMerges (trainingVocab words) n = .ok (v, ranked 0 ms)) (w : Str) (h0 : w ≠ [])
    (hs : ' ' ∉ w) : getBpeSubwords w ⟨[], ranked 0 ms⟩ = .ok [w] ↔ ∃ e ∈ ms, made e = (initialSymbols w).flatten := by
  obtain ⟨h, h3, -, hd⟩ := learnt_learns hw hp hl
  have henc := encode_eq_seqAll wordsOf_training hd (Nat.le_trans h3 hn) w hs
  obtain ⟨y, r, h1, h2, h4, h5, -, h7, h8⟩ := getBpeSubwords_miss w ⟨[], ranked 0 ms⟩ hs rfl
  have h1 : encodeWord (escape w true) (ranked 0 ms) = .ok r := h1
  rw [henc] at h1
  obtain rfl := Except.ok.inj h1
  have hlen : (seqAll (ms.map (·.1)) (initialSymbols w)).length = y.length := by
    rw [h8]
    obtain ⟨a, b, rfl⟩ : ∃ a b, y = a ++ [b] := ⟨y.dropLast, y.getLast h7, (List.dropLast_concat_getLast h7).symm⟩
    simp
  have hy : getBpeSubwords w ⟨[], ranked 0 ms⟩ = .ok y := by
    unfold getBpeSubwords
    rw [h4]
    rfl
  have hsym : initSeg (initialSymbols w).flatten = initialSymbols w := (coh_unitsOf w).span [] _ [] (by simp; rfl)
  rw [hy]
  constructor
  · intro e
    obtain rfl := Except.ok.inj e
    obtain ⟨x, hx⟩ := List.length_eq_one_iff.1 hlen
    have hxf : x = (initialSymbols w).flatten := by
      have := congrArg List.flatten hx
      rw [seqAll_flatten] at this
      simpa using this.symm
    rcases mem_seqAll_made _ _ (show x ∈ seqAll (ms.map (·.1)) (initialSymbols w) by rw [hx]; exact List.mem_cons_self) with hm | ⟨p, hpm, hm⟩
    · have := (coh_unitsOf w).symbol (x := x) hm
      rw [hxf, hsym] at this
      have := congrArg List.length this
      cases w with
      | nil => exact absurd rfl h0
      | cons c t => simp [initialSymbols] at this
    · obtain ⟨q, hq, rfl⟩ := List.mem_map.1 hpm
      exact ⟨q, hq, hm.symm.trans hxf⟩
  · rintro ⟨e, he, hm⟩
    have := learns_made_seg h initSeg (good_training hw hp).coh e he
    rw [hm, hsym] at this
    rw [this] at hlen
    obtain ⟨x, rfl⟩ := List.length_eq_one_iff.1 hlen.symm
    rw [show x = w by simpa using h5]

/-! ## Examples -/

/-- Non-vacuity: three merges make three subwords. -/
example : ([(("a".toList, "b".toList), (5 : Int)), (("c".toList, "@".toList), 4), (("ab".toList, "c@".toList), 3)].map made).Nodup :=
  (C89_new clearWords (by decide) (by decide) clearWords_learnt).1

/-- Non-vacuity: `abc` is delivered in one piece, and `bc` is not. -/
example : getBpeSubwords "abc".toList ⟨[], ranked 0 [(("a".toList, "b".toList), 5), (("c".toList, "@".toList), 4),
    (("ab".toList, "c@".toList), 3)]⟩ = .ok ["abc".toList] ∧
    getBpeSubwords "bc".toList ⟨[], ranked 0 [(("a".toList, "b".toList), 5), (("c".toList, "@".toList), 4),
    (("ab".toList, "c@".toList), 3)]⟩ ≠ .ok ["bc".toList] :=
  ⟨(C89_whole clearWords (by decide) (by decide) (by decide) clearWords_learnt "abc".toList (by decide) (by decide)).2
    ⟨_, .tail _ (.tail _ (.head _)), by decide⟩,
   fun h => absurd ((C89_whole clearWords (by decide) (by decide) (by decide) clearWords_learnt "bc".toList (by decide) (by decide)).1 h)
    (by decide)⟩

/-- Non-vacuity: seven subwords are possible (`a`, `b`, `c`, the end and three merges); `ab` was merged five times, and occurs twice in the end. -/
example : (createResultingVocab [(["ab".toList, "@".toList], 2), (["abc@".toList], 3), (["c@".toList], 1)]).length ≤ 4 + 3 ∧
    (createResultingVocab [(["ab".toList, "@".toList], 2), (["abc@".toList], 3), (["c@".toList], 1)]).get? "ab".toList = some 2 ∧
    ∀ k, (createResultingVocab [(["ab".toList, "@".toList], 2), (["abc@".toList], 3), (["c@".toList], 1)]).get? "ab".toList = some k → (k : Int) ≤ 5 :=
  ⟨(C89_size clearWords (by decide) (by decide) clearWords_learnt (symbols := ["a".toList, "b".toList, "c".toList, "@".toList]) (by decide)).2,
   by decide, C89_frequency clearWords (by decide) (by decide) clearWords_learnt _ (.head _)⟩

/-- Non-vacuity: the parts of the third merge were made by the two before. -/
example : ("ab".toList ∈ startSymbols clearWords ∨ "ab".toList ∈ [(("a".toList, "b".toList), (5 : Int)), (("c".toList, "@".toList), 4)].map made) :=
  (C89_parts clearWords (by decide) (by decide) (pre := [(("a".toList, "b".toList), 5), (("c".toList, "@".toList), 4)]) (post := [])
    clearWords_learnt).1

end Verif.Props
