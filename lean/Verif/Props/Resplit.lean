import Verif.Proofs.Resplit
/-!
# Parts of a split word are split like that by themselves (C90)
-/
namespace Verif.Props
open Verif Spec

/-- **C90** The rest of a word from a boundary between subwords on is split by itself exactly as in the word. -/
theorem C90_rest {d : BpeData} (hg : GenuineWords d) (hm : RanksOk d.merges) {w : Str} (hs : ' ' ∉ w) {xs ys : List Str} (hy : ys ≠ [])
    (h : getBpeSubwords w d = .ok (xs ++ ys)) : getBpeSubwords ys.flatten d = .ok ys := by
  obtain ⟨-, -, h3, h4, rfl⟩ := split_cut hg hm hs hy h
  exact split_of_steps hg hm (fun hin => hs (List.mem_append_right _ hin)) hy h3 h4

/-- **C90** In particular the last subword is not split. -/
theorem C90_last {d : BpeData} (hg : GenuineWords d) (hm : RanksOk d.merges) {w : Str} (hs : ' ' ∉ w) {xs : List Str} {s : Str}
    (h : getBpeSubwords w d = .ok (xs ++ [s])) : getBpeSubwords s d = .ok [s] := by
  have := C90_rest hg hm hs (by simp) h
  simpa using this

/-- **C90** If no merge is about the end of words, the beginning of a word up to a boundary is split by itself as in the word; what follows
is an empty subword, which stands for the end. -/
theorem C90_begin {d : BpeData} (hg : GenuineWords d) (hm : RanksOk d.merges) (he : NoEndMerges d.merges) {w : Str} (hs : ' ' ∉ w)
    {xs ys : List Str} (hy : ys ≠ []) (h : getBpeSubwords w d = .ok (xs ++ ys)) : getBpeSubwords xs.flatten d = .ok (xs ++ [[]]) := by
  obtain ⟨h1, h2, -, -, rfl⟩ := split_cut hg hm hs hy h
  have e : tailed coded [escChar] (xs ++ [[]]) = xs.map coded ++ [['@']] := by
    rw [tailed_append _ _ _ (by simp)]
    rfl
  refine split_of_steps hg hm (fun hin => hs (List.mem_append_left _ hin)) (by simp) ?_ ?_
  · rw [e, ← unitsOf_eq_initialSymbols]
    exact steps_snoc he h1
  · rw [e]
    exact final_snoc he h2

/-- **C90** The same for everything between two boundaries, and so for single subwords. -/
theorem C90_middle {d : BpeData} (hg : GenuineWords d) (hm : RanksOk d.merges) (he : NoEndMerges d.merges) {w : Str} (hs : ' ' ∉ w)
    {xs ys zs : List Str} (hz : zs ≠ []) (h : getBpeSubwords w d = .ok (xs ++ ys ++ zs)) :
    getBpeSubwords ys.flatten d = .ok (ys ++ [[]]) := by
  rw [List.append_assoc] at h
  have hyz : ys ++ zs ≠ [] := fun e => hz (List.append_eq_nil_iff.1 e).2
  have hw := (split_cut hg hm hs hyz h).2.2.2.2
  refine C90_begin hg hm he (fun hin => hs ?_) hz (C90_rest hg hm hs hyz h)
  rw [hw]
  exact List.mem_append_right _ hin

/-- **C90** If no merge is about the end of words: when there is a boundary between two parts of a word, the split of the word consists of
the splits of the two parts. -/
theorem C90_two {d : BpeData} (hg : GenuineWords d) (hm : RanksOk d.merges) (he : NoEndMerges d.merges) {u v : Str} (hs : ' ' ∉ u ++ v)
    {xs ys l : List Str} (hu : getBpeSubwords u d = .ok (xs ++ [[]])) (hv : getBpeSubwords v d = .ok ys)
    (h : getBpeSubwords (u ++ v) d = .ok l) (hb : ∃ as bs, l = as ++ bs ∧ as.flatten = u ∧ bs ≠ []) : l = xs ++ ys := by
  obtain ⟨as, bs, rfl, rfl, hb⟩ := hb
  have h1 := C90_begin hg hm he hs hb h
  rw [hu] at h1
  obtain rfl := List.append_cancel_right (Except.ok.inj h1)
  have h2 := C90_rest hg hm hs hb h
  rw [List.append_cancel_left (split_cut hg hm hs hb h).2.2.2.2] at hv
  rw [hv] at h2
  rw [Except.ok.inj h2]

/-! ## Examples -/

/-- Two merges of letters. -/
def resplitCodes : BpeData := ⟨[], [((['a'], ['b']), (none, 0)), ((['c'], ['@', '@']), (none, 1))]⟩

theorem resplit_ranks : RanksOk resplitCodes.merges :=
  numbered_ranksOk ⟨by unfold Dict.WF; decide, fun i hi => match i, hi with | 0, _ => rfl | 1, _ => rfl⟩ (by decide)

theorem resplit_genuine : GenuineWords resplitCodes := by intro w l h; cases h

theorem resplit_noEnd : NoEndMerges resplitCodes.merges := by
  rintro ⟨a, b⟩ (rfl : b = ['@'])
  unfold MergeList.priority? resplitCodes
  simp [Dict.get?]

example : getBpeSubwords "babc@a".toList resplitCodes = .ok [['b'], ['a', 'b'], ['c', '@'], ['a'], []] := by decide +kernel

/-- Non-vacuity of C90: a part in the middle, and the rest. -/
example : getBpeSubwords "abc@".toList resplitCodes = .ok [['a', 'b'], ['c', '@'], []] ∧
    getBpeSubwords "c@a".toList resplitCodes = .ok [['c', '@'], ['a'], []] :=
  ⟨C90_middle resplit_genuine resplit_ranks resplit_noEnd (w := "babc@a".toList) (by decide) (xs := [['b']]) (ys := [['a', 'b'], ['c', '@']])
    (zs := [['a'], []]) (by simp) (by decide +kernel),
   C90_rest resplit_genuine resplit_ranks (w := "babc@a".toList) (by decide) (xs := [['b'], ['a', 'b']]) (ys := [['c', '@'], ['a'], []]) (by simp) (by decide +kernel)⟩

/-- Non-vacuity of C90 for two parts. -/
example : getBpeSubwords "babc@a".toList resplitCodes = .ok ([['b'], ['a', 'b']] ++ [['c', '@'], ['a'], []]) :=
  have h : getBpeSubwords ("bab".toList ++ "c@a".toList) resplitCodes = .ok [['b'], ['a', 'b'], ['c', '@'], ['a'], []] := by decide +kernel
  h.trans (congrArg Except.ok (C90_two resplit_genuine resplit_ranks resplit_noEnd (u := "bab".toList) (v := "c@a".toList) (by decide)
    (xs := [['b'], ['a', 'b']]) (ys := [['c', '@'], ['a'], []]) (by decide +kernel) (by decide +kernel) h ⟨[['b'], ['a', 'b']], _, rfl, rfl, by simp⟩))

/-- Codes with a merge about the end of words. -/
def resplitEnd : BpeData := ⟨[], [((['b'], ['@']), (none, 0)), ((['a'], ['b']), (none, 1))]⟩

/-- **C90, the condition is needed** Where merges are about the end of words, a subword that stands at the beginning of a word can be
split when it is a word itself. -/
theorem C90_begin_violated : ∃ (d : BpeData) (w s : Str) (ys : List Str), GenuineWords d ∧ RanksOk d.merges ∧ ' ' ∉ w ∧ ys ≠ [] ∧
    getBpeSubwords w d = .ok (s :: ys) ∧ ∃ s1 s2, getBpeSubwords s d = .ok [s1, s2] ∧ s1 ≠ [] ∧ s2 ≠ [] :=
  ⟨resplitEnd, "abc".toList, "ab".toList, [['c'], []], by (intro w l h; cases h),
    numbered_ranksOk ⟨by unfold Dict.WF; decide, fun i hi => match i, hi with | 0, _ => rfl | 1, _ => rfl⟩ (by decide),
    by decide, by simp, by decide +kernel, ['a'], ['b'], by decide +kernel, by simp, by simp⟩

end Verif.Props
