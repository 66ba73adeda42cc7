import Verif.Proofs.EncodeDict
/-!
# C96: splitting a whole dictionary of words
-/
namespace Verif.Props
open Verif Spec

/-- Splitting a dictionary of words never fails for legally escaped words, gives for every word what the word gives
alone, with its number and at its place, and different words never fall together (also words with spaces). -/
theorem C96_dict (words : Dict Str Int) (m : MergeList) (hw : words.WF) (hl : ∀ e ∈ words, LegalWord e.1)
    (hm : PartsNonempty m) :
    ∃ out, encodeDict words m = .ok out ∧ EachSplitAlone words m out ∧ out.WF := by
  obtain ⟨h1, h2⟩ := encodeDict_eq hw hl hm
  refine ⟨_, h1, ⟨by simp, ?_⟩, h2⟩
  intro i w n hi
  obtain ⟨parts, g1, g2, -⟩ := encodeWord_item (hl (w, n) (List.mem_of_getElem? hi)) m
  refine ⟨parts, g1, ?_⟩
  rw [List.getElem?_map, hi, ← g2]
  rfl

/-- So the numbers are all kept. -/
theorem C96_sum (words : Dict Str Int) (m : MergeList) (hw : words.WF) (hl : ∀ e ∈ words, LegalWord e.1)
    (hm : PartsNonempty m) (out : Dict Str Int) (h : encodeDict words m = .ok out) :
    out.map (·.2) = words.map (·.2) := by
  obtain ⟨h1, -⟩ := encodeDict_eq hw hl hm
  rw [h1] at h
  rw [← Except.ok.inj h, List.map_map]
  rfl

/-- The number of a word is found under its parts separated by spaces. -/
theorem C96_lookup (words : Dict Str Int) (m : MergeList) (hw : words.WF) (hl : ∀ e ∈ words, LegalWord e.1)
    (hm : PartsNonempty m) (out : Dict Str Int) (h : encodeDict words m = .ok out) (w : Str) (n : Int)
    (hn : words.get? w = some n) (parts : List Str) (hp : encodeWord w m = .ok parts) :
    out.get? (pyJoin [' '] parts) = some n := by
  obtain ⟨h1, h2⟩ := encodeDict_eq hw hl hm
  rw [h1] at h
  have e := Except.ok.inj h
  have hmem : (w, n) ∈ words := Dict.get?_some_mem hn
  obtain ⟨q, g1, g2, -⟩ := encodeWord_item (hl _ hmem) m
  rw [hp] at g1
  cases g1
  rw [← e]
  refine Dict.mem_get? h2 ?_
  rw [← g2]
  exact List.mem_map.2 ⟨(w, n), hmem, rfl⟩

/-- One word with an illegal escape sequence, wherever it stands, makes the call fail with a `ValueError`. -/
theorem C96_illegal (words : Dict Str Int) (m : MergeList) (h : ∃ e ∈ words, ¬ LegalWord e.1) :
    encodeDict words m = .error .valueError := by
  unfold encodeDict
  rw [lettersDict_illegal words [] h]
  rfl

/-- `encode_word` is the call with one word, for all words and merges, errors included. -/
theorem C96_one (w : Str) (m : MergeList) : encodeWordByDict w m = encodeWord w m := by
  unfold encodeWordByDict
  rcases toCharList_legal w with ⟨hw, cl, h1, -⟩ | ⟨hw, h1⟩
  · have hl : lettersOf w = pyJoin [' '] cl := by rw [lettersOf, h1]
    obtain ⟨r, h4, h5, h6⟩ := loop_total m (pyJoin [' '] cl)
    unfold encodeDict encodeWord
    rw [lettersDict_eq [(w, 0)] [] (by simpa using hw), h1]
    simp only [bind, Except.bind]
    rw [encodeItems_eq, h4]
    simp only [List.map_cons, List.map_nil, List.foldl_cons, List.foldl_nil, Dict.set, List.getLast?_singleton, hl, h5]
  · rw [C96_illegal [(w, 0)] m ⟨(w, 0), by simp, hw⟩]
    unfold encodeWord
    rw [h1]
    rfl

/-- A merge of two empty texts, which a merge list may contain, lets different words fall together, and a number is lost. -/
theorem C96_empty_violated : ∃ (words : Dict Str Int) (m : MergeList), words.WF ∧ (∀ e ∈ words, LegalWord e.1) ∧
    encodeDict words m = .ok [([], 2)] ∧ words.length = 2 := by
  refine ⟨[([], 1), ([' '], 2)], [(([], []), (none, 0))], by decide, ?_, by decide +kernel, rfl⟩
  intro e he
  simp only [List.mem_cons, List.not_mem_nil, or_false] at he
  rcases he with rfl | rfl
  · exact ⟨[], .inl rfl⟩
  · exact ⟨[' '], .inl (by decide)⟩

/-- Non-vacuity: three words, one with a space. -/
example : encodeDict [("abab@".toList, 3), ("a b@".toList, 5), ("c@@@".toList, 7)] [(("a".toList, "b".toList), (none, 0)), (("b".toList, "@".toList), (none, 1))]
    = .ok [("ab ab @".toList, 3), ("a   b@".toList, 5), ("c @@ @".toList, 7)] := by decide +kernel

example : ∀ e ∈ ([("abab@".toList, 3), ("a b@".toList, 5), ("c@@@".toList, 7)] : Dict Str Int), LegalWord e.1 := by
  intro e he
  simp only [List.mem_cons, List.not_mem_nil, or_false] at he
  rcases he with rfl | rfl | rfl
  · exact ⟨"abab".toList, .inr (by decide)⟩
  · exact ⟨"a b".toList, .inr (by decide)⟩
  · exact ⟨"c@".toList, .inr (by decide)⟩

example : PartsNonempty [(("a".toList, "b".toList), (none, 0)), (("b".toList, "@".toList), (none, 1))] := by
  intro p k h
  simp only [MergeList.priority?, Dict.get?] at h
  split at h
  · rename_i e; rw [← e]; decide
  · split at h
    · rename_i e; rw [← e]; decide
    · simp at h

/-- An illegal word is one like this. -/
example : encodeDict [("ab@".toList, 3), ("a@b".toList, 5)] [] = .error .valueError := by decide +kernel

end Verif.Props
