import Verif.Proofs.Files
/-!
# Properties of the files written by codeprep (C10-C13, C35)
-/
namespace Verif.Props
open Verif

/-! ## C10: literal escaping -/

/-- C10: un-escaping the escaped form of any string gives the string back. -/
theorem C10_unescape_escape (s : Str) : toNonLiteral (toLiteral s) = .ok s := toNonLiteral_literal s

/-- C10: the escaped form consists of printable ASCII characters only. -/
theorem C10_escaped_printable (s : Str) : ∀ c ∈ toLiteral s, 0x20 ≤ c.toNat ∧ c.toNat ≤ 0x7e := by
  intro c hc
  have := toLiteral_printable s c hc
  omega

/-- C10: in particular no tab, line feed or carriage return can break a file format. -/
theorem C10_escaped_no_controls (s : Str) : '\t' ∉ toLiteral s ∧ '\n' ∉ toLiteral s ∧ '\r' ∉ toLiteral s :=
  ⟨literal_no (by decide), literal_no (by decide), literal_no (by decide)⟩

/-- C10: printable ASCII text without backslashes is its own escaped form, so ordinary identifiers stay readable. -/
theorem C10_plain_unchanged (s : Str) (h : ∀ c ∈ s, 0x20 ≤ c.toNat ∧ c.toNat ≤ 0x7e ∧ c ≠ '\\') : toLiteral s = s := by
  induction s with
  | nil => rfl
  | cons c s ih =>
    have hc := h c (by simp)
    have : litChar c = [c] := by
      unfold litChar
      simp only
      rw [if_neg hc.2.2, if_neg (by rintro rfl; revert hc; decide), if_neg (by rintro rfl; revert hc; decide),
        if_neg (by rintro rfl; revert hc; decide), if_pos (by omega)]
    show litChar c ++ toLiteral s = c :: s
    rw [this, ih (fun d hd => h d (by simp [hd]))]
    rfl

example : toLiteral "a\tü€𝒳\\".toList = "a\\t\\xfc\\u20ac\\U0001d4b3\\\\".toList := by decide
example : toNonLiteral "a\\t\\xfc\\u20ac\\U0001d4b3\\\\".toList = .ok "a\tü€𝒳\\".toList := by decide +kernel
/-- A truncated escape is an error. -/
example : toNonLiteral "ab\\x1".toList = .error .valueError := by decide +kernel

/-! ## C11: merge files -/

/-- C11: a merge list with distinct pairs, ranks 0,1,2,…, known frequencies and space-free parts is read back unchanged
from the file written from it. -/
theorem C11_merges_roundtrip (m : MergeList)
    (hwf : m.WF) (hrank : m.map (·.2.2) = List.range m.length)
    (hfreq : ∀ e ∈ m, e.2.1 ≠ none) (hsp : ∀ e ∈ m, ' ' ∉ e.1.1 ∧ ' ' ∉ e.1.2) :
    readMerges (dumpMerges m) none = .ok m := by
  have h := readMergesLoop_rest none [] m (by simpa using hwf) hfreq hsp
    (by
      intro i hi
      have := congrArg (·[i]?) hrank
      simp [hi] at this
      simpa using this)
    (by simp [limitReached])
  unfold readMerges
  rw [dumpMerges_lines]
  simpa [takeLim] using h

/-- C11: with a limit `n > 0`, exactly the first `n` merges are read. -/
theorem C11_merges_limit (m : MergeList) (n : Nat) (hn : 0 < n)
    (hwf : m.WF) (hrank : m.map (·.2.2) = List.range m.length)
    (hfreq : ∀ e ∈ m, e.2.1 ≠ none) (hsp : ∀ e ∈ m, ' ' ∉ e.1.1 ∧ ' ' ∉ e.1.2) :
    readMerges (dumpMerges m) (some n) = .ok (m.take n) := by
  have h := readMergesLoop_rest (some n) [] m (by simpa using hwf) hfreq hsp
    (by
      intro i hi
      have := congrArg (·[i]?) hrank
      simp [hi] at this
      simpa using this)
    (by simp only [limitReached, List.length_nil]; intro h; simp at h)
  unfold readMerges
  rw [dumpMerges_lines]
  obtain ⟨k, rfl⟩ : ∃ k, n = k + 1 := ⟨n - 1, by omega⟩
  simpa [takeLim] using h

/-- C11: the limit 0 means "no limit". -/
theorem C11_merges_limit_zero (m : MergeList)
    (hwf : m.WF) (hrank : m.map (·.2.2) = List.range m.length)
    (hfreq : ∀ e ∈ m, e.2.1 ≠ none) (hsp : ∀ e ∈ m, ' ' ∉ e.1.1 ∧ ' ' ∉ e.1.2) :
    readMerges (dumpMerges m) (some 0) = .ok m := by
  have h := readMergesLoop_rest (some 0) [] m (by simpa using hwf) hfreq hsp
    (by
      intro i hi
      have := congrArg (·[i]?) hrank
      simp [hi] at this
      simpa using this)
    (by simp [limitReached])
  unfold readMerges
  rw [dumpMerges_lines]
  simpa [takeLim] using h

def sampleMerges : MergeList :=
  [((['a'], ['\t']), some 34, 0), (("\\".toList, "ü".toList), some 5, 1), ((['b'], []), some 1, 2)]

example : sampleMerges.WF ∧ sampleMerges.map (·.2.2) = List.range sampleMerges.length ∧
    (∀ e ∈ sampleMerges, e.2.1 ≠ none) ∧ (∀ e ∈ sampleMerges, ' ' ∉ e.1.1 ∧ ' ' ∉ e.1.2) := by decide
example : dumpMerges sampleMerges = "a \\t 34\n\\\\ \\xfc 5\nb  1\n".toList := by decide
/-- A file without frequencies can be read as well. -/
example : readMerges "a b\nab c".toList none =
    .ok [((['a'], ['b']), none, 0), ((['a', 'b'], ['c']), none, 1)] := by decide +kernel
/-- Lines with a single column are rejected. -/
example : readMerges "a b\nabc\n".toList none = .error .valueError := by decide +kernel

/-- C11 (limits of the format): a merge list with a merge whose frequency is not known is written as `None` and its file
cannot be read back. -/
theorem C11_unknown_frequency_unreadable (p : Str × Str) (h1 : ' ' ∉ p.1) (h2 : ' ' ∉ p.2) (r : Nat) :
    readMerges (dumpMerges [(p, none, r)]) none = .error .valueError := by
  obtain ⟨a, b⟩ := p
  have hp : parseFileEntry (mergeBody ⟨(a, b), none, some r⟩) 0 = .error .valueError := by
    unfold parseFileEntry mergeBody
    rw [toNonLiteral_literal_plain]
    · have e : pyJoin [' '] [a, b] ++ ' ' :: optIntStr none = pyJoin [' '] [a, b, "None".toList] := by
        simp [pyJoin, optIntStr]
      have hs : pySplit ' ' (pyJoin [' '] [a, b, "None".toList]) = [a, b, "None".toList] :=
        pySplit_pyJoin (by simp) (by
          intro x hx
          simp only [List.mem_cons, List.not_mem_nil, or_false] at hx
          rcases hx with rfl | rfl | rfl
          · exact h1
          · exact h2
          · decide)
      have hi : pyInt "None".toList = .error .valueError := by decide
      rw [e]
      simp only [bind, Except.bind, hs, hi]
    · show ∀ c ∈ ' ' :: optIntStr none, c.toNat < 128
      decide
    · show '\\' ∉ ' ' :: optIntStr none
      decide
  unfold readMerges
  rw [dumpMerges_lines]
  simp only [MergeList.toMerges, List.map_cons, List.map_nil, readMergesLoop, limitReached, Bool.false_eq_true, if_false]
  rw [rstripNl_line (mergeBody_no (by decide)), hp]
  rfl

/-! ## C12: BPE cache files -/

/-- C12: a BPE cache is read back unchanged (all words; subword lists not empty, parts without spaces). -/
theorem C12_cache_roundtrip (d : Dict Str (List Str)) (hwf : d.WF)
    (hne : ∀ e ∈ d, e.2 ≠ []) (hsp : ∀ e ∈ d, ∀ p ∈ e.2, ' ' ∉ p) :
    readBpeCache (dumpBpeCache d) = .ok d := by
  have e : dumpBpeCache d =
      concat ((d.map fun e => toLiteral e.1 ++ '\t' :: toLiteral (pyJoin [' '] e.2)).map (· ++ ['\n'])) := by
    unfold dumpBpeCache
    rw [List.map_map]
    rfl
  unfold readBpeCache
  have hno : ∀ c : Char, c = '\n' ∨ c = '\r' → ∀ b ∈ d.map (fun e => toLiteral e.1 ++ '\t' :: toLiteral (pyJoin [' '] e.2)),
      c ∉ b := by
    intro c hc b hb
    obtain ⟨x, -, rfl⟩ := List.mem_map.1 hb
    intro hm
    rcases List.mem_append.1 hm with hm | hm
    · exact literal_no (by rcases hc with rfl | rfl <;> decide) hm
    · rcases List.mem_cons.1 hm with hm | hm
      · rcases hc with rfl | rfl <;> exact absurd hm (by decide)
      · exact literal_no (by rcases hc with rfl | rfl <;> decide) hm
  rw [e, readLines_bodies _ (hno _ (Or.inl rfl)) (hno _ (Or.inr rfl))]
  rw [readCacheLoop_ok [] _ d, foldl_set_append [] d (by simpa using hwf)]
  · rfl
  · rw [List.map_map, List.map_map]
    apply List.map_congr_left
    intro x hx
    exact readCacheLine_ok (hne x hx) (hsp x hx)

def sampleCache : Dict Str (List Str) :=
  [("if".toList, ["i".toList, "f".toList]), ("a b\t".toList, ["a".toList, "".toList, "\n".toList])]
example : sampleCache.WF ∧ (∀ e ∈ sampleCache, e.2 ≠ []) ∧ (∀ e ∈ sampleCache, ∀ p ∈ e.2, ' ' ∉ p) := by decide
example : dumpBpeCache sampleCache = "if\ti f\na b\\t\ta  \\n\n".toList := by decide
/-- A line without a tab makes the reader fail with `IndexError`. -/
example : readBpeCache "if\n".toList = .error .indexError := by decide +kernel

/-! ## C13: vocabulary files -/

/-- C13: a dictionary dumped with escaping is loaded back unchanged. -/
theorem C13_vocab_roundtrip (l : Dict Str Nat) (hwf : l.WF) :
    loadVocabDict (dumpVocabDict l true) = .ok (l.map fun e => (e.1, (e.2 : Int))) := by
  unfold loadVocabDict
  rw [dumpVocab_lines l true (by simp), loadVocabLoop_ok [] _ (l.map fun e => (e.1, (e.2 : Int))), foldl_set_append]
  · rfl
  · unfold Dict.WF Dict.keys at *
    simpa [List.map_map, Function.comp_def] using hwf
  · rw [List.map_map, List.map_map]
    apply List.map_congr_left
    intro x _
    exact loadVocabLine_ok x.1 x.2

/-- C13: the vocabulary file of a corpus has exactly one line `word TAB count` per word, and the lines are ordered by
non-increasing count; words with equal counts keep the order of the dictionary. -/
theorem C13_vocab_file_sorted (d : Dict Str Nat) (hlit : ∀ e ∈ d, '\n' ∉ e.1 ∧ '\r' ∉ e.1) :
    ∃ l : List (Str × Nat), l.Perm d ∧ l.Pairwise (fun a b => b.2 ≤ a.2) ∧
      (∀ n, l.filter (fun e => e.2 = n) = d.filter (fun e => e.2 = n)) ∧
      readLines (writeVocab d) = l.map fun e => e.1 ++ '\t' :: natStr e.2 ++ ['\n'] := by
  refine ⟨sortDesc d, sortDesc_perm d, sortDesc_sorted d, sortDesc_stable d, ?_⟩
  unfold writeVocab
  rw [dumpVocab_lines]
  · rfl
  · intro _ e he
    exact hlit e ((sortDesc_perm d).mem_iff.1 he)

/-- C13: the vocabulary written for a corpus whose words are stored in escaped form is loaded with the un-escaped words
and the same counts. -/
theorem C13_corpus_vocab_roundtrip (d : Dict Str Nat) (hwf : d.WF) :
    ∃ l : Dict Str Nat, l.Perm d ∧ l.Pairwise (fun a b => b.2 ≤ a.2) ∧
      loadVocabDict (writeVocab (d.map fun e => (toLiteral e.1, e.2))) = .ok (l.map fun e => (e.1, (e.2 : Int))) := by
  have hcomm : ∀ l : Dict Str Nat, sortDesc (l.map fun e => (toLiteral e.1, e.2)) =
      (sortDesc l).map fun e => (toLiteral e.1, e.2) := by
    have hi : ∀ (e : Str × Nat) (l : List (Str × Nat)), insertDesc (toLiteral e.1, e.2) (l.map fun e => (toLiteral e.1, e.2)) =
        (insertDesc e l).map fun e => (toLiteral e.1, e.2) := by
      intro e l
      induction l with
      | nil => rfl
      | cons x l ih =>
        simp only [List.map_cons, insertDesc]
        split
        · rfl
        · rw [List.map_cons, ih]
    intro l
    induction l with
    | nil => rfl
    | cons e l ih => rw [List.map_cons, sortDesc, ih, hi]; rfl
  refine ⟨sortDesc d, sortDesc_perm d, sortDesc_sorted d, ?_⟩
  unfold writeVocab loadVocabDict
  rw [hcomm]
  have e : dumpVocabDict ((sortDesc d).map fun e => (toLiteral e.1, e.2)) false = dumpVocabDict (sortDesc d) true := by
    unfold dumpVocabDict
    rw [List.map_map]
    rfl
  rw [e]
  refine C13_vocab_roundtrip (sortDesc d) ?_
  unfold Dict.WF Dict.keys at *
  exact ((sortDesc_perm d).map (·.1)).nodup_iff.2 hwf

/-- C13: the set of non-BPE words is read back as the same set. -/
theorem C13_token_set_roundtrip (ws : List Str) (h : ws.Nodup) : loadVocabSet (dumpTokenSet ws) = .ok ws := by
  unfold loadVocabSet
  have e : dumpTokenSet ws = concat ((ws.map toLiteral).map (· ++ ['\n'])) := by
    unfold dumpTokenSet
    rw [List.map_map]
    rfl
  rw [e, readLines_bodies]
  · suffices H : ∀ acc, (acc ++ ws).Nodup → loadVocabSetLoop acc ((ws.map toLiteral).map (· ++ ['\n'])) = .ok (acc ++ ws) by
      simpa using H [] (by simpa using h)
    clear e h
    induction ws with
    | nil => intro acc _; simp [loadVocabSetLoop]
    | cons w ws ih =>
      intro acc hn
      simp only [List.map_cons, loadVocabSetLoop]
      rw [rstripNl_line (literal_no (by decide)), toNonLiteral_literal]
      simp only [bind, Except.bind]
      have hw : w ∉ acc := by
        rw [List.nodup_append] at hn
        intro h
        exact hn.2.2 w h w (by simp) rfl
      have := ih (acc ++ [w]) (by simpa using hn)
      simp only [List.map_map] at this
      simp only [setAdd, hw, if_false]
      simpa using this
  · intro b hb
    obtain ⟨x, -, rfl⟩ := List.mem_map.1 hb
    exact literal_no (by decide)
  · intro b hb
    obtain ⟨x, -, rfl⟩ := List.mem_map.1 hb
    exact literal_no (by decide)

example : writeVocab [("a".toList, 1), ("\\n".toList, 3), ("b".toList, 1)] = "\\n\t3\na\t1\nb\t1\n".toList := by decide
example : loadVocabDict "\\n\t3\na\t1\nb\t12\n".toList = .ok [("\n".toList, 3), ("a".toList, 1), ("b".toList, 12)] := by
  decide +kernel
example : loadVocabSet "\\n\na\n\\n".toList = .ok ["\n".toList, "a".toList] := by decide +kernel
/-- A malformed line is an error. -/
example : loadVocabDict "a 3\n".toList = .error .indexError := by decide +kernel
example : loadVocabDict "a\tb\n".toList = .error .valueError := by decide +kernel

/-! ## C35: `.prep` files -/

/-- C35: a `.prep` file is exactly one line, and the subtokens are recovered by splitting it at spaces and un-escaping
every part. -/
theorem C35_prep_recoverable (l : List Str) (hne : l ≠ []) (hsp : ∀ t ∈ l, ' ' ∉ t) :
    ∃ line, '\n' ∉ line ∧ prepText l = line ++ ['\n'] ∧ readLines (prepText l) = [line ++ ['\n']] ∧
      (pySplit ' ' line).map toNonLiteral = l.map .ok := by
  refine ⟨toLiteral (pyJoin [' '] l), literal_no (by decide), rfl, prepText_lines l, ?_⟩
  have h := prepText_words l hne hsp
  unfold prepText at h
  rw [rstripNl_line (literal_no (by decide))] at h
  rw [h, List.map_map]
  apply List.map_congr_left
  intro t _
  exact toNonLiteral_literal t

/-- C35: the reported size of a corpus is the total number of subtokens written. -/
theorem C35_corpus_size (ls : List (List Str)) (hne : ∀ l ∈ ls, l ≠ []) (hsp : ∀ l ∈ ls, ∀ t ∈ l, ' ' ∉ t) :
    calcCorpusSize (ls.map prepText) = ls.flatten.length := by
  unfold calcCorpusSize
  induction ls with
  | nil => rfl
  | cons l ls ih =>
    simp only [List.map_cons, List.sum_cons, List.flatten_cons, List.length_append]
    rw [calcNTokens_prep l (hne l (by simp)) (hsp l (by simp)), ih (fun x hx => hne x (by simp [hx]))
      (fun x hx => hsp x (by simp [hx]))]

/-- C35: the reported size does not depend on the order in which the worker processes deliver their results. -/
theorem C35_corpus_size_order (t1 t2 : List Str) (h : t1.Perm t2) : calcCorpusSize t1 = calcCorpusSize t2 := by
  unfold calcCorpusSize
  exact (h.map calcNTokens).sum_nat

/-- A table of the escaped words of a list with their numbers, written to a file, is loaded as the words of the list with
their numbers. -/
theorem vocab_loads (c : Dict Str Nat) (l : List Str) (hwf : c.WF) (hkeys : ∀ w, w ∈ c.keys ↔ w ∈ l.map toLiteral)
    (hcount : ∀ w, (c.get? w).getD 0 = (l.map toLiteral).count w) :
    ∃ v : Dict Str Int, loadVocabDict (writeVocab c) = .ok v ∧ v.WF ∧
      (∀ w, w ∈ v.keys ↔ w ∈ l) ∧ (∀ w n, v.get? w = some n → n = (l.count w : Int)) := by
  have hdec : ∃ d : Dict Str Nat, c = d.map fun e => (toLiteral e.1, e.2) := by
    have : ∀ e ∈ c, ∃ w, toLiteral w = e.1 := by
      intro e he
      have hk : e.1 ∈ c.keys := List.mem_map.2 ⟨e, he, rfl⟩
      rw [hkeys] at hk
      obtain ⟨w, -, hw⟩ := List.mem_map.1 hk
      exact ⟨w, hw⟩
    clear hwf hkeys hcount
    revert this
    intro hc
    induction c with
    | nil => exact ⟨[], rfl⟩
    | cons e c ih =>
      obtain ⟨w, hw⟩ := hc e (by simp)
      obtain ⟨d, hd⟩ := ih (fun x hx => hc x (by simp [hx]))
      refine ⟨(w, e.2) :: d, ?_⟩
      rw [List.map_cons, ← hd]
      simp only [hw]
  obtain ⟨d, hd⟩ := hdec
  have hdwf : d.WF := by
    rw [hd] at hwf
    unfold Dict.WF Dict.keys at *
    rw [List.map_map] at hwf
    have : (d.map (·.1)).map toLiteral = d.map ((fun x => x.1) ∘ fun e => (toLiteral e.1, e.2)) := by
      rw [List.map_map]; rfl
    rw [← this] at hwf
    exact nodup_of_map _ hwf
  obtain ⟨p, hp, -, hload⟩ := C13_corpus_vocab_roundtrip d hdwf
  rw [← hd] at hload
  have hvwf : Dict.WF (p.map fun e => (e.1, (e.2 : Int))) := by
    unfold Dict.WF Dict.keys at *
    rw [List.map_map]
    exact (hp.map (·.1)).nodup_iff.2 hdwf
  refine ⟨_, hload, hvwf, ?_, ?_⟩
  · intro w
    have h1 : w ∈ Dict.keys (p.map fun e => (e.1, (e.2 : Int))) ↔ w ∈ Dict.keys d := by
      unfold Dict.keys
      rw [List.map_map]
      exact (hp.map (·.1)).mem_iff
    rw [h1]
    have h2 : w ∈ Dict.keys d ↔ toLiteral w ∈ c.keys := by
      rw [hd]
      unfold Dict.keys
      rw [List.map_map, List.mem_map, List.mem_map]
      constructor
      · rintro ⟨e, he, rfl⟩; exact ⟨e, he, rfl⟩
      · rintro ⟨e, he, h⟩; exact ⟨e, he, toLiteral_inj h⟩
    rw [h2, hkeys]
    constructor
    · intro h
      obtain ⟨x, hx, h⟩ := List.mem_map.1 h
      rw [← toLiteral_inj h]; exact hx
    · intro h
      exact List.mem_map.2 ⟨w, h, rfl⟩
  · intro w n hn
    have hm := Dict.get?_some_mem hn
    obtain ⟨e, he, heq⟩ := List.mem_map.1 hm
    injection heq with e1 e2
    subst e1
    have hed := hp.mem_iff.1 he
    have : (toLiteral e.1, e.2) ∈ c := by
      rw [hd]; exact List.mem_map.2 ⟨e, hed, rfl⟩
    have hg := Dict.mem_get? hwf this
    have hc := hcount (toLiteral e.1)
    rw [hg, count_map_toLiteral] at hc
    simp at hc
    rw [← e2, hc]

/-- C35: the vocabulary computed from `.prep` files, written to the vocabulary file and loaded through the API maps exactly the
subtokens that were written to the number of times they were written. -/
theorem C35_vocab_counts (ls : List (List Str)) (hne : ∀ l ∈ ls, l ≠ []) (hsp : ∀ l ∈ ls, ∀ t ∈ l, ' ' ∉ t) :
    ∃ v : Dict Str Int, loadVocabDict (writeVocab (getVocab (ls.map prepText))) = .ok v ∧ v.WF ∧
      (∀ w, w ∈ v.keys ↔ w ∈ ls.flatten) ∧ (∀ w n, v.get? w = some n → n = (ls.flatten.count w : Int)) := by
  rw [getVocab_prep ls hne hsp]
  refine vocab_loads _ _ (counterUpdate_WF _ _ (by simp [Dict.WF, Dict.keys])) (fun w => ?_) (fun w => ?_)
  · rw [counterUpdate_keys]; simp [Dict.keys]
  · rw [counterUpdate_get]; simp [Dict.get?]

example : (∀ l ∈ [["a".toList, "\n".toList, "ü</t>".toList]], l ≠ []) ∧
    (∀ l ∈ [["a".toList, "\n".toList, "ü</t>".toList]], ∀ t ∈ l, ' ' ∉ t) := by decide
example : prepText ["a".toList, "\n".toList, "ü</t>".toList] = "a \\n \\xfc</t>\n".toList := by decide
example : getVocab [prepText ["a".toList, "\n".toList, "a".toList], prepText ["\n".toList]] =
    [("a".toList, 2), ("\\n".toList, 2)] := by decide

/-- C35 (limits): a subtoken containing a space cannot be told from two subtokens. -/
theorem C35_spaces_ambiguous : prepText ["a b".toList] = prepText ["a".toList, "b".toList] := by decide

end Verif.Props
