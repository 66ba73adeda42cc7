import Verif.Proofs.Escapes
import Verif.Proofs.Files
/-!
# C58: what may stand in the files that codeprep reads
-/
namespace Verif.Props
open Verif Verif.Spec.Esc Verif.Escapes

theorem toNonLiteral_total (s : Str) : (∃ t, toNonLiteral s = .ok t) ∨ toNonLiteral s = .error .valueError := by
  unfold toNonLiteral
  simp only
  generalize utf8AsLatin1 s = b
  have : ∀ (n : Nat) (b : Str), b.length ≤ n → (∃ t, decodeLoop n b = .ok t) ∨ decodeLoop n b = .error .valueError := by
    intro n
    induction n with
    | zero =>
      intro b hb
      cases List.length_eq_zero_iff.mp (Nat.le_zero.mp hb)
      exact .inl ⟨[], rfl⟩
    | succ n ih =>
      intro b hb
      cases b with
      | nil => exact .inl ⟨[], rfl⟩
      | cons c b =>
        simp only [List.length_cons] at hb
        unfold decodeLoop
        split
        · split
          · exact .inr rfl
          · rename_i d r he
            obtain ⟨e, rfl, -⟩ := (decodeEscape_iff _ _ _).mp he
            rcases ih r (by simp at hb; omega) with ⟨t, h⟩ | h
            · exact .inl ⟨d ++ t, by simp only [h, bind, Except.bind]⟩
            · exact .inr (by simp only [h, bind, Except.bind])
        · rcases ih b (by omega) with ⟨t, h⟩ | h
          · exact .inl ⟨c :: t, by simp only [h, bind, Except.bind]⟩
          · exact .inr (by simp only [h, bind, Except.bind])
  exact this _ b (Nat.le_refl _)

/-- C58.  An escaped text is read as the escapes say; one that is not well-formed raises `ValueError`. -/
theorem C58_escapes_partial {s : Str} (hs : ∀ c ∈ s, c.toNat < 128) (t : Str) :
    (toNonLiteral s = .ok t ↔ Reads s t) ∧ (toNonLiteral s = .error .valueError ↔ ¬ ∃ t, Reads s t) := by
  have h : ∀ t, toNonLiteral s = .ok t ↔ Reads s t := by
    intro t
    unfold toNonLiteral
    rw [utf8AsLatin1_ascii hs]
    exact decodeLoop_iff _ _ _ (Nat.le_refl _)
  refine ⟨h t, ?_⟩
  constructor
  · rintro e ⟨t, ht⟩
    rw [(h t).mpr ht] at e; cases e
  · intro hn
    rcases toNonLiteral_total s with ⟨t, ht⟩ | e
    · exact absurd ⟨t, (h t).mp ht⟩ hn
    · exact e

example : Reads "a\\x4A\\101\\v".toList ['a', 'J', 'A', Char.ofNat 11] :=
  .plain (by decide) (.escape (r := "\\101\\v".toList) (d := ['J'])
    (.hex (ds := "4A".toList) (n := 74) _ (by decide) rfl ⟨[4, 10], by decide, by decide, rfl⟩ (.inl (by decide)))
    (.escape (r := "\\v".toList) (d := ['A'])
      (.octal (ds := "101".toList) (n := 65) _ (by decide) (by decide) ⟨[1, 0, 1], by decide, by decide, rfl⟩ (.inl rfl))
      (.escape (r := []) (d := [Char.ofNat 11]) (.char _ (by decide)) .nil)))
example : toNonLiteral "a\\x4A\\101\\v".toList = .ok ['a', 'J', 'A', Char.ofNat 11] := by decide +kernel
example : toNonLiteral "\\x4".toList = .error .valueError := by decide +kernel

/-- C58.  Other characters stand for the characters that have the numbers of their UTF-8 bytes. -/
theorem C58_escapes_bytes (s t : Str) :
    toNonLiteral s = .ok t ↔ Reads (s.flatMap fun c => (String.utf8EncodeChar c).map fun b => Char.ofNat b.toNat) t :=
  decodeLoop_iff _ _ _ (Nat.le_refl _)

example : toNonLiteral ['é'] = .ok ['Ã', '©'] := by decide +kernel

/-- C58 does not hold for text that is not ASCII: it is not read as what it is. -/
theorem C58_escapes_violated : ¬ ∀ s t, Reads s t → toNonLiteral s = .ok t := by
  intro h
  have h := h ['é'] ['é'] (.plain (by decide) .nil)
  revert h
  decide +kernel

/-- C58.  A number is read as what it is; everything else raises `ValueError`. -/
theorem C58_number (s : Str) (i : Int) : (pyInt s = .ok i ↔ Numeral s i) ∧ (pyInt s = .error .valueError ↔ ¬ ∃ i, Numeral s i) := by
  refine ⟨pyInt_iff s i, ?_⟩
  have h : (∃ i, pyInt s = .ok i) ∨ pyInt s = .error .valueError := by
    unfold pyInt
    simp only
    split
    · exact .inl ⟨_, rfl⟩
    · exact .inr rfl
  constructor
  · rintro e ⟨i, hi⟩
    rw [(pyInt_iff s i).mpr hi] at e; cases e
  · intro hn
    rcases h with ⟨i, hi⟩ | e
    · exact absurd ⟨i, (pyInt_iff s i).mp hi⟩ hn
    · exact e

example : Numeral " -1_024\n".toList (-1024) :=
  ⟨[' '], ['\n'], ['-'], [['1'], ['0', '2', '4']], 1024, by decide, by decide, by decide, by decide,
    ⟨[1, 0, 2, 4], by decide, by decide, rfl⟩, .inr (.inr ⟨rfl, rfl⟩)⟩
example : pyInt "1__0".toList = .error .valueError ∧ pyInt "_1".toList = .error .valueError ∧ pyInt "+7".toList = .ok 7 := by decide

/-! ## Lines of files -/

theorem columns_iff (sep : Char) (t : Str) (l : List Str) : pySplit sep t = l ↔ Columns sep t l := by
  constructor
  · rintro rfl
    exact ⟨pySplit_ne_nil sep t, (pyJoin_pySplit sep t).symm, fun p hp => pySplit_noSep_mem hp⟩
  · rintro ⟨h1, rfl, h2⟩
    exact pySplit_pyJoin h1 h2

/-- C58.  A line of a merge file is read as described, everything else is an error. -/
theorem C58_merge_line {line : Str} (hs : ∀ c ∈ line, c.toNat < 128) (p : Nat) (m : Merge) :
    (parseFileEntry line p = .ok m ↔ MergeEntry line p m) ∧
    (parseFileEntry line p = .error .valueError ↔ ¬ ∃ m, MergeEntry line p m) := by
  have key : ∀ m, parseFileEntry line p = .ok m ↔ MergeEntry line p m := by
    intro m
    unfold parseFileEntry
    constructor
    · intro h
      rcases toNonLiteral_total line with ⟨t, ht⟩ | e
      · rw [ht] at h
        simp only [bind, Except.bind] at h
        have hr := ((C58_escapes_partial hs t).1).mp ht
        split at h
        · rename_i a b he
          cases h
          exact ⟨t, _, hr, (columns_iff _ _ _).mp he, .inl ⟨a, b, rfl, rfl⟩⟩
        · rename_i a b c r he
          cases hi : pyInt c with
          | error => rw [hi] at h; cases h
          | ok i =>
            rw [hi] at h
            cases h
            exact ⟨t, _, hr, (columns_iff _ _ _).mp he, .inr ⟨a, b, c, r, i, rfl, (pyInt_iff _ _).mp hi, rfl⟩⟩
        · cases h
      · rw [e] at h; cases h
    · rintro ⟨t, l, hr, hc, h⟩
      rw [((C58_escapes_partial hs t).1).mpr hr]
      simp only [bind, Except.bind, (columns_iff _ _ _).mpr hc]
      rcases h with ⟨a, b, rfl, rfl⟩ | ⟨a, b, c, r, i, rfl, hi, rfl⟩
      · rfl
      · simp only [(pyInt_iff _ _).mpr hi]
  have total : (∃ m, parseFileEntry line p = .ok m) ∨ parseFileEntry line p = .error .valueError := by
    unfold parseFileEntry
    rcases toNonLiteral_total line with ⟨t, ht⟩ | e
    · rw [ht]
      simp only [bind, Except.bind]
      split
      · exact .inl ⟨_, rfl⟩
      · rename_i a b c r he
        rcases Decidable.em (pyInt c = .error .valueError) with hi | hi
        · rw [hi]; exact .inr rfl
        · have := mt ((C58_number c 0).2).mpr hi
          obtain ⟨i, hi⟩ := Classical.not_not.mp this
          rw [(pyInt_iff _ _).mpr hi]
          exact .inl ⟨_, rfl⟩
      · exact .inr rfl
    · rw [e]; exact .inr rfl
  refine ⟨key m, ?_⟩
  constructor
  · rintro e ⟨m, hm⟩
    rw [(key m).mpr hm] at e; cases e
  · intro hn
    rcases total with ⟨m, h⟩ | e
    · exact absurd ⟨m, (key m).mp h⟩ hn
    · exact e

example : parseFileEntry "\\x61 b 1_0".toList 3 = .ok ⟨("a".toList, "b".toList), some 10, some 3⟩ := by decide +kernel
example : parseFileEntry "a\\x20b".toList 3 = .ok ⟨("a".toList, "b".toList), none, some 3⟩ := by decide +kernel

/-- C58.  So is a line of a vocabulary file. -/
theorem C58_vocab_line {line : Str} (hs : ∀ c ∈ line, c.toNat < 128) (hn : '\n' ∉ line) (w : Str) (n : Int) :
    loadVocabLine (line ++ ['\n']) = .ok (w, n) ↔ VocabEntry line w n := by
  have hst : rstripNl (line ++ ['\n']) = line := rstripNl_line hn
  unfold loadVocabLine
  rw [hst]
  constructor
  · intro h
    split at h
    · rename_i a b r he
      have hc := (columns_iff _ _ _).mp he
      have ha : ∀ c ∈ a, c.toNat < 128 := by
        intro c hca
        refine hs c ?_
        rw [hc.2.1]
        cases r <;> simp [pyJoin, hca]
      simp only [bind, Except.bind] at h
      cases hi : pyInt b with
      | error => rw [hi] at h; cases h
      | ok i =>
        rw [hi] at h
        cases ht : toNonLiteral a with
        | error => rw [ht] at h; cases h
        | ok t =>
          rw [ht] at h
          cases h
          exact ⟨a, b, r, hc, ((C58_escapes_partial ha _).1).mp ht, (pyInt_iff _ _).mp hi⟩
    · cases h
  · rintro ⟨a, b, r, hc, h1, h2⟩
    rw [(columns_iff _ _ _).mpr hc]
    have ha : ∀ c ∈ a, c.toNat < 128 := by
      intro c hca
      refine hs c ?_
      rw [hc.2.1]
      cases r <;> simp [pyJoin, hca]
    simp only [bind, Except.bind, (pyInt_iff _ _).mpr h2, ((C58_escapes_partial ha _).1).mpr h1]

example : loadVocabLine "a\\tb\t12\tx\n".toList = .ok ("a\tb".toList, 12) := by decide +kernel

/-- C58.  And a line of a file with split words. -/
theorem C58_cache_line {line : Str} (hs : ∀ c ∈ line, c.toNat < 128) (hn : '\n' ∉ line) (w : Str) (ps : List Str) :
    readCacheLine (line ++ ['\n']) = .ok (w, ps) ↔ CacheEntry line w ps := by
  have hst : rstripNl (line ++ ['\n']) = line := rstripNl_line hn
  unfold readCacheLine
  rw [hst]
  have cols : ∀ {a b r}, Columns '\t' line (a :: b :: r) → (∀ c ∈ a, c.toNat < 128) ∧ ∀ c ∈ b, c.toNat < 128 := by
    intro a b r hc
    constructor
    · intro c hca
      refine hs c ?_
      rw [hc.2.1]
      cases r <;> simp [pyJoin, hca]
    · intro c hca
      refine hs c ?_
      rw [hc.2.1]
      cases r <;> simp [pyJoin, hca]
  constructor
  · intro h
    split at h
    · rename_i a b r he
      have hc := (columns_iff _ _ _).mp he
      obtain ⟨ha, hb⟩ := cols hc
      simp only [bind, Except.bind] at h
      cases hi : toNonLiteral b with
      | error => rw [hi] at h; cases h
      | ok i =>
        rw [hi] at h
        cases ht : toNonLiteral a with
        | error => rw [ht] at h; cases h
        | ok t =>
          rw [ht] at h
          cases h
          exact ⟨a, b, r, i, hc, ((C58_escapes_partial ha _).1).mp ht, ((C58_escapes_partial hb _).1).mp hi, (columns_iff _ _ _).mp rfl⟩
    · cases h
  · rintro ⟨a, b, r, t, hc, h1, h2, h3⟩
    rw [(columns_iff _ _ _).mpr hc]
    obtain ⟨ha, hb⟩ := cols hc
    simp only [bind, Except.bind, ((C58_escapes_partial hb _).1).mpr h2, ((C58_escapes_partial ha _).1).mpr h1, (columns_iff _ _ _).mpr h3]

example : readCacheLine "ab\ta\\x20b\n".toList = .ok ("ab".toList, ["a".toList, "b".toList]) := by decide +kernel

end Verif.Props
