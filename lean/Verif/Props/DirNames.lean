import Verif.Proofs.DirNames
/-!
# Properties of names of directories (C42, C43)
-/
namespace Verif.Props
open Verif Spec

/-! ## C42 -/

/-- **C42** For one dataset, results with different configurations, merges or kinds of output directory are stored under different names. -/
theorem C42_same_dataset (dn : Str) {c c' : PrepConfig} (h : c.Valid) (h' : c'.Valid) (cu cu' : Option (Str × Nat)) (ov ov' : Bool)
    (he : prepDirName dn c cu ov = prepDirName dn c' cu' ov') : c = c' ∧ cu = cu' ∧ ov = ov' := by
  obtain ⟨x, hx, hxp⟩ := prepSuffix_last h cu
  obtain ⟨y, hy, hyp⟩ := prepSuffix_last h' cu'
  have mixed : ∀ a b : Str, ∀ z, a.getLast? = some z → z ≠ 'p' → dn ++ "_-_".toList ++ a = dn ++ "_-_".toList ++ b ++ "_-_prep".toList → False := by
    intro a b z hz hzp e
    have e := congrArg List.getLast? e
    rw [List.getLast?_append, hz, List.getLast?_append (l' := "_-_prep".toList), show "_-_prep".toList.getLast? = some 'p' from rfl,
      Option.some_or, Option.some_or] at e
    exact hzp (Option.some.inj e)
  unfold prepDirName at he
  cases ov <;> cases ov' <;> simp only [if_true, if_false, Bool.false_eq_true] at he
  · obtain ⟨h1, h2⟩ := prepSuffix_inj h h' (List.append_cancel_left he)
    exact ⟨h1, h2, rfl⟩
  · exact (mixed _ _ x hx hxp he).elim
  · exact (mixed _ _ y hy hyp he.symm).elim
  · obtain ⟨h1, h2⟩ := prepSuffix_inj h h' (List.append_cancel_left (List.append_cancel_right he))
    exact ⟨h1, h2, rfl⟩

/-- **C42** The same for vocabularies. -/
theorem C42_vocab (dn : Str) {c c' : PrepConfig} (h : c.Valid) (h' : c'.Valid) (cu cu' : Option (Str × Nat))
    (he : vocabDirName dn c cu = vocabDirName dn c' cu') : c = c' ∧ cu = cu' :=
  prepSuffix_inj h h' (List.append_cancel_left he)

/-- **C42** Merges that are learnt with different settings for word ends or unicode are stored under different names. -/
theorem C42_bpe (dn : Str) {b b' : BpeConfig} (h : IsBpeConfig b) (h' : IsBpeConfig b')
    (he : bpeDirName dn (some b) = bpeDirName dn (some b')) : b.wordEnd = b'.wordEnd ∧ b.unicode = b'.unicode ∧ b.case = b'.case := by
  have hs : b.toSuffix = b'.toSuffix := by
    unfold bpeDirName at he
    simp only [pyJoin] at he
    split at he <;> split at he
    · next h1 h2 => rw [h1, h2]
    · next h1 h2 => have := congrArg List.length he; simp at this
    · next h1 h2 => have := congrArg List.length he; simp at this
    · simpa using he
  have e1 := fromSuffix_toSuffix h [] (.inl rfl)
  have e2 := fromSuffix_toSuffix h' [] (.inl rfl)
  rw [hs, e2] at e1
  have e := Except.ok.inj e1
  simp only [BpeConfig.mk.injEq] at e
  exact ⟨e.2.1.symm, e.2.2.2.symm, e.1.symm⟩

/-- **C42, partial** For different datasets: the name of the dataset, its timestamp and the extensions can be read from the name of
the directory, if the extensions have no underscores and do not look like timestamps. -/
theorem C42_datasets_partial {path path' ts ts' : Str} {exts exts' : Option (List Str)} (ht : IsTimestamp ts) (ht' : IsTimestamp ts')
    (hx : PlainExts (exts.getD [])) (hx' : PlainExts (exts'.getD [])) (he : datasetDirName path ts exts = datasetDirName path' ts' exts') :
    basename path = basename path' ∧ ts = ts' ∧ exts.getD [] = exts'.getD [] := by
  rw [datasetDirName_eq, datasetDirName_eq] at he
  have hsplit : ∀ (B t : Str) (l : List Str), IsTimestamp t → PlainExts l →
      pySplit '_' (B ++ '_' :: pyJoin ['_'] (t :: l)) = pySplit '_' B ++ t :: l := by
    intro B t l h hl
    rw [pySplit_append, pySplit_pyJoin (by simp)]
    intro p hp
    rcases List.mem_cons.mp hp with rfl | hp
    · exact timestamp_no_underscore h
    · exact (hl p hp).1
  have e := congrArg (pySplit '_') he
  rw [hsplit _ _ _ ht hx, hsplit _ _ _ ht' hx'] at e
  obtain ⟨e1, e2, e3⟩ := last_unique (P := IsTimestamp) ht ht' (fun e h => (hx e h).2) (fun e h => (hx' e h).2) e
  refine ⟨?_, e2, e3⟩
  rw [← pyJoin_pySplit '_' (basename path), e1, pyJoin_pySplit]

/-- **C42** Without merges, no two pairs of a name of a dataset and a configuration share a directory. -/
theorem C42_no_merges {dn dn' : Str} {c c' : PrepConfig} (h : c.Valid) (h' : c'.Valid)
    (he : prepDirName dn c none false = prepDirName dn' c' none false) : dn = dn' ∧ c = c' := by
  unfold prepDirName at he
  simp only [prepSuffix, Bool.false_eq_true, if_false] at he
  obtain ⟨h1, h2⟩ := List.append_inj' he (by rw [toStr_length h, toStr_length h'])
  exact ⟨List.append_cancel_right h1, toStr_inj h h' h2⟩

def demoTs : Str := "19-05-13T10-11-12".toList

theorem demoTs_is : IsTimestamp demoTs := ⟨'1', '9', '0', '5', '1', '3', '1', '0', '1', '1', '1', '2', rfl, by decide⟩

theorem not_timestamp_of_length {e : Str} (h : e.length ≠ 17) : ¬ IsTimestamp e := by
  rintro ⟨a, b, c, d, e, f, g, h', i, j, k, l, rfl, _⟩
  exact h rfl

example : IsTimestamp demoTs ∧ PlainExts ["java".toList, "py".toList] ∧
    datasetDirName "/x/my_proj".toList demoTs (some ["java".toList, "py".toList]) = "my_proj_19-05-13T10-11-12_java_py".toList := by
  refine ⟨demoTs_is, ?_, by decide⟩
  intro e he
  simp only [List.mem_cons, List.not_mem_nil, or_false] at he
  rcases he with rfl | rfl
  · exact ⟨by decide, not_timestamp_of_length (by decide)⟩
  · exact ⟨by decide, not_timestamp_of_length (by decide)⟩

example : prepDirName "p".toList ⟨['u'], ['0'], ['E'], ['4'], ['s'], ['u']⟩ (some ("id".toList, 10)) true = "p_-_u0E4su_id-10_-_prep".toList := by
  decide

example : (⟨['u'], ['0'], ['E'], ['4'], ['s'], ['u']⟩ : PrepConfig).Valid :=
  (valid_iff_code _ _ _ _ _ _).mpr ⟨_, _, _, _, _, _, rfl, by decide, by decide, by decide, by decide, by decide +kernel, by decide +kernel⟩

/-- **C42, the missing part is false** Datasets with the same name in different places that were changed in the same second share
a directory. -/
theorem C42_basename_violated : "/x/proj".toList ≠ "/y/proj".toList ∧ IsTimestamp demoTs ∧
    datasetDirName "/x/proj".toList demoTs none = datasetDirName "/y/proj".toList demoTs none := ⟨by decide, demoTs_is, by decide⟩

/-- **C42, the missing part is false** With a slash at the end of the path the name of the dataset is empty. -/
theorem C42_slash_violated : IsTimestamp demoTs ∧
    datasetDirName "/x/proj/".toList demoTs none = datasetDirName "/y/other/".toList demoTs none := ⟨demoTs_is, by decide⟩

/-- **C42, the missing part is false** One extension with an underscore cannot be told from two extensions. -/
theorem C42_extension_violated : IsTimestamp demoTs ∧ datasetDirName "/x/proj".toList demoTs (some ["b_c".toList]) =
    datasetDirName "/x/proj".toList demoTs (some ["b".toList, "c".toList]) := ⟨demoTs_is, by decide⟩

/-! ## C43 -/

/-- **C43, partial** From the name of the directory with merges, the directory with the vocabulary from which they were learnt is
found, if the name of the dataset contains neither `_-_` nor a line break. -/
theorem C43_base_dir_partial {dn : Str} {b : BpeConfig} (hb : IsBpeConfig b) (hn : '\n' ∉ dn) (ha : Absent "_-_".toList (dn ++ "_-".toList)) :
    getBaseVocabDirName (bpeDirName dn (some b)) = .ok (baseBpeVocabDirName dn b) := by
  have ha' : Absent "_-_".toList dn := by
    rintro ⟨p, q, e⟩
    exact ha ⟨p, q ++ "_-".toList, by rw [e]; simp only [List.append_assoc]⟩
  have key : matchBpeDir (bpeDirName dn (some b)) = some (dn, if b.toSuffix = [] then [] else "_-_".toList ++ b.toSuffix) := by
    unfold bpeDirName matchBpeDir
    simp only
    by_cases h : b.toSuffix = []
    · rw [if_pos h, if_pos h, if_neg hn, cutSep_none _ ha']
    · rw [if_neg h, if_neg h]
      have e : pyJoin "_-_".toList [dn, b.toSuffix] = dn ++ "_-_".toList ++ b.toSuffix := by simp [pyJoin]
      rw [e, if_neg, cutSep_sep _ _ ha]
      intro hm
      rcases List.mem_append.mp hm with hm | hm
      · rcases List.mem_append.mp hm with hm | hm
        · exact hn hm
        · revert hm; decide
      · exact newline_not_suffix hb hm
  have hf : BpeConfig.fromSuffix (if b.toSuffix = [] then [] else "_-_".toList ++ b.toSuffix) = .ok { b with base := "code".toList } := by
    by_cases h : b.toSuffix = []
    · rw [if_pos h]
      have := fromSuffix_toSuffix hb [] (.inl rfl)
      rw [h] at this
      exact this
    · rw [if_neg h]
      exact fromSuffix_toSuffix hb _ (.inr rfl)
  unfold getBaseVocabDirName
  rw [key]
  simp only [hf, bind, Except.bind]
  rfl

/-- **C43** The suffix keeps everything but the kind of files. -/
theorem C43_suffix_partial {b : BpeConfig} (hb : IsBpeConfig b) :
    ∃ b', BpeConfig.fromSuffix b.toSuffix = .ok b' ∧ b'.case = b.case ∧ b'.wordEnd = b.wordEnd ∧ b'.unicode = b.unicode ∧
      b'.toSuffix = b.toSuffix ∧ b'.toPrepConfig = b.toPrepConfig :=
  ⟨_, fromSuffix_toSuffix hb [] (.inl rfl), rfl, rfl, rfl, rfl, rfl⟩

/-- **C43** The configurations with which texts for learning merges are prepared are recognised. -/
theorem C43_base_config (c : PrepConfig) (h : c.Valid) : c.isBaseBpeConfig = true ↔ ∃ b, IsBpeConfig b ∧ b.toPrepConfig = c := by
  constructor
  · intro hb
    have he := h.enOnly
    obtain ⟨c1, c2, c3, c4, c5, c6⟩ := c
    simp only [PrepConfig.isBaseBpeConfig, Bool.and_eq_true, decide_eq_true_eq] at hb
    obtain ⟨⟨⟨⟨rfl, rfl⟩, rfl⟩, rfl⟩, rfl⟩ := hb
    simp [possibleParamValues] at he
    rcases he with rfl | rfl
    · exact ⟨⟨"yes".toList, false, "code".toList, "yes".toList⟩, (isBpeConfig_iff _).mpr (by decide), rfl⟩
    · exact ⟨⟨"yes".toList, false, "code".toList, "no".toList⟩, (isBpeConfig_iff _).mpr (by decide), rfl⟩
  · rintro ⟨b, _, rfl⟩
    unfold BpeConfig.toPrepConfig PrepConfig.isBaseBpeConfig
    rfl

/-- **C43** That configuration leaves out characters that are not ASCII only if the merges do. -/
theorem C43_base_unicode (b : BpeConfig) : b.toPrepConfig.enOnly = ['U'] ↔ b.unicode = "no".toList := by
  unfold BpeConfig.toPrepConfig
  by_cases h : b.unicode = "no".toList <;> simp [h]

example : IsBpeConfig ⟨"yes".toList, true, "java".toList, "no".toList⟩ ∧
    bpeDirName "p_1".toList (some ⟨"yes".toList, true, "java".toList, "no".toList⟩) = "p_1_-_we_nounicode".toList ∧
    getBaseVocabDirName "p_1_-_we_nounicode".toList = .ok "p_1_-_U0EFsu".toList :=
  ⟨(isBpeConfig_iff _).mpr (by decide), by decide +kernel, by decide +kernel⟩

example : '\n' ∉ "p_1".toList ∧ Absent "_-_".toList ("p_1".toList ++ "_-".toList) := by
  refine ⟨by decide, ?_⟩
  intro h
  have := cutSep_none "p_1_-".toList
  obtain ⟨p, q, e⟩ := h
  have hp : p.length + q.length = 2 := by have := congrArg List.length e; simp at this; omega
  match p, hp with
  | [], _ => simp at e
  | [_], _ => simp at e
  | [_, _], _ => simp at e
  | _ :: _ :: _ :: _, hp => simp at hp; omega

/-- **C43, the missing part is false** If the name of the dataset contains `_-_`, another directory is found. -/
theorem C43_separator_violated : ∃ d, getBaseVocabDirName (bpeDirName "a_-_b".toList (some ⟨"yes".toList, false, "code".toList, "yes".toList⟩)) = .ok d ∧
    d ≠ baseBpeVocabDirName "a_-_b".toList ⟨"yes".toList, false, "code".toList, "yes".toList⟩ :=
  ⟨"a_-_u0EFsu".toList, by decide +kernel, by decide +kernel⟩

/-- **C43, the missing part is false** What follows `_-_` in the name may even be taken for a setting that is not supported. -/
theorem C43_setting_violated :
    getBaseVocabDirName (bpeDirName "a_-_prefix".toList (some ⟨"yes".toList, false, "code".toList, "yes".toList⟩)) = .error .valueError := by decide +kernel

/-- **C43, the missing part is false** A name with a line break is not recognised. -/
theorem C43_newline_violated :
    getBaseVocabDirName (bpeDirName "a\nb".toList (some ⟨"yes".toList, false, "code".toList, "yes".toList⟩)) = .error .valueError := by decide +kernel

/-- **C43, the missing part is false** The kind of files is not kept by the suffix. -/
theorem C43_base_violated : IsBpeConfig ⟨"yes".toList, false, "java".toList, "yes".toList⟩ ∧
    BpeConfig.fromSuffix (BpeConfig.toSuffix ⟨"yes".toList, false, "java".toList, "yes".toList⟩) ≠ .ok ⟨"yes".toList, false, "java".toList, "yes".toList⟩ :=
  ⟨(isBpeConfig_iff _).mpr (by decide), by decide +kernel⟩

end Verif.Props
