import Verif.Proofs.BpeEncode
/-!
# Properties of BPE encoding (C01 - C04)
-/
namespace Verif.Props
open Verif Spec

/-- **C01** BPE splitting never fails on a word without ASCII spaces that is not in the cache, and the concatenation of
the subwords is the word.  No subword is empty except possibly the last one (it carries the end-of-token mark). -/
theorem C01_bpe_lossless (w : Str) (d : BpeData) (hs : ' ' ∉ w) (hc : d.cache.get? (escape w true) = none) :
    ∃ subwords, getBpeSubwords w d = .ok subwords ∧ subwords.flatten = w ∧ subwords ≠ [] ∧
      ∀ s ∈ subwords.dropLast, s ≠ [] := by
  obtain ⟨v, r, _, _, h, hf, hn, h0, _⟩ := getBpeSubwords_miss w d hs hc
  exact ⟨v, by simp [getBpeSubwords, h, Except.map], hf, h0, hn⟩

/-- Non-vacuity of C01: a word made of escape characters, with a merge of the escaped character and the end mark. -/
example : getBpeSubwords "@a@@".toList ⟨[], [(("@@".toList, "@".toList), (none, 0)), (("a".toList, "@@".toList), (none, 1))]⟩
    = .ok ["@".toList, "a@".toList, "@".toList] := by decide

/-- **C02** The encoder reaches, by BPE steps of smallest rank, a list of symbols without any mergeable neighbours. -/
theorem C02_bpe_greedy_normal_form (w : Str) (m : MergeList) (hs : ' ' ∉ w) (hm : RanksOk m) :
    ∃ r, encodeWord (escape w true) m = .ok r ∧ Steps m.priority? (initialSymbols w) r ∧ Final m.priority? r := by
  obtain ⟨r, h1, _, h2⟩ := encodeWord_escape w m hs
  exact ⟨r, h1, encodeLoop_steps hm _ _ _ h2⟩

/-- `Spec.Step` is deterministic when ranks are distinct, so C02 determines the result uniquely. -/
theorem C02_spec_deterministic (m : MergeList) (hm : RanksOk m) (s t u : List Str)
    (h1 : Step m.priority? s t) (h2 : Step m.priority? s u) : t = u := by
  obtain ⟨p, k, hk, ha, hmin, rfl⟩ := h1
  obtain ⟨q, k', hk', ha', hmin', rfl⟩ := h2
  have e1 := hmin q k' hk' ha'
  have e2 := hmin' p k hk ha
  have : k = k' := by omega
  subst this
  rw [hm.inj p q k hk hk']

/-- Uniqueness of the normal form. -/
theorem C02_normal_form_unique (m : MergeList) (hm : RanksOk m) (s r r' : List Str)
    (h1 : Steps m.priority? s r) (h2 : Steps m.priority? s r') (f1 : Final m.priority? r) (f2 : Final m.priority? r') :
    r = r' := by
  induction h1 generalizing r' with
  | refl s =>
    cases h2 with
    | refl => rfl
    | head hst _ => obtain ⟨p, k, hk, ha, _⟩ := hst; rw [f1 p ha] at hk; simp at hk
  | head hst hsts ih =>
    cases h2 with
    | refl => obtain ⟨p, k, hk, ha, _⟩ := hst; rw [f2 p ha] at hk; simp at hk
    | head hst' hsts' =>
      have := C02_spec_deterministic m hm _ _ _ hst hst'
      subst this
      exact ih r' hsts' f1 f2

/-- Non-vacuity of C02: overlapping occurrences and competition of two merges. -/
example : encodeWord (escape "abaaa".toList true)
    [(("b".toList, "a".toList), (none, 0)), (("a".toList, "a".toList), (none, 1)), (("a".toList, "b".toList), (none, 2))]
    = .ok ["a".toList, "ba".toList, "aa".toList, "@".toList] := by decide

example : RanksOk [(("b".toList, "a".toList), (none, 0)), (("a".toList, "a".toList), (none, 1))] := by
  constructor
  · intro p q k h1 h2
    simp only [MergeList.priority?, Dict.get?] at h1 h2
    repeat' split at h1
    all_goals repeat' split at h2
    all_goals simp_all
    all_goals omega
  · intro p k h
    simp only [MergeList.priority?, Dict.get?] at h
    repeat' split at h
    all_goals simp_all [sysMaxsize]
    all_goals omega

/-- **C03** With no merges a word is split into its characters followed by one empty subword. -/
theorem C03_chars_split (w : Str) (hs : ' ' ∉ w) (cache : BpeCache) (hc : cache.get? (escape w true) = none) :
    getBpeSubwords w ⟨cache, []⟩ = .ok (w.map (fun c => [c]) ++ [[]]) := by
  obtain ⟨r, h1, _, h2⟩ := encodeWord_escape w [] hs
  have hm : RanksOk [] := ⟨by simp [MergeList.priority?, Dict.get?], by simp [MergeList.priority?, Dict.get?]⟩
  obtain ⟨hst, _⟩ := encodeLoop_steps hm _ _ _ h2
  have hr : r = initialSymbols w := by
    rw [unitsOf_eq_initialSymbols] at hst
    cases hst with
    | refl => rfl
    | head h _ => obtain ⟨p, k, hk, _⟩ := h; simp [MergeList.priority?, Dict.get?] at hk
  subst hr
  have hu : unescape (initialSymbols w) = .ok ((w.map fun c => [c]) ++ [[]], (w.map unitOf) ++ [[]]) := by
    simp only [initialSymbols, unescape, List.getLast?_append, List.getLast?_singleton, Option.some_or, escChar,
      ne_eq, not_true, if_false, List.dropLast_append_cons, List.dropLast_singleton, List.append_nil,
      List.map_append, List.map_map, List.map_cons, List.map_nil]
    congr 1
    simp only [Prod.mk.injEq]
    refine ⟨?_, rfl⟩
    congr 1
    apply List.map_congr_left
    intro c _
    simp only [Function.comp]
    have := undouble_units [c]
    simp only [List.map_cons, List.map_nil, List.flatten_cons, List.flatten_nil, List.append_nil] at this
    exact this
  simp [getBpeSubwords, getBpeSubwordsSt, hc, h1, hu, bind, Except.bind, Except.map]

example : getBpeSubwords "a@".toList ⟨[], []⟩ = .ok ["a".toList, "@".toList, []] := by decide

/-- **C04** is violated: looking up the same cached word twice raises on the second look-up. -/
theorem C04_cache_lookup_violated :
    ∃ (w : Str) (d d' : BpeData) (r : List Str),
      getBpeSubwordsSt w d = .ok (r, d') ∧ getBpeSubwordsSt w d' = .error .valueError := by
  refine ⟨"while".toList, ⟨[("while@".toList, ["while@".toList])], []⟩,
    ⟨[("while@".toList, ["while".toList])], []⟩, ["while".toList], by rfl, by rfl⟩

/-- The violation is not accidental: for every cached word that does not end in the escape character and whose
cached value is a genuine split of the word, the second look-up fails. -/
theorem C04_second_lookup_fails (w : Str) (d : BpeData) (entry : List Str)
    (hc : d.cache.get? (escape w true) = some entry) (hsplit : Coarsens entry (initialSymbols w))
    (hw : w.getLast? ≠ some '@') :
    ∃ r d', getBpeSubwordsSt w d = .ok (r, d') ∧ r.flatten = w ∧
      (getBpeSubwordsSt w d' = .error .valueError ∨ getBpeSubwordsSt w d' = .error .indexError) := by
  obtain ⟨v, md, hu, hf, hl, hne, hmd⟩ := unescape_coarse (w := w) hsplit
  refine ⟨v, { d with cache := d.cache.set (escape w true) md }, ?_, hf, ?_⟩
  · simp [getBpeSubwordsSt, hc, hu, bind, Except.bind]
  · have hv0 : v ≠ [] := by
      intro e; subst e; simp at hl
      exact (Spec.Coarsens.ne_nil hsplit (by simp [initialSymbols])) (List.length_eq_zero_iff.1 hl.symm)
    obtain ⟨vi, vl, rfl⟩ : ∃ vi vl, v = vi ++ [vl] := ⟨v.dropLast, v.getLast hv0, (List.dropLast_concat_getLast hv0).symm⟩
    have hlast : md.getLast? = some (vl.map unitOf).flatten := by rw [hmd]; simp
    simp only [getBpeSubwordsSt, Dict.get?_set, if_true, unescape, hlast]
    cases hvl : vl.getLast? with
    | none =>
      have : vl = [] := List.getLast?_eq_none_iff.1 hvl
      subst this
      right; rfl
    | some c =>
      have hcw : w.getLast? = some c := by
        rw [← hf]; simp only [List.flatten_append, List.flatten_cons, List.flatten_nil, List.append_nil]
        rw [List.getLast?_append, hvl]; rfl
      have hce : c ≠ '@' := by rintro rfl; exact hw hcw
      obtain ⟨vs, rfl⟩ := List.getLast?_eq_some_iff.1 hvl
      left
      have hunit : unitOf c = [c] := by simp [unitOf, escChar, hce]
      have : ((vs ++ [c]).map unitOf).flatten.getLast? = some c := by simp [hunit]
      rw [this]
      simp [escChar, hce, bind, Except.bind]

/-- **C04** (partial) What does hold: words that are not in the cache are split without changing the BPE data, so
any number of look-ups gives the same answer. Missing: cached words (see `C04_second_lookup_fails`). -/
theorem C04_uncached_lookup_repeatable_partial (w : Str) (d : BpeData) (hs : ' ' ∉ w)
    (hc : d.cache.get? (escape w true) = none) :
    ∃ r, getBpeSubwordsSt w d = .ok (r, d) := by
  obtain ⟨v, r, _, _, h, _⟩ := getBpeSubwords_miss w d hs hc
  exact ⟨v, h⟩

example : Dict.get? (β := List Str) [("while@".toList, ["while@".toList])] (escape "for".toList true) = none := by decide

end Verif.Props
