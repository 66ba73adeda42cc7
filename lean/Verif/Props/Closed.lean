import Verif.Proofs.Closed
/-!
# The number of different tokens (C78)
-/
namespace Verif.Props
open Verif Spec

theorem bpe_load {load : Str → Except PyErr BpeData} {call : ApiCall} {i : Str} {d : BpeData} (hi : apiBpeCodesId call = some i) (hne : i ≠ [])
    (hd : load i = .ok d) (hc : CacheOk d) : ∀ j, apiBpeCodesId call = some j → j ≠ [] ∧ ∃ d, load j = .ok d ∧ CacheOk d := by
  intro j hj
  rw [hi] at hj
  cases hj
  exact ⟨hne, d, hd, hc⟩

theorem bpe_mode {env : Env} {load : Str → Except PyErr BpeData} {call : ApiCall} {i : Str} {d : BpeData} (hi : apiBpeCodesId call = some i)
    (hd : load i = .ok d) {m : Mode} (h : ModeOf env load call m) : m = .bpe d ∧ usesBpe call = true ∧ (pieceOpts call).literals = .bpe := by
  cases h with
  | nosplit => cases hi
  | basic => cases hi
  | chars h => cases hi; rw [h] at hd; cases hd; exact ⟨rfl, rfl, rfl⟩
  | bpe h => cases hi; rw [h] at hd; cases hd; exact ⟨rfl, rfl, rfl⟩

/-- The tokens of a text if the tokens of its words are known. -/
theorem known_tokens (env : Env) (hu : env.ucd.Laws) (load : Str → Except PyErr BpeData) (call : ApiCall) {i : Str} {d d' : BpeData}
    (hi : apiBpeCodesId call = some i) (hne : i ≠ []) (hd : load i = .ok d) (hc : CacheOk d) {A : List Char} {K : List Str}
    (hA : Alphabet env.ucd A) (hk : ∀ w l, (∀ c ∈ w, c ∈ A) → getBpeSubwords w d = .ok l → ∀ t ∈ markEnd l, KnownToken d' A K t)
    (lexed : List (TokType × Str)) (hw : WrittenIn A K lexed) (eof : Bool) :
    ∃ out md, textApi env load call lexed eof = .ok (out, md) ∧ ∀ t ∈ out, KnownToken d' A K t := by
  obtain ⟨m, ps, us, h1, h2, h3, h4⟩ := C56_any env hu load call (bpe_load hi hne hd hc) lexed eof
  obtain ⟨rfl, hb, ho⟩ := bpe_mode hi hd h1
  refine ⟨_, _, h4, ?_⟩
  intro t ht
  simp only [hb, if_true] at ht
  obtain ⟨x, hx, ht⟩ := List.mem_flatMap.mp ht
  exact spelledAll_known hA hk h3 (finish_in eof (describedAnyAll_in hu hA ho h2 hw)) x hx t ht

/-- **C78** Every token that `bpe` and `chars` deliver is a character, what a merge makes, a part of a stored word, an operator or a keyword of
the text, or one of few fixed texts. -/
theorem C78_tokens (env : Env) (hu : env.ucd.Laws) (load : Str → Except PyErr BpeData) (call : ApiCall) {i : Str} {d : BpeData}
    (hi : apiBpeCodesId call = some i) (hne : i ≠ []) (hd : load i = .ok d) (hc : CacheOk d) {A : List Char} {K : List Str}
    (hA : Alphabet env.ucd A) (lexed : List (TokType × Str)) (hw : WrittenIn A K lexed) (eof : Bool) :
    ∃ out md, textApi env load call lexed eof = .ok (out, md) ∧ ∀ t ∈ out, KnownToken d A K t :=
  known_tokens env hu load call hi hne hd hc hA (fun _ _ => known_word) lexed hw eof

/-- **C78** Stored words make no difference if every one of them is stored as it would be split. -/
theorem C78_stored (env : Env) (hu : env.ucd.Laws) (load : Str → Except PyErr BpeData) (call : ApiCall) {i : Str} {d : BpeData}
    (hi : apiBpeCodesId call = some i) (hne : i ≠ []) (hd : load i = .ok d) (hc : CacheOk d)
    (hg : ∀ w l, d.cache.get? w = some l → encodeWord w d.merges = .ok l) {A : List Char} {K : List Str}
    (hA : Alphabet env.ucd A) (lexed : List (TokType × Str)) (hw : WrittenIn A K lexed) (eof : Bool) :
    ∃ out md, textApi env load call lexed eof = .ok (out, md) ∧ ∀ t ∈ out, KnownToken ⟨[], d.merges⟩ A K t :=
  known_tokens env hu load call hi hne hd hc hA (fun _ _ => known_genuine hg) lexed hw eof

/-- All known tokens. -/
def knownTokens (d : BpeData) (A : List Char) (K : List Str) : List Str :=
  A.map (fun c => [c]) ++ A.map (fun c => c :: "</t>".toList) ++ d.merges.map (fun e => symbolToken (e.1.1 ++ e.1.2)) ++
    d.cache.flatMap (fun e => storedTokens e.2) ++ K.map (· ++ "</t>".toList) ++ fixedTexts.map (· ++ "</t>".toList) ++
    ["\"".toList, "</t>".toList, []]

theorem mem_of_get? {α β : Type} [DecidableEq α] {d : Dict α β} {k : α} {v : β} (h : d.get? k = some v) : (k, v) ∈ d := by
  induction d with
  | nil => cases h
  | cons e r ih =>
    obtain ⟨k', v'⟩ := e
    unfold Dict.get? at h
    split at h
    · next hk => cases h; rw [hk]; simp
    · simp [ih h]

theorem known_mem {d : BpeData} {A : List Char} {K : List Str} {t : Str} (h : KnownToken d A K t) : t ∈ knownTokens d A K := by
  unfold knownTokens
  simp only [List.mem_append, List.mem_map, List.mem_flatMap]
  cases h with
  | char h => exact .inl (.inl (.inl (.inl (.inl (.inl ⟨_, h, rfl⟩)))))
  | single h => exact .inl (.inl (.inl (.inl (.inl (.inr ⟨_, h, rfl⟩)))))
  | @merge p k h =>
    unfold MergeList.priority? at h
    obtain ⟨v, hv, -⟩ := Option.map_eq_some_iff.mp h
    exact .inl (.inl (.inl (.inl (.inr ⟨_, mem_of_get? hv, rfl⟩))))
  | stored h ht => exact .inl (.inl (.inl (.inr ⟨_, mem_of_get? h, ht⟩)))
  | whole h => exact .inl (.inl (.inr ⟨_, h, rfl⟩))
  | fixed h => exact .inl (.inr ⟨_, h, rfl⟩)
  | quote => exact .inr (by simp)
  | ending => exact .inr (by simp)
  | empty => exact .inr (by simp)

theorem stored_length (l : List Str) : (storedTokens l).length = l.length := by
  induction l using storedTokens.induct with
  | case1 => rfl
  | case2 => rfl
  | case3 x y r ih => simp only [storedTokens, List.length_cons] at ih ⊢; rw [ih]

theorem known_length (d : BpeData) (A : List Char) (K : List Str) :
    (knownTokens d A K).length = 2 * A.length + d.merges.length + (d.cache.map fun e => e.2.length).sum + K.length + 10 := by
  unfold knownTokens
  simp only [List.length_append, List.length_map, List.length_flatMap, stored_length]
  simp [fixedTexts]
  omega

/-- **C78** However many texts there are: if they are written with the characters `A` and the operators and keywords `K`, there are at most
`2 * |A| + |K| + 10` different tokens apart from one for every merge and one for every part of a stored word. -/
theorem C78_bounded (env : Env) (hu : env.ucd.Laws) (load : Str → Except PyErr BpeData) (call : ApiCall) {i : Str} {d : BpeData}
    (hi : apiBpeCodesId call = some i) (hne : i ≠ []) (hd : load i = .ok d) (hc : CacheOk d) {A : List Char} {K : List Str}
    (hA : Alphabet env.ucd A) (texts : List (List (TokType × Str) × Bool)) (hw : ∀ x ∈ texts, WrittenIn A K x.1)
    {V : List Str} (hV : V.Nodup) (hV' : ∀ t ∈ V, ∃ x ∈ texts, ∃ out md, textApi env load call x.1 x.2 = .ok (out, md) ∧ t ∈ out) :
    V.length ≤ 2 * A.length + K.length + 10 + d.merges.length + (d.cache.map fun e => e.2.length).sum := by
  have h : V.length ≤ (knownTokens d A K).length := by
    refine hV.length_le_of_subset ?_
    intro t ht
    obtain ⟨x, hx, out, md, h1, h2⟩ := hV' t ht
    obtain ⟨out', md', h3, h4⟩ := C78_tokens env hu load call hi hne hd hc hA x.1 (hw x hx) x.2
    rw [h1] at h3
    cases h3
    exact known_mem (h4 t h2)
  rw [known_length] at h
  omega

/-- **C78** If the stored words are stored as they would be split, there is one token for every merge, and nothing for the stored words. -/
theorem C78_bounded_merges (env : Env) (hu : env.ucd.Laws) (load : Str → Except PyErr BpeData) (call : ApiCall) {i : Str} {d : BpeData}
    (hi : apiBpeCodesId call = some i) (hne : i ≠ []) (hd : load i = .ok d) (hc : CacheOk d)
    (hg : ∀ w l, d.cache.get? w = some l → encodeWord w d.merges = .ok l) {A : List Char} {K : List Str}
    (hA : Alphabet env.ucd A) (texts : List (List (TokType × Str) × Bool)) (hw : ∀ x ∈ texts, WrittenIn A K x.1)
    {V : List Str} (hV : V.Nodup) (hV' : ∀ t ∈ V, ∃ x ∈ texts, ∃ out md, textApi env load call x.1 x.2 = .ok (out, md) ∧ t ∈ out) :
    V.length ≤ 2 * A.length + K.length + 10 + d.merges.length := by
  have h : V.length ≤ (knownTokens ⟨[], d.merges⟩ A K).length := by
    refine hV.length_le_of_subset ?_
    intro t ht
    obtain ⟨x, hx, out, md, h1, h2⟩ := hV' t ht
    obtain ⟨out', md', h3, h4⟩ := C78_stored env hu load call hi hne hd hc hg hA x.1 (hw x hx) x.2
    rw [h1] at h3
    cases h3
    exact known_mem (h4 t h2)
  rw [known_length] at h
  simp at h
  omega

/-! ## The other functions -/

/-- Functions that keep words whole, up to their parts. -/
inductive KeepsWords : ApiCall → Prop
  | nosplit {o fs} : KeepsWords (.nosplit o fs)
  | basic {o sn nc} : KeepsWords (.basic o sn false false nc)

theorem reps_upper {u : Ucd} (hu : u.Laws) (n : Nat) : u.isUpper (List.replicate (n + 1) 'z') = false := by
  unfold Ucd.isUpper
  have : u.lower 'z' = true := by rw [hu.lower_ascii 'z' (by decide)]; decide
  simp [List.replicate_succ, this]

theorem reps_lower {u : Ucd} (hu : u.Laws) (n : Nat) : u.isLower (List.replicate (n + 1) 'z') = true := by
  unfold Ucd.isLower
  have h1 : u.lower 'z' = true := by rw [hu.lower_ascii 'z' (by decide)]; decide
  have h2 : u.upper 'z' = false := by rw [hu.upper_ascii 'z' (by decide)]; decide
  have h3 : u.title 'z' = false := hu.title_ascii 'z' (by decide)
  simp [h1, h2, h3]

theorem reps_number (n : Nat) : ¬ IsNumber (List.replicate (n + 1) 'z') := by
  have digits : ∀ (g r : Str), g ≠ [] → (∀ c ∈ g, asciiDigit c = true) → List.replicate (n + 1) 'z' ≠ g ++ r := by
    intro g r hg hd e
    cases g with
    | nil => exact hg rfl
    | cons c g =>
      rw [List.replicate_succ, List.cons_append] at e
      have hc := hd c (by simp)
      rw [← (List.cons.inj e).1] at hc
      revert hc
      decide
  have only : ∀ c ∈ List.replicate (n + 1) 'z', c = 'z' := fun c hc => (List.mem_replicate.mp hc).2
  intro h
  generalize hs : List.replicate (n + 1) 'z' = s at h
  cases h with
  | hex _ _ | bin _ _ => rw [List.replicate_succ] at hs; exact absurd (List.cons.inj hs).1 (by decide)
  | dec h _ =>
    cases h with
    | one h1 h2 => exact digits _ _ h1 h2 hs
    | more h1 h2 _ => rw [List.append_assoc] at hs; exact digits _ _ h1 h2 hs
  | point _ _ _ _ _ => exact absurd (only '.' (by rw [hs]; simp)) (by decide)
  | exp h1 h2 _ _ => exact digits _ _ h1 h2 hs

/-- **C78** There is no such bound for the other functions: whatever tokens are known, some word of the letter `z` alone gives another one. -/
theorem C78_open (env : Env) (hu : env.ucd.Laws) (load : Str → Except PyErr BpeData) {call : ApiCall} (hk : KeepsWords call) (known : List Str) :
    ∃ n out md, textApi env load call [(["Name"], List.replicate (n + 1) 'z')] false = .ok (out, md) ∧ ∃ t ∈ out, t ∉ known := by
  have hn : ∃ n, List.replicate (n + 1) 'z' ∉ known := by
    refine ⟨known.flatten.length, fun h => ?_⟩
    have := (List.sublist_flatten_of_mem h).length_le
    simp at this
    omega
  obtain ⟨n, hn⟩ := hn
  have hw : ∀ c ∈ List.replicate (n + 1) 'z', c = 'z' := fun c hc => (List.mem_replicate.mp hc).2
  have rw' : env.ucd.reWord 'z' = true := by rw [hu.reWord_ascii 'z' (by decide)]; decide
  have sp : env.ucd.space 'z' = false := by rw [hu.space_ascii 'z' (by decide)]; decide
  have rl : env.ucd.reLower 'z' = true := by rw [hu.reLower_ascii 'z' (by decide)]; decide
  have hr : recased env.ucd (List.replicate (n + 1) 'z') = List.replicate (n + 1) 'z' := by
    have e := List.replicate_succ (n := n) (a := 'z')
    unfold recased
    rw [e]
    simp only
    rw [← e, reps_upper hu, reps_lower hu]
    simp
  have hp : codePiece env.ucd (List.replicate (n + 1) 'z') = ⟨.splitContainer, List.replicate (n + 1) 'z', .word⟩ := by
    have h1 : ∀ c, c ≠ 'z' → ∀ s : Str, List.replicate (n + 1) 'z' ≠ c :: s := by
      intro c hc s e
      rw [List.replicate_succ] at e
      cases e
      exact hc rfl
    unfold codePiece
    rw [if_neg (show ¬ List.replicate (n + 1) 'z' = "\n".toList from h1 '\n' (by decide) []), if_neg, if_neg (reps_number n), if_pos]
    · exact ⟨by simp, fun c hc => by rw [hw c hc]; exact rw'⟩
    · rintro (h | h)
      · exact h1 '\t' (by decide) _ h
      · exact h1 ' ' (by decide) _ h
  have hi : IdentSplit env.ucd (List.replicate (n + 1) 'z') [List.replicate (n + 1) 'z'] := by
    have := IdentSplit.lower (u := env.ucd) (l := List.replicate (n + 1) 'z') (r := []) (ps := []) (by simp)
      (fun c hc => by rw [hw c hc]; exact rl) (by intro c h; cases h) .nil
    simpa using this
  have ht : TextSplit env.ucd (List.replicate (n + 1) 'z') [List.replicate (n + 1) 'z'] := by
    have := TextSplit.word (u := env.ucd) (w := List.replicate (n + 1) 'z') (r := []) (ps := []) (by simp)
      (fun c hc => by rw [hw c hc]; exact rw') (by intro c h; cases h) .nil
    simpa using this
  have hd : DescribedAnyAll env.ucd (optsOf call).noUnicode (pieceOpts call) [(["Name"], List.replicate (n + 1) 'z')]
      [⟨.splitContainer, List.replicate (n + 1) 'z', .word⟩] := by
    refine .cons (ps := [_]) (.words ⟨'z', by simp, sp⟩ rfl ht (.cons ?_ .nil)) .nil
    rw [← hp]
    refine .plain fun _ _ c hc => ?_
    rw [hw c hc]
    decide
  have hf : finishPieces false [⟨.splitContainer, List.replicate (n + 1) 'z', .word⟩] = [⟨.splitContainer, List.replicate (n + 1) 'z', .word⟩] := rfl
  have hl : ∀ j, apiBpeCodesId call = some j → j ≠ [] ∧ ∃ d, load j = .ok d ∧ CacheOk d := by
    intro j hj
    cases hk <;> cases hj
  have hs : ∃ m, ModeOf env load call m ∧ SpelledAny env.ucd m ⟨.splitContainer, List.replicate (n + 1) 'z', .word⟩ [List.replicate (n + 1) 'z'] := by
    cases hk with
    | nosplit =>
      refine ⟨_, .nosplit, ?_⟩
      have := SpelledAny.wordWhole (ty := .splitContainer) hi
      simpa [hr] using this
    | @basic o sn nc =>
      refine ⟨_, .basic, ?_⟩
      have := SpelledAny.wordBasic (ty := .splitContainer) (sn := (sn || false || false)) (f := wordParts env false false) (nc := nc) hi
      have e : markAny env.ucd (wordParts env false false) nc (List.replicate (n + 1) 'z') = [List.replicate (n + 1) 'z'] := by
        have e := List.replicate_succ (n := n) (a := 'z')
        have hlp : loweredPiece env.ucd (List.replicate (n + 1) 'z') = ([], List.replicate (n + 1) 'z') := by
          unfold loweredPiece
          rw [e]
          simp only
          rw [← e, reps_upper hu, reps_lower hu]
          simp
        unfold markAny
        rw [if_neg (by rw [e]; simp), hlp, hr]
        cases nc <;> rfl
      simp only [List.flatMap_cons, List.flatMap_nil, e] at this
      exact this
  obtain ⟨m, hm, hs⟩ := hs
  refine ⟨n, _, _, C56_any_unique env hu load call hl _ false hm hd (by rw [hf]; exact .cons (.inr (by simp)) hs .nil), List.replicate (n + 1) 'z', ?_, hn⟩
  have : usesBpe call = false := by cases hk <;> rfl
  simp [this]

/-! ## Examples -/

/-- The characters of ASCII texts. -/
def asciiAlphabet : List Char := (List.range 128).map Char.ofNat ++ ['\u00a0', '÷']

theorem asciiAlphabet_ok : Alphabet asciiUcd asciiAlphabet := by
  have h1 : ∀ c ∈ asciiAlphabet, asciiToLower c ∈ asciiAlphabet := by decide +kernel
  have h2 : ∀ c ∈ asciiAlphabet, asciiToUpper c ∈ asciiAlphabet := by decide +kernel
  have m : ∀ f : Char → Char, (∀ c ∈ asciiAlphabet, f c ∈ asciiAlphabet) → ∀ s : Str, (∀ c ∈ s, c ∈ asciiAlphabet) →
      ∀ c ∈ s.map f, c ∈ asciiAlphabet := by
    intro f hf s hs c hc
    obtain ⟨e, he, rfl⟩ := List.mem_map.mp hc
    exact hf e (hs e he)
  refine ⟨by decide +kernel, by decide +kernel, m _ h1, m _ h2, ?_⟩
  intro s hs
  cases s with
  | nil => intro c hc; cases hc
  | cons a r =>
    intro c hc
    rcases List.mem_cons.mp hc with rfl | hc
    · exact h2 a (hs a (by simp))
    · exact m _ h1 r (fun c hc => hs c (by simp [hc])) c hc

/-- Two merges: `a` and `b`, and then `ab` and the end of the word; and a word that is stored. -/
def closedData : BpeData := ⟨[("abc@".toList, ["ab".toList, "c@".toList])], [(("a".toList, "b".toList), (some 2, 0)), (("ab".toList, "@".toList), (some 1, 1))]⟩

/-- Non-vacuity of C78: `xab = abc` is delivered as `x`, `ab</t>`, `=</t>`, `ab`, `c</t>`, and all hypotheses hold. -/
example : (∃ md, textApi demoEnv (fun _ => .ok closedData) (.bpe "x-2".toList {})
      [(["Name"], "xab".toList), (["Text"], " ".toList), (["Operator"], "=".toList), (["Text"], " ".toList), (["Name"], "abc".toList)] false =
      .ok (["x".toList, "ab</t>".toList, "=</t>".toList, "ab".toList, "c</t>".toList], md)) ∧ CacheOk closedData ∧
    WrittenIn asciiAlphabet ["=".toList]
      [(["Name"], "xab".toList), (["Text"], " ".toList), (["Operator"], "=".toList), (["Text"], " ".toList), (["Name"], "abc".toList)] := by
  refine ⟨⟨_, by rfl⟩, ?_, ?_⟩
  · intro w l h
    unfold closedData Dict.get? at h
    split at h
    · cases h
      exact ⟨"c@".toList, rfl, rfl⟩
    · cases h
  · unfold WrittenIn
    decide +kernel

end Verif.Props
