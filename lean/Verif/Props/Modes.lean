import Verif.Proofs.Modes
/-!
# All splitting modes deliver the same full tokens (C82)
-/
namespace Verif.Props
open Verif Spec

/-- **C82** Splitting with BPE only splits: `bpe` (and `chars`) delivers the same full tokens of the same types as `nosplit` with
`full_strings`.  There are groups of subtokens, whose bounds are in the metadata, and the subtokens of every group joined are the
token of `nosplit` with the mark of its end.  Without `no_unicode`; for string literals, white space and everything else too. -/
theorem C82_bpe_partial (env : Env) (hu : env.ucd.Laws) (hk : KeepsWhite env.ucd) (load : Str → Except PyErr BpeData) (call : ApiCall)
    {i : Str} {d : BpeData} (hi : apiBpeCodesId call = some i) (h0 : i ≠ []) (hd : load i = .ok d) (hc : CacheOk d)
    (hg : GenuineCache d) (hn : (optsOf call).noUnicode = false) (lexed : List (TokType × Str)) (hp : ∀ e ∈ lexed, PlainNumber e)
    (eof : Bool) :
    ∃ groups md out md', textApi env load call lexed eof = .ok (groups.flatten, md) ∧ md.bounds = boundsFrom 0 groups ∧
      textApi env load (.nosplit (optsOf call) true) lexed eof = .ok (out, md') ∧ md'.bounds = boundsFrom 0 (out.map fun t => [t]) ∧
      md'.types = md.types ∧ groups.map List.flatten = out.map (· ++ "</t>".toList) := by
  obtain ⟨m, ps, us, h1, h2, h3, h4⟩ := C56_any env hu load call
    (fun j hj => by rw [hi] at hj; cases hj; exact ⟨h0, d, hd, hc⟩) lexed eof
  have hm : m = .bpe d ∧ usesBpe call = true ∧ (pieceOpts call).literals = .bpe := by
    cases h1 with
    | nosplit => cases hi
    | basic => cases hi
    | chars h => cases hi; rw [hd] at h; cases h; exact ⟨rfl, rfl, rfl⟩
    | bpe h => cases hi; rw [hd] at h; cases h; exact ⟨rfl, rfl, rfl⟩
  obtain ⟨rfl, hb, hl⟩ := hm
  rw [hn] at h2
  have hfit : ∀ p ∈ finishPieces eof ps, Fit p ∧ (p.form = .quotes → p.text = "\"\"".toList) := by
    intro p hq
    rcases finish_mem hq with hq | rfl
    · exact describedAnyAll_fit hu hk hp h2 p hq
    · exact ⟨⟨by simp, by simp⟩, by simp⟩
  obtain ⟨⟨vs, g1, g2, g3⟩, g4⟩ := spelledAnyAll_full hk hg hfit h3
  rw [← finish_plainForm] at g1
  have k := C56_any_unique env hu load (.nosplit (optsOf call) true) nofun lexed eof .nosplit (ps := ps.map plainForm) (us := vs)
    (by rw [show (optsOf (.nosplit (optsOf call) true)).noUnicode = false from hn]; exact describedAnyAll_full hl h2) g1
  refine ⟨us.map fun x => markEnd x.subs, (flatForm us).2, us.map fun x => x.subs.flatten, (flatForm vs).2, ?_, ?_, ?_, ?_, g2, ?_⟩
  · rw [h4]
    unfold outputOf
    simp only [hb, if_true, List.flatMap_def]
  · exact boundsFrom_len (by simp [markEnd_len]) 0
  · rw [k]
    unfold outputOf
    simp only [usesBpe, Bool.false_eq_true, if_false, List.flatMap_def, g3]
    rw [← flatten_single (us.map fun x => x.subs.flatten), List.map_map]
    rfl
  · change boundsFrom 0 (vs.map (·.subs)) = _
    rw [g3, List.map_map]
    rfl
  · rw [List.map_map, List.map_map]
    exact List.map_congr_left fun x hx => markEnd_flatten (g4 x hx)

/-- **C82** Basic splitting only splits: `basic` (with or without `split_numbers`) delivers the same full tokens of the same types
as `nosplit`.  There are as many groups of tokens, and every group is the same or one token in parts between `<w>` and `</w>`. -/
theorem C82_basic (env : Env) (hu : env.ucd.Laws) (hk : NeverMakes env.ucd '<') (load : Str → Except PyErr BpeData) (o : CommonOpts)
    (sn : Bool) (lexed : List (TokType × Str)) (eof : Bool) :
    ∃ gs hs md md', textApi env load (.basic o sn false false false) lexed eof = .ok (gs.flatten, md) ∧
      textApi env load (.nosplit o false) lexed eof = .ok (hs.flatten, md') ∧
      md.bounds = boundsFrom 0 gs ∧ md'.bounds = boundsFrom 0 hs ∧ md'.types = md.types ∧ md'.nonproc = md.nonproc ∧
      gs.length = hs.length ∧ ∀ x ∈ gs.zip hs, PartsOf x.1 x.2 := by
  obtain ⟨m, ps, us, h1, h2, h3, h4⟩ := C56_any env hu load (.basic o sn false false false) nofun lexed eof
  cases h1
  have hf : wordParts env false false = fun s => [s] := rfl
  rw [hf] at h3
  obtain ⟨vs, g1, g2, g3, g4, g5⟩ := spelledAnyAll_parts hu hk (fun p hq => by
    rcases finish_mem hq with hq | rfl
    · exact describedAnyAll_word rfl h2 p hq
    · exact ⟨nofun, nofun⟩) h3
  have k := C56_any_unique env hu load (.nosplit o false) nofun lexed eof .nosplit h2 g1
  refine ⟨us.map (·.subs), vs.map (·.subs), (flatForm us).2, (flatForm vs).2, ?_, ?_, rfl, rfl, g3, ?_, by simp [g2], g5⟩
  · rw [h4]
    unfold outputOf
    simp only [usesBpe, Bool.false_eq_true, if_false, List.flatMap_def]
  · rw [k]
    unfold outputOf
    simp only [usesBpe, Bool.false_eq_true, if_false, List.flatMap_def]
  · change distinct _ = distinct _
    rw [List.flatMap_def, List.flatMap_def, g4]

/-- **C82** The types of the full tokens, and what is recorded as not to be processed further, depend only on the options common to
all functions and on what is done with string literals: they are the same for `nosplit`, for `basic` with all its options, and
they are the same for `chars` and for all BPE codes. -/
theorem C82_types (env : Env) (hu : env.ucd.Laws) (load : Str → Except PyErr BpeData) (a b : ApiCall)
    (ha : ∀ i, apiBpeCodesId a = some i → i ≠ [] ∧ ∃ d, load i = .ok d ∧ CacheOk d)
    (hb : ∀ i, apiBpeCodesId b = some i → i ≠ [] ∧ ∃ d, load i = .ok d ∧ CacheOk d)
    (ho : optsOf a = optsOf b) (hl : (pieceOpts a).literals = (pieceOpts b).literals) (lexed : List (TokType × Str)) (eof : Bool) :
    ∃ x md y md', textApi env load a lexed eof = .ok (x, md) ∧ textApi env load b lexed eof = .ok (y, md') ∧
      md.types = md'.types ∧ md.nonproc = md'.nonproc := by
  obtain ⟨m, ps, us, h1, h2, h3, h4⟩ := C56_any env hu load a ha lexed eof
  obtain ⟨m', ps', vs, g1, g2, g3, g4⟩ := C56_any env hu load b hb lexed eof
  have hp : pieceOpts a = pieceOpts b := by
    have : pieceOpts a = ⟨(optsOf a).noCom, (optsOf a).noStr, limitOf (optsOf a).maxStrLength, (pieceOpts a).literals⟩ := rfl
    rw [this, ho, hl]
    rfl
  rw [ho, hp] at h2
  obtain rfl := describedAnyAll_unique hu h2 g2
  rw [ho] at h3
  obtain ⟨k1, k2⟩ := spelledAnyAll_types h3 g3
  refine ⟨_, _, _, _, h4, g4, k1, ?_⟩
  change distinct _ = distinct _
  rw [List.flatMap_def, List.flatMap_def, k2]

/-- **C82** All BPE codes split the same full tokens, also with `no_unicode`: the subtokens of every full token joined are the same for
`chars` and for all codes. -/
theorem C82_codes (env : Env) (hu : env.ucd.Laws) (hk : KeepsWhite env.ucd) (load : Str → Except PyErr BpeData) (a b : ApiCall)
    {i j : Str} {d d' : BpeData} (hi : apiBpeCodesId a = some i) (h0 : i ≠ []) (hd : load i = .ok d) (hc : CacheOk d)
    (hg : GenuineCache d) (hj : apiBpeCodesId b = some j) (h0' : j ≠ []) (hd' : load j = .ok d') (hc' : CacheOk d')
    (hg' : GenuineCache d') (ho : optsOf a = optsOf b) (lexed : List (TokType × Str)) (hp : ∀ e ∈ lexed, PlainNumber e) (eof : Bool) :
    ∃ gs md hs md', textApi env load a lexed eof = .ok (gs.flatten, md) ∧ textApi env load b lexed eof = .ok (hs.flatten, md') ∧
      md.bounds = boundsFrom 0 gs ∧ md'.bounds = boundsFrom 0 hs ∧ gs.map List.flatten = hs.map List.flatten := by
  obtain ⟨m, ps, us, h1, h2, h3, h4⟩ := C56_any env hu load a
    (fun k hk => by rw [hi] at hk; cases hk; exact ⟨h0, d, hd, hc⟩) lexed eof
  obtain ⟨m', ps', vs, g1, g2, g3, g4⟩ := C56_any env hu load b
    (fun k hk => by rw [hj] at hk; cases hk; exact ⟨h0', d', hd', hc'⟩) lexed eof
  have mode : ∀ {c : ApiCall} {k : Str} {e : BpeData} {m : Mode}, apiBpeCodesId c = some k → load k = .ok e → ModeOf env load c m →
      m = .bpe e ∧ usesBpe c = true ∧ (pieceOpts c).literals = .bpe := by
    intro c k e m hi hd h1
    cases h1 with
    | nosplit => cases hi
    | basic => cases hi
    | chars h => cases hi; rw [hd] at h; cases h; exact ⟨rfl, rfl, rfl⟩
    | bpe h => cases hi; rw [hd] at h; cases h; exact ⟨rfl, rfl, rfl⟩
  obtain ⟨rfl, hb, hl⟩ := mode hi hd h1
  obtain ⟨rfl, hb', hl'⟩ := mode hj hd' g1
  have hpo : pieceOpts a = pieceOpts b := by
    have : pieceOpts a = ⟨(optsOf a).noCom, (optsOf a).noStr, limitOf (optsOf a).maxStrLength, (pieceOpts a).literals⟩ := rfl
    rw [this, ho, hl, ← hl']
    rfl
  rw [ho, hpo] at h2
  obtain rfl := describedAnyAll_unique hu h2 g2
  rw [ho] at h3
  have hfit : ∀ p ∈ finishPieces eof ps, Fit p := by
    intro p hq
    rcases finish_mem hq with hq | rfl
    · exact describedAnyAll_fits hu hk hp h2 p hq
    · exact ⟨by simp, by simp⟩
  obtain ⟨k1, k2, k3⟩ := spelledAnyAll_codes hu hk hg hg' hfit h3 g3
  refine ⟨us.map fun x => markEnd x.subs, (flatForm us).2, vs.map fun x => markEnd x.subs, (flatForm vs).2, ?_, ?_,
    boundsFrom_len (by simp [markEnd_len]) 0, boundsFrom_len (by simp [markEnd_len]) 0, ?_⟩
  · rw [h4]
    unfold outputOf
    simp only [hb, if_true, List.flatMap_def]
  · rw [g4]
    unfold outputOf
    simp only [hb', if_true, List.flatMap_def]
  · rw [List.map_map, List.map_map]
    have e1 : us.map (List.flatten ∘ fun x => markEnd x.subs) = (us.map fun x => x.subs.flatten).map (· ++ "</t>".toList) := by
      rw [List.map_map]
      exact List.map_congr_left fun x hx => markEnd_flatten (k2 x hx)
    have e2 : vs.map (List.flatten ∘ fun x => markEnd x.subs) = (vs.map fun x => x.subs.flatten).map (· ++ "</t>".toList) := by
      rw [List.map_map]
      exact List.map_congr_left fun x hx => markEnd_flatten (k3 x hx)
    rw [e1, e2, k1]

/-! ## Examples -/

/-- Codes that join two pairs of letters, with one word in the cache. -/
def modesCodes : BpeData := ⟨[("size@".toList, ["siz".toList, "e".toList, "@".toList])], [((['s'], ['i']), (none, 0)), ((['s', 'i'], ['z']), (none, 1))]⟩

/-- `maxSize = 12` with a literal. -/
def modesTokens : List (TokType × Str) :=
  [(["Name"], "maxSize".toList), (["Text"], " ".toList), (["Operator"], "=".toList), (["Literal", "Number"], "12".toList),
    (["Literal", "String"], "\"a b\"".toList), (["Text"], "\n".toList)]

theorem modes_cached {w : Str} {l : List Str} (h : modesCodes.cache.get? w = some l) :
    w = "size@".toList ∧ l = ["siz".toList, "e".toList, "@".toList] := by
  unfold modesCodes at h
  simp only [Dict.get?] at h
  split at h
  · next e => exact ⟨e.symm, (Option.some.inj h).symm⟩
  · cases h

theorem modes_cacheOk : CacheOk modesCodes := by
  intro w l h
  obtain ⟨-, rfl⟩ := modes_cached h
  exact ⟨"@".toList, rfl, rfl⟩

theorem modes_genuine : GenuineCache modesCodes := by
  intro w l h
  obtain ⟨rfl, rfl⟩ := modes_cached h
  decide +kernel

theorem modes_plain : ∀ e ∈ modesTokens, PlainNumber e := by unfold PlainNumber; decide

/-- Non-vacuity of C82 for BPE. -/
example := C82_bpe_partial demoEnv asciiUcd_laws demoEnv_keepsLines.white (fun _ => .ok modesCodes) (.bpe "x".toList {}) rfl (by decide) rfl
  modes_cacheOk modes_genuine rfl modesTokens modes_plain false

/-- Non-vacuity of C82 for two sets of codes. -/
example := C82_codes demoEnv asciiUcd_laws demoEnv_keepsLines.white
  (fun i => if i = "0".toList then .ok ⟨[], []⟩ else .ok modesCodes) (.chars { noUnicode := true }) (.bpe "x".toList { noUnicode := true })
  rfl (by decide) rfl (by intro w l h; cases h) (by intro w l h; cases h) rfl (by decide) rfl modes_cacheOk
  modes_genuine rfl modesTokens modes_plain true

theorem demo_never : NeverMakes demoEnv.ucd '<' := by
  have lower : ∀ s : Str, '<' ∉ s → '<' ∉ s.map asciiToLower := by
    intro s h hm
    obtain ⟨c, hc, he⟩ := List.mem_map.mp hm
    refine h ?_
    have tab : ∀ n < 128, asciiToLower (Char.ofNat n) = '<' → Char.ofNat n = '<' := by decide +kernel
    by_cases hn : c.toNat < 128
    · have := tab c.toNat hn
      rw [Char.ofNat_toNat] at this
      exact this he ▸ hc
    · unfold asciiToLower at he
      split at he
      · next hu => simp only [asciiUpper, Bool.and_eq_true, decide_eq_true_eq] at hu; omega
      · exact he ▸ hc
  have upper : ∀ s : Str, '<' ∉ s → '<' ∉ s.map asciiToUpper := by
    intro s h hm
    obtain ⟨c, hc, he⟩ := List.mem_map.mp hm
    refine h ?_
    have tab : ∀ n < 128, asciiToUpper (Char.ofNat n) = '<' → Char.ofNat n = '<' := by decide +kernel
    by_cases hn : c.toNat < 128
    · have := tab c.toNat hn
      rw [Char.ofNat_toNat] at this
      exact this he ▸ hc
    · unfold asciiToUpper at he
      split at he
      · next hu => simp only [asciiLower, Bool.and_eq_true, decide_eq_true_eq] at hu; omega
      · exact he ▸ hc
  refine ⟨lower, upper, ?_⟩
  intro s h
  cases s with
  | nil => exact h
  | cons c r =>
    intro hm
    simp only [List.mem_cons, not_or] at h
    rcases List.mem_cons.mp hm with hm | hm
    · exact upper [c] (by simpa using h.1) (List.mem_map.mpr ⟨c, by simp, hm.symm⟩)
    · exact lower r h.2 hm

/-- Non-vacuity of C82 for basic splitting. -/
example := C82_basic demoEnv asciiUcd_laws demo_never (fun _ => .error .keyError) {} true modesTokens false

/-- Non-vacuity of C82 for types: nothing split, and everything split with stems. -/
example := C82_types demoEnv asciiUcd_laws (fun _ => .error .keyError) (.nosplit { noUnicode := true } false)
  (.basic { noUnicode := true } true true true true) nofun nofun rfl rfl modesTokens false

/-- What basic splitting gives for it: `max` and `Size` are parts of one full token. -/
example : PartsOf ["<w>".toList, "max".toList, "Size".toList, "</w>".toList] ["maxSize".toList] :=
  .inr ⟨["max".toList, "Size".toList], rfl, by decide⟩

/-! ## With `no_unicode` -/

/-- `Größe` alone. -/
def modesToken : List (TokType × Str) := [(["Name"], "Größe".toList)]

/-- **C82** With `no_unicode` BPE does not split the full tokens of `nosplit`: a word with other characters is `<non-en>` in one case
and keeps its ASCII characters in the other. -/
theorem C82_unicode_violated : ∃ (out out' : List Str) (md md' : Meta),
    textApi demoEnv (fun _ => .ok ⟨[], []⟩) (.nosplit { noUnicode := true } true) modesToken false = .ok (out, md) ∧
    textApi demoEnv (fun _ => .ok ⟨[], []⟩) (.chars { noUnicode := true }) modesToken false = .ok (out', md') ∧
    out = ["<non-en>".toList] ∧ md'.types.length = 1 ∧ out'.flatten = "Gr÷e</t>".toList := by
  have split : TextSplit demoEnv.ucd "Größe".toList ["Größe".toList] := (textSplit_iff asciiUcd_laws _ _).mpr (by decide +kernel)
  refine ⟨_, _, _, _, C56_any_unique demoEnv asciiUcd_laws _ (.nosplit { noUnicode := true } true) nofun _ _ .nosplit
      (ps := [⟨.nonEng, "<non-en>".toList, .constant⟩]) (us := [⟨.nonEng, ["<non-en>".toList], []⟩]) ?_
      (.cons (.inl rfl) (.same (by decide) .constant) .nil),
    C56_any_unique demoEnv asciiUcd_laws _ (.chars { noUnicode := true }) ?_ _ _ (.chars rfl) (ps := [⟨.splitContainer, "Gr÷e".toList, .literal⟩])
      (us := [⟨.splitContainer, [['G'], ['r'], ['÷'], ['e'], []], []⟩]) ?_ ?_, by decide +kernel, by decide +kernel, by decide +kernel⟩
  · exact .cons (ps := [_]) (.words (by decide) (by decide) split
      (.cons (.hidden anyWord rfl (by unfold AllAscii; decide) (by decide)) .nil)) .nil
  · intro i hi
    cases hi
    exact ⟨by decide, _, rfl, by intro w l h; cases h⟩
  · refine .cons (ps := [_]) (.words (by decide) (by decide) split (.cons (q := ⟨.splitContainer, "Gr÷e".toList, .literal⟩) ?_ .nil)) .nil
    have := AnyPiece.replaced (u := demoEnv.ucd) (nu := true) (o := pieceOpts (.chars { noUnicode := true })) (x := "Gr÷e".toList)
      anyWord rfl (by unfold AllAscii; decide) rfl
      (qs := ["Gr".toList, "ö".toList, "ß".toList, "e".toList]) ((identSplit_iff asciiUcd_laws _ _).mpr (by decide +kernel))
      (.keep (by decide) (.keep (by decide) (.run (run := "öß".toList) (by decide) (by decide) (by decide) (.keep (by decide) .nil))))
    exact this
  · exact .cons (.inl rfl) (.same (by decide) (.literalBpe (by decide +kernel))) .nil

end Verif.Props
