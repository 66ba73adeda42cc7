import Verif.Proofs.Solid
import Verif.Props.Config
import Verif.Props.Source
import Verif.Props.VocabMerge
/-!
# C67: tokens can be told apart
-/
namespace Verif.Props
open Verif Verif.Spec Verif.Source Verif.Props.Source

/-! ## Texts -/

/-- The tokens of a text that contain spaces are its keywords and operators with spaces. -/
theorem spaced_exactly {env : Env} (hu : env.ucd.Laws) (hk : KeepsSolid env) {c : PrepConfig} (hv : c.Valid) {bd : Option BpeData}
    (hb : c.isBpe = bd.isSome) (hd : ∀ d, bd = some d → SolidCache d) {lexed : List (TokType × Str)} (hn : ∀ e ∈ lexed, SolidNumber e)
    {ts ts' : List Tok} (ht : convertText env.ucd lexed = .ok ts)
    (hts : ∀ t ∈ ts', t ∈ ts ∨ t = .specialToken Ph.ect) (hts' : ∀ t ∈ ts, t.isNewLine = false → t ∈ ts')
    {out : List Str} {md : Meta} (h : toRepr env c ts' bd = .ok (out, md)) :
    ∀ t, (t ∈ out ∧ ¬ Solid t) ↔ ∃ e ∈ lexed, Verbatim e ∧ env.ucd.isBlank e.2 = false ∧ ' ' ∈ e.2 ∧
      t = e.2 ++ (if c.isBpe then "</t>".toList else []) := by
  let W : Str → Prop := fun s => ∃ e ∈ lexed, Verbatim e ∧ env.ucd.isBlank e.2 = false ∧ ' ' ∈ e.2 ∧ s = e.2
  have hall : ∀ t ∈ ts, Everywhere (SolidTok env.ucd W) t :=
    solid_convertText hu hk hn (fun e he h1 h2 h3 => ⟨e, he, h1, h2, h3, rfl⟩) ht
  have hall' : EverywhereList (SolidTok env.ucd W) ts' := by
    refine everywhereList_mem.mpr fun t ht => ?_
    rcases hts t ht with ht | rfl
    · exact hall t ht
    · show Solid Ph.ect
      decide
  intro t
  constructor
  · rintro ⟨hm, hns⟩
    rcases solid_toRepr hu hk hv hb hd hall' h t hm with hs | ⟨s, ⟨e, he, h1, h2, h3, rfl⟩, rfl⟩
    · exact absurd hs hns
    · refine ⟨e, he, h1, h2, h3, ?_⟩
      split <;> simp [Ph.compoundWordEnd]
  · rintro ⟨e, he, h1, h2, h3, rfl⟩
    constructor
    · have hm : .keyWord e.2 ∈ ts' ∨ .operator e.2 ∈ ts' ∨ .specialToken e.2 ∈ ts' := by
        rcases verbatim_parsed ht he h1 h2 h3 with h | h
        · exact .inl (hts' _ h rfl)
        · exact .inr (.inl (hts' _ h rfl))
      have := verbatim_shown hv hm h
      split at this <;> rename_i hb
      · rw [if_pos hb]; exact this
      · rw [if_neg hb]; simpa using this
    · exact fun hs => hs.2 (List.mem_append_left _ h3)

theorem finishParsed_sub (ts : List Tok) (eof : Bool) : (∀ t ∈ finishParsed ts eof, t ∈ ts ∨ t = .specialToken Ph.ect) ∧
    ∀ t ∈ ts, t.isNewLine = false → t ∈ finishParsed ts eof := by
  have h1 : ∀ t ∈ removeTrailingNewline ts, t ∈ ts := by
    intro t ht
    unfold removeTrailingNewline at ht
    split at ht
    · split at ht
      · exact List.dropLast_subset _ ht
      · exact ht
    · exact ht
  have h2 : ∀ t ∈ ts, t.isNewLine = false → t ∈ removeTrailingNewline ts := by
    intro t ht hnl
    unfold removeTrailingNewline
    split
    · next x hx =>
      split
      · next hxn =>
        obtain ⟨pre, rfl⟩ := List.getLast?_eq_some_iff.mp hx
        rw [List.dropLast_concat]
        rcases List.mem_append.mp ht with ht | ht
        · exact ht
        · simp at ht
          subst ht
          rw [hnl] at hxn
          cases hxn
      · exact ht
    · exact ht
  unfold finishParsed
  simp only
  split
  · refine ⟨fun t ht => ?_, fun t ht hn => List.mem_append_left _ (h2 t ht hn)⟩
    rcases List.mem_append.mp ht with ht | ht
    · exact .inl (h1 t ht)
    · simp at ht
      exact .inr ht
  · exact ⟨fun t ht => .inl (h1 t ht), h2⟩

/-- **C67** In every mode and with all options, the tokens of the output are not empty and contain no spaces, except for keywords and
operators which contain spaces in the source; these are shown as they are. -/
theorem C67_exactly (env : Env) (hu : env.ucd.Laws) (hk : KeepsSolid env) (load : Str → Except PyErr BpeData)
    (hload : ∀ i d, load i = .ok d → SolidCache d) (call : ApiCall) (lexed : List (TokType × Str)) (hn : ∀ e ∈ lexed, SolidNumber e)
    (appendEof : Bool) (out : List Str) (md : Meta) (h : textApi env load call lexed appendEof = .ok (out, md)) (t : Str) :
    (t ∈ out ∧ ¬ Solid t) ↔ ∃ e ∈ lexed, Verbatim e ∧ env.ucd.isBlank e.2 = false ∧ ' ' ∈ e.2 ∧
      t = e.2 ++ (if splitCode call ∈ ['4', '5', '6', '8', '9'] then "</t>".toList else []) := by
  obtain ⟨v, hv, hp⟩ := createStrValue_ok (optsOf call).noStr (optsOf call).maxStrLength
  have hc := (textConfig_eq call hv hp).1
  have hval := configOf_valid call hp
  have hbpe : (configOf call v).isBpe = true ↔ splitCode call ∈ ['4', '5', '6', '8', '9'] := by
    have : ∀ ch : Char, ch ∈ ['0', 'F', '8', '1', '2', '3', 's', '4', '5', '6', '9'] →
        (decide ([ch] ∈ [['4'], ['5'], ['6'], ['7'], ['8'], ['9']]) = true ↔ ch ∈ ['4', '5', '6', '8', '9']) := by decide
    refine this (splitCode call) ?_
    cases call <;> simp only [splitCode] <;> (repeat' split) <;> decide
  have hif : ∀ a b : Str, (if splitCode call ∈ ['4', '5', '6', '8', '9'] then a else b) = if (configOf call v).isBpe = true then a else b := by
    intro a b
    by_cases hb : splitCode call ∈ ['4', '5', '6', '8', '9']
    · rw [if_pos hb, if_pos (hbpe.mpr hb)]
    · rw [if_neg hb, if_neg fun hx => hb (hbpe.mp hx)]
  rw [hif]
  unfold textApi at h
  simp only [hc, bind, Except.bind] at h
  unfold preprocessText at h
  cases ht : convertText env.ucd lexed with
  | error e => simp [ht, bind, Except.bind] at h
  | ok ts =>
    simp only [ht, bind, Except.bind] at h
    obtain ⟨hf1, hf2⟩ := finishParsed_sub ts appendEof
    split at h
    · next hb =>
      split at h
      · cases h
      · cases h
      · next ch r _ =>
        cases hd : load (ch :: r) with
        | error e => simp [hd] at h
        | ok d =>
          simp only [hd] at h
          exact spaced_exactly hu hk hval (by rw [hb]; rfl) (by intro d' hd'; cases hd'; exact hload _ _ hd) hn ht hf1 hf2 h t
    · next hb =>
      exact spaced_exactly hu hk hval (by simpa using hb) (by intro d' hd'; cases hd') hn ht hf1 hf2 h t

/-- **C67** No token is empty. -/
theorem C67_never_empty (env : Env) (hu : env.ucd.Laws) (hk : KeepsSolid env) (load : Str → Except PyErr BpeData)
    (hload : ∀ i d, load i = .ok d → SolidCache d) (call : ApiCall) (lexed : List (TokType × Str)) (hn : ∀ e ∈ lexed, SolidNumber e)
    (appendEof : Bool) (out : List Str) (md : Meta) (h : textApi env load call lexed appendEof = .ok (out, md)) : [] ∉ out := by
  intro hm
  obtain ⟨e, -, -, -, hs, he⟩ := (C67_exactly env hu hk load hload call lexed hn appendEof out md h []).mp ⟨hm, fun hs => hs.1 rfl⟩
  have : e.2 = [] := (List.append_eq_nil_iff.mp he.symm).1
  rw [this] at hs
  cases hs

/-- **C67** If no keyword and no operator contains a space, then no token of the output does. -/
theorem C67_tokens (env : Env) (hu : env.ucd.Laws) (hk : KeepsSolid env) (load : Str → Except PyErr BpeData)
    (hload : ∀ i d, load i = .ok d → SolidCache d) (call : ApiCall) (lexed : List (TokType × Str)) (hn : ∀ e ∈ lexed, SolidNumber e)
    (hw : ∀ e ∈ lexed, Verbatim e → ' ' ∉ e.2) (appendEof : Bool) (out : List Str) (md : Meta)
    (h : textApi env load call lexed appendEof = .ok (out, md)) : ∀ t ∈ out, t ≠ [] ∧ ' ' ∉ t := by
  intro t ht
  by_cases hs : Solid t
  · exact hs
  · obtain ⟨e, he, hv, -, hsp, -⟩ := (C67_exactly env hu hk load hload call lexed hn appendEof out md h t).mp ⟨ht, hs⟩
    exact absurd hsp (hw e he hv)

theorem noSpace_asciiLower {s : Str} (h : ' ' ∉ s) : ' ' ∉ s.map asciiToLower := by
  intro hm
  obtain ⟨d, hd, he⟩ := List.mem_map.mp hm
  unfold asciiToLower at he
  split at he
  · next hu =>
    unfold asciiUpper at hu
    simp at hu
    have hv : Nat.isValidChar (d.toNat + 32) := by unfold Nat.isValidChar; omega
    have h1 : (Char.ofNat (d.toNat + 32)).toNat = d.toNat + 32 := by rw [Char.ofNat, dif_pos hv]; rfl
    rw [he] at h1
    have : (' ' : Char).toNat = 32 := rfl
    omega
  · exact h (he ▸ hd)

theorem noSpace_asciiUpper {s : Str} (h : ' ' ∉ s) : ' ' ∉ s.map asciiToUpper := by
  intro hm
  obtain ⟨d, hd, he⟩ := List.mem_map.mp hm
  unfold asciiToUpper at he
  split at he
  · next hu =>
    unfold asciiLower at hu
    simp at hu
    have hv : Nat.isValidChar (d.toNat - 32) := by unfold Nat.isValidChar; omega
    have h1 : (Char.ofNat (d.toNat - 32)).toNat = d.toNat - 32 := by rw [Char.ofNat, dif_pos hv]; rfl
    rw [he] at h1
    have : (' ' : Char).toNat = 32 := rfl
    omega
  · exact h (he ▸ hd)

theorem demoEnv_keepsSolid : KeepsSolid demoEnv where
  lower := fun _ h => noSpace_asciiLower h.2
  upper := fun _ h => noSpace_asciiUpper h.2
  capitalize := by
    intro s h
    cases s with
    | nil => exact absurd rfl h.1
    | cons c r =>
      have h1 : ' ' ∉ [c] := fun e => h.2 (List.mem_cons.mpr (.inl (by simpa using e)))
      have h2 : ' ' ∉ r := fun e => h.2 (List.mem_cons.mpr (.inr e))
      exact noSpace_append (noSpace_asciiUpper h1) (noSpace_asciiLower h2)
  ronin := by intro s h p hp; simp [demoEnv] at hp; subst hp; exact h
  porter := fun _ h => h

/-- Non-vacuity: names, numbers, comments and literals, in four modes. -/
def spacedText : List (TokType × Str) :=
  [(["Keyword"], "if".toList), (["Text"], "     ".toList), (["Name"], "fooBar".toList), (["Literal", "Number"], "0xA".toList),
   (["Literal", "String"], "\"a  b\"".toList), (["Comment", "Single"], "// a b".toList)]

example : (∀ e ∈ spacedText, SolidNumber e) ∧ (∀ e ∈ spacedText, Verbatim e → ' ' ∉ e.2) ∧ SolidCache ⟨[], []⟩ ∧
    (textApi demoEnv (fun _ => .ok ⟨[], []⟩) (.chars {}) spacedText false).toOption.map (·.1) =
      some (["if</t>", "\t</t>", "f", "o", "o", "B", "a", "r", "</t>", "0", "x", "a", "</t>", "\"", "a", "\u00a0", "\u00a0", "b", "\"", "</t>",
        "/</t>", "/</t>", "a", "</t>", "b", "</t>", "<EOL></t>"].map String.toList) ∧
    (textApi demoEnv (fun _ => .error .keyError) (.nosplit {} true) spacedText false).toOption.map (·.1) =
      some (["if", "\t", "fooBar", "0xa", "\"a\u00a0\u00a0b\"", "/", "/", "a", "b", "<EOL>"].map String.toList) ∧
    (textApi demoEnv (fun _ => .error .keyError) (.basic {} true true true true) spacedText false).toOption.map (·.1) =
      some (["if", "\t", "<w>", "foo", "<Cap>", "bar", "</w>", "<w>", "0", "x", "a", "</w>", "\"", "a", "b", "\"", "/", "/", "a", "b",
        "<EOL>"].map String.toList) := by
  refine ⟨by unfold SolidNumber; decide +kernel, by decide +kernel, ?_, by decide +kernel, by decide +kernel, by decide +kernel⟩
  intro w l hw
  cases hw

/-! ## Files -/

/-- The tokens of a file of a dataset. -/
def FileTokens (env : Env) (L : Lexers) (c : PrepConfig) (bd : Option BpeData) (f : Bytes × Bytes) (toks : List Str) : Prop :=
  ∃ x ts md, ExtensionIs f.1 x ∧ convertText env.ucd (lexText L (parsedText f.2) (some x)) = .ok ts ∧
    toRepr env c (ts ++ [.specialToken Ph.ect]) bd = .ok (toks, md)

/-- What the lexer delivers for a file contains no keyword, operator or number with a space. -/
def LexedSolid (L : Lexers) (f : Bytes × Bytes) : Prop :=
  ∀ x, ExtensionIs f.1 x → ∀ e ∈ lexText L (parsedText f.2) (some x), SolidNumber e ∧ (Verbatim e → ' ' ∉ e.2)

theorem fileTokens_solid {env : Env} (hu : env.ucd.Laws) (hk : KeepsSolid env) {L : Lexers} {c : PrepConfig} (hv : c.Valid)
    {bd : Option BpeData} (hb : c.isBpe = bd.isSome) (hd : ∀ d, bd = some d → SolidCache d) {f : Bytes × Bytes} (hl : LexedSolid L f)
    {toks : List Str} (h : FileTokens env L c bd f toks) : toks ≠ [] ∧ ∀ t ∈ toks, Solid t := by
  obtain ⟨x, ts, md, hx, ht, h⟩ := h
  have hm := verbatim_shown hv (s := Ph.ect) (.inr (.inr (by simp))) h
  refine ⟨List.ne_nil_of_mem hm, fun t htm => ?_⟩
  by_cases hs : Solid t
  · exact hs
  · obtain ⟨e, he, hve, -, hsp, -⟩ := (spaced_exactly hu hk hv hb hd (fun e he => (hl x hx e he).1) ht
      (fun t ht => by simpa using ht) (fun t ht _ => by simp [ht]) h t).mp ⟨htm, hs⟩
    exact absurd hsp ((hl x hx e he).2 hve)

/-- **C67** The result of a file, read again and split at spaces, is the list of its tokens, escaped. -/
theorem C67_file (env : Env) (hu : env.ucd.Laws) (hk : KeepsSolid env) (L : Lexers) (c : PrepConfig) (hv : c.Valid) (bd : Option BpeData)
    (hb : c.isBpe = bd.isSome) (hd : ∀ d, bd = some d → SolidCache d) (path b : Bytes) (x : Str) (hx : ExtensionIs path x)
    (hl : LexedSolid L (path, b)) (r : Bytes) (h : fileResult env L c bd path (some b) = .ok (some r)) :
    ∃ toks, FileTokens env L c bd (path, b) toks ∧ r = lineOf toks ∧ resultWords r = toks.map toLiteral := by
  rw [fileResult_eq hx] at h
  cases ht : convertText env.ucd (lexText L (parsedText b) (some x)) with
  | error e => rw [ht] at h; cases h
  | ok ts =>
    rw [ht] at h
    cases hr : toRepr env c (ts ++ [.specialToken Ph.ect]) bd with
    | error e => simp only [bind, Except.bind, hr, Except.map] at h; cases h
    | ok q =>
      simp only [bind, Except.bind, hr, Except.map, Except.ok.injEq, Option.some.injEq] at h
      subst h
      have hf : FileTokens env L c bd (path, b) q.1 := ⟨x, ts, q.2, hx, ht, hr⟩
      obtain ⟨hne, hs⟩ := fileTokens_solid hu hk hv hb hd hl hf
      exact ⟨q.1, hf, rfl, C66_words q.1 hne fun t ht => (hs t ht).2⟩

/-- **C67** The vocabulary of a dataset, calculated with any number of processes and loaded, has exactly the tokens of the files, with
the number of times they occur in them; and the size of the corpus is the number of tokens. -/
theorem C67_vocab (env : Env) (hu : env.ucd.Laws) (hk : KeepsSolid env) (L : Lexers) (c : PrepConfig) (hv : c.Valid) (bd : Option BpeData)
    (hb : c.isBpe = bd.isSome) (hd : ∀ d, bd = some d → SolidCache d) (files : List (Bytes × Bytes)) (h0 : files ≠ [])
    (hl : ∀ f ∈ files, LexedSolid L f) (toks : Bytes × Bytes → List Str) (ht : ∀ f ∈ files, FileTokens env L c bd f (toks f))
    (n : Nat) (hn : 0 < n) (dir : DumpDir) (hdir : readyName ∉ dir.map (·.1)) :
    (∃ parts, partialCounts (files.map fun f => prepText (toks f)) = .ok parts ∧
      ∀ dk, Star (WStep parts n) (World.first dir) ⟨dk, .returned⟩ →
        ∃ text, dk.vocab = some text ∧ ∃ v : Dict Str Int, loadVocabDict text = .ok v ∧ v.WF ∧
          (∀ w, w ∈ v.keys ↔ ∃ f ∈ files, w ∈ toks f) ∧
          ∀ w k, v.get? w = some k → k = (((files.map fun f => (toks f).count w).sum : Nat) : Int)) ∧
    calcCorpusSize (files.map fun f => prepText (toks f)) = (files.map fun f => (toks f).length).sum := by
  have hs := fun f hf => fileTokens_solid hu hk hv hb hd (hl f hf) (ht f hf)
  have hne : ∀ l ∈ files.map toks, l ≠ [] := by
    intro l hl
    obtain ⟨f, hf, rfl⟩ := List.mem_map.mp hl
    exact (hs f hf).1
  have hsp : ∀ l ∈ files.map toks, ∀ t ∈ l, ' ' ∉ t := by
    intro l hl
    obtain ⟨f, hf, rfl⟩ := List.mem_map.mp hl
    exact fun t ht => ((hs f hf).2 t ht).2
  have hmap : (files.map fun f => prepText (toks f)) = (files.map toks).map prepText := by rw [List.map_map]; rfl
  rw [hmap]
  constructor
  · obtain ⟨parts, hp, hend⟩ := C30_end_to_end (by simpa using h0) hne hsp hn hdir
    refine ⟨parts, hp, fun dk hdk => ?_⟩
    obtain ⟨text, h1, v, h2, h3, h4, h5⟩ := hend dk hdk
    refine ⟨text, h1, v, h2, h3, fun w => (h4 w).trans ?_, fun w k hk => ?_⟩
    · rw [← List.flatMap_def, List.mem_flatMap]
    · rw [h5 w k hk, List.count_flatten, List.map_map]; rfl
  · rw [C35_corpus_size _ hne hsp, List.length_flatten, List.map_map]; rfl

theorem fileTokens_of {env : Env} {L : Lexers} {c : PrepConfig} {bd : Option BpeData} {f : Bytes × Bytes} {toks : List Str} {x : Str}
    (hx : ExtensionIs f.1 x)
    (h : ((convertText env.ucd (lexText L (parsedText f.2) (some x))) >>= fun ts => (toRepr env c (ts ++ [.specialToken Ph.ect]) bd).map (·.1))
      = .ok toks) : FileTokens env L c bd f toks := by
  cases ht : convertText env.ucd (lexText L (parsedText f.2) (some x)) with
  | error e => rw [ht] at h; cases h
  | ok ts =>
    simp only [ht, bind, Except.bind] at h
    cases hr : toRepr env c (ts ++ [.specialToken Ph.ect]) bd with
    | error e => rw [hr] at h; cases h
    | ok q =>
      rw [hr] at h
      cases h
      exact ⟨x, ts, q.2, hx, ht, hr⟩

/-- Non-vacuity: a file meets the hypotheses of the theorems about files. -/
example : LexedSolid demoLexers (utf8 "d/a.py".toList, utf8 "ab\n".toList) ∧ ExtensionIs (utf8 "d/a.py".toList) "py".toList ∧
    FileTokens demoEnv demoLexers shownConfig none (utf8 "d/a.py".toList, utf8 "ab\n".toList) (["ab", "\n", "<EOF>"].map String.toList) := by
  have hx : ExtensionIs (utf8 "d/a.py".toList) "py".toList := by
    refine .inl ⟨utf8 "d/".toList, utf8 "a".toList, ?_⟩
    simp only [utf8_eq]; decide +kernel
  refine ⟨fun x h => ?_, hx, fileTokens_of hx ?_⟩
  · have h1 := extension_is h
    rw [extension_is hx] at h1
    cases h1
    simp only [utf8_eq]; unfold SolidNumber; decide +kernel
  · simp only [utf8_eq]; decide +kernel

/-! ## Keywords with spaces -/

/-- `import static a;` as Pygments' lexer for Java delivers it. -/
def importStatic : List (TokType × Str) :=
  [(["Keyword", "Namespace"], "import static".toList), (["Text"], " ".toList), (["Name", "Namespace"], "a".toList),
   (["Punctuation"], ";".toList)]

/-- The same words as separate tokens. -/
def importThenStatic : List (TokType × Str) :=
  [(["Keyword", "Namespace"], "import".toList), (["Keyword", "Declaration"], "static".toList), (["Name", "Namespace"], "a".toList),
   (["Punctuation"], ";".toList)]

/-- **C67 is violated** for keywords with spaces: the token cannot be told from two tokens in the results, and the vocabulary has words
that are no tokens. -/
theorem C67_violated :
    (textApi demoEnv (fun _ => .error .keyError) (.nosplit {} false) importStatic true).toOption.map (·.1) =
      some (["import static", "a", ";", "<EOF>"].map String.toList) ∧
    (textApi demoEnv (fun _ => .error .keyError) (.nosplit {} false) importThenStatic true).toOption.map (·.1) =
      some (["import", "static", "a", ";", "<EOF>"].map String.toList) ∧
    prepText (["import static", "a", ";", "<EOF>"].map String.toList) = prepText (["import", "static", "a", ";", "<EOF>"].map String.toList) ∧
    (getVocab [prepText (["import static", "a", ";", "<EOF>"].map String.toList)]).keys =
      ["import", "static", "a", ";", "<EOF>"].map String.toList := by
  refine ⟨by decide +kernel, by decide +kernel, by decide +kernel, by decide +kernel⟩

end Verif.Props
