import Verif.Proofs.Case
import Verif.Props.Strings
/-!
# Texts and string literals with any characters (C24, C26)
-/
namespace Verif.Props
open Verif Spec

/-- **C24** An identifier, of whatever characters, becomes a token that shows its pieces with the case made anew. -/
theorem C24_identifier_any (u : Ucd) (hu : u.Laws) (s : Str) :
    ∃ ps t, IdentSplit u s ps ∧ splitIdentifier u s = .ok t ∧ t.str u = (ps.map (recased u)).flatten :=
  identifier_recased hu s

/-- **C24** Any text is cut into the pieces that `TextSplit` describes, and the tokens show these pieces as `ShownTexts`
says. -/
theorem C24_words_any (u : Ucd) (hu : u.Laws) (s : Str) :
    ∃ ps ts, TextSplit u s ps ∧ splitIntoWords u s = .ok ts ∧ ShownTexts u ps (ts.map (Tok.str u)) := by
  obtain ⟨ps, hps⟩ := textSplit_total u s.length s (Nat.le_refl _)
  obtain ⟨ts, h1, h2⟩ := wordPiece_any hu hps
  exact ⟨ps, ts, hps, by rw [splitIntoWords, (textSplit_iff hu s ps).mp hps, h1], h2⟩

/-- **C24** The same for string literals. -/
theorem C24_literals_any (u : Ucd) (hu : u.Laws) (s : Str) :
    ∃ ps ts, LiteralSplit u s ps ∧ splitString u s = .ok ts ∧ ShownLiterals u ps (ts.map (Tok.str u)) := by
  obtain ⟨ps, hps⟩ := literalSplit_total u s.length s (Nat.le_refl _)
  obtain ⟨ts, h1, h2⟩ := stringPiece_any hu hps
  exact ⟨ps, ts, hps, by rw [splitString, (literalSplit_iff hu s ps).mp hps, h1], h2⟩

/-- **C24 (partial)** The tokens of any text show exactly the text (four spaces as a tab, other spaces removed) if
identifiers keep their case and number literals have no capitals.  Missing: without these conditions it is not so
(`C24_case_violated`, `C24_violated`). -/
theorem C24_text_any_partial (u : Ucd) (hu : u.Laws) (s : Str) (hn : NoCapitalNumbers u s)
    (hk : ∀ ps, TextSplit u s ps → KeepsCase u ps) :
    ∃ ts, splitIntoWords u s = .ok ts ∧ (ts.map (Tok.str u)).flatten = expandTabs s := by
  obtain ⟨ps, ts, h1, h2, h3⟩ := C24_words_any u hu s
  refine ⟨ts, h2, ?_⟩
  rw [shownTexts_keeps h3 (hk ps h1), ← textSplit_expandTabs hu h1]
  congr 1
  refine List.map_congr_left fun p hp => ?_
  unfold shownText
  rw [textSplit_numbers hu h1 [] (.inl (by simp)) hn p hp]

/-- **C24 (partial)** The tokens of any string literal show exactly the literal, under the same conditions. -/
theorem C24_literal_any_partial (u : Ucd) (hu : u.Laws) (s : Str) (hn : NoCapitalNumbers u s)
    (hk : ∀ ps, LiteralSplit u s ps → KeepsCase u ps) :
    ∃ ts, splitString u s = .ok ts ∧ (ts.map (Tok.str u)).flatten = nbsp s := by
  obtain ⟨ps, ts, h1, h2, h3⟩ := C24_literals_any u hu s
  refine ⟨ts, h2, ?_⟩
  rw [shownLiterals_keeps h3 (hk ps h1)]
  conv => rhs; rw [← literalSplit_flatten h1, nbsp_flatten]
  congr 1
  refine List.map_congr_left fun p hp => ?_
  unfold shownLiteral
  rw [literalSplit_numbers hu h1 [] (.inl (by simp)) hn p hp]

/-! ## A letter that does not keep its case -/

/-- A character database that knows ASCII and the letter `İ`, whose lower case is `i` with a combining dot (U+0307); the
upper case of that is `I` with a combining dot. -/
def dottedUcd : Ucd where
  upper := fun c => asciiUpper c || c = '\u0130'
  lower := asciiLower
  title := fun _ => false
  space := asciiUcd.space
  reWord := fun c => asciiUpper c || asciiLower c || asciiDigit c || c = '_' || c = '\u0130'
  reUpper := fun c => asciiUpper c || c = '\u0130'
  reLower := asciiLower
  toLower := fun s => s.flatMap fun c => if c = '\u0130' then ['i', '\u0307'] else [asciiToLower c]
  toUpper := fun s => s.map asciiToUpper
  capitalize := fun s => match s with
    | [] => []
    | c :: r => asciiToUpper c :: r.flatMap fun c => if c = '\u0130' then ['i', '\u0307'] else [asciiToLower c]

theorem dotted_not_ascii {c : Char} (h : isAscii c = true) : c ≠ '\u0130' := by
  rintro rfl
  revert h
  decide

theorem dotted_toLower_ascii {s : Str} (h : s.all isAscii = true) :
    (s.flatMap fun c => if c = '\u0130' then ['i', '\u0307'] else [asciiToLower c]) = s.map asciiToLower := by
  induction s with
  | nil => rfl
  | cons c r ih =>
    rw [List.all_cons, Bool.and_eq_true] at h
    rw [List.flatMap_cons, if_neg (dotted_not_ascii h.1), ih h.2]
    rfl

theorem dotted_stable {s : Str} {c : Char} (h : c ∈ dottedUcd.toLower s) : c ≠ '\u0130' ∧ asciiToLower c = c := by
  obtain ⟨d, -, hd⟩ := List.mem_flatMap.mp h
  split at hd
  · rcases List.mem_cons.mp hd with rfl | hd
    · exact ⟨by decide, by decide⟩
    · rw [List.mem_singleton.mp hd]
      exact ⟨by decide, by decide⟩
  · rename_i hne
    rw [List.mem_singleton.mp hd]
    refine ⟨?_, asciiToLower_idem d⟩
    unfold asciiToLower
    split
    · rename_i hu
      intro e
      have hn := congrArg Char.toNat e
      simp only [asciiUpper, Bool.and_eq_true, decide_eq_true_eq] at hu
      have hv : Nat.isValidChar (d.toNat + 32) := by unfold Nat.isValidChar; omega
      have : (Char.ofNat (d.toNat + 32)).toNat = d.toNat + 32 := by rw [Char.ofNat, dif_pos hv]; rfl
      rw [this] at hn
      have h2 : ('\u0130' : Char).toNat = 304 := by decide
      omega
    · exact hne

theorem dottedUcd_laws : dottedUcd.Laws where
  upper_ascii := fun c hc => by simp [dottedUcd, dotted_not_ascii hc]
  lower_ascii := fun _ _ => rfl
  title_ascii := fun _ _ => rfl
  space_ascii := fun _ _ => rfl
  reWord_ascii := fun c hc => by simp [dottedUcd, dotted_not_ascii hc]
  reUpper_ascii := fun c hc => by simp [dottedUcd, dotted_not_ascii hc]
  reLower_ascii := fun _ _ => rfl
  toLower_ascii := fun _ h => dotted_toLower_ascii h
  toUpper_ascii := fun _ _ => rfl
  capitalize_ascii := by
    intro s h
    cases s with
    | nil => rfl
    | cons c r =>
      rw [List.all_cons, Bool.and_eq_true] at h
      exact congrArg _ (dotted_toLower_ascii h.2)
  upper_not_lower := by
    intro c h
    rw [dottedUcd, Bool.or_eq_true] at h
    refine ⟨?_, rfl⟩
    rcases h with h | h
    · exact (asciiUcd_laws.upper_not_lower c h).1
    · rw [of_decide_eq_true h]; decide
  reUpper_not_reLower := by
    intro c h
    rw [dottedUcd, Bool.or_eq_true] at h
    rcases h with h | h
    · exact (asciiUcd_laws.upper_not_lower c h).1
    · rw [of_decide_eq_true h]; decide
  toLower_ne_nil := by
    intro s h
    cases s with
    | nil => exact absurd rfl h
    | cons c r =>
      change List.flatMap _ _ ≠ _
      rw [List.flatMap_cons]
      split <;> simp
  toUpper_ne_nil := by intro s h; simpa [dottedUcd] using h
  capitalize_ne_nil := by
    intro s h
    cases s with
    | nil => exact absurd rfl h
    | cons c r => simp [dottedUcd]
  toLower_idem := by
    intro s
    have : ∀ t : Str, (∀ c ∈ t, c ≠ '\u0130' ∧ asciiToLower c = c) → dottedUcd.toLower t = t := by
      intro t
      induction t with
      | nil => intro _; rfl
      | cons c r ih =>
        intro h
        have h1 := h c (by simp)
        have h2 := ih fun c hc => h c (by simp [hc])
        change List.flatMap _ _ = _
        rw [List.flatMap_cons, if_neg h1.1, h1.2]
        exact congrArg (c :: ·) h2
    exact this _ fun c hc => dotted_stable hc
  toLower_stable := by
    intro s c h
    have := dotted_stable h
    simp [dottedUcd, this.1, this.2]

/-- **C24 is violated** also by identifiers: the name `İ` is output as two characters, `I` and a combining dot. -/
theorem C24_case_violated : dottedUcd.Laws ∧
    (∃ ts, splitIntoWords dottedUcd ['\u0130', ' ', '=', ' ', 'x'] = .ok ts ∧
      (ts.map (Tok.str dottedUcd)).flatten = ['I', '\u0307', '=', 'x']) ∧
    expandTabs ['\u0130', ' ', '=', ' ', 'x'] = ['\u0130', '=', 'x'] := by
  refine ⟨dottedUcd_laws, ⟨[.nonEng [.word ['i', '\u0307'] .all], .nonCodeChar ['='], .split [.word ['x'] .none]],
    rfl, by decide +kernel⟩, by decide +kernel⟩

/-! ## Texts without capital letters -/

theorem identSplit_mem {u : Ucd} {s : Str} {qs : List Str} (h : IdentSplit u s qs) : ∀ q ∈ qs, ∀ c ∈ q, c ∈ s := by
  induction h with
  | nil => simp
  | underscore _ ih | other _ _ _ _ _ _ ih =>
    intro q hq c hc
    rcases List.mem_cons.mp hq with rfl | hq
    · rw [List.mem_singleton.mp hc]; simp
    · exact List.mem_cons_of_mem _ (ih q hq c hc)
  | digits _ _ _ _ ih | lower _ _ _ _ ih | capitalised _ _ _ _ _ ih | capitals _ _ _ _ _ ih =>
    intro q hq c hc
    rcases List.mem_cons.mp hq with rfl | hq
    · exact List.mem_append_left _ hc
    · exact List.mem_append_right _ (ih q hq c hc)
  | space _ ih => exact fun q hq c hc => List.mem_cons_of_mem _ (ih q hq c hc)

theorem recased_small {u : Ucd} {q : Str} (h : ∀ c ∈ q, u.upper c = false) : recased u q = q := by
  cases q with
  | nil => rfl
  | cons c r =>
    have h1 : u.isUpper (c :: r) = false := by
      rw [Ucd.isUpper, Bool.and_eq_false_iff]
      exact .inr (List.any_eq_false.mpr fun d hd => by simp [h d hd])
    have h2 : ¬ (u.isLower (c :: r) = false ∧ u.isUpper [c] = true) := by
      rintro ⟨-, e⟩
      rw [Ucd.isUpper, Bool.and_eq_true] at e
      simp [h c (by simp)] at e
    rw [recased_cons, if_neg (show ¬ u.isUpper (c :: r) = true by simp [h1]), if_neg h2]

theorem keepsCase_small {u : Ucd} {ps : List Str} (h : ∀ p ∈ ps, ∀ c ∈ p, u.upper c = false) : KeepsCase u ps :=
  fun p hp _ _ _ hq q hqs => recased_small fun c hc => h p hp c (identSplit_mem hq q hqs c hc)

theorem textSplit_mem {u : Ucd} {s : Str} {ps : List Str} (h : TextSplit u s ps) : ∀ p ∈ ps, ∀ c ∈ p, c ∈ s := by
  induction h with
  | nil => simp
  | word _ _ _ _ ih =>
    intro p hp c hc
    rcases List.mem_cons.mp hp with rfl | hp
    · exact List.mem_append_left _ hc
    · exact List.mem_append_right _ (ih p hp c hc)
  | char _ _ _ ih =>
    intro p hp c hc
    rcases List.mem_cons.mp hp with rfl | hp
    · rw [List.mem_singleton.mp hc]; simp
    · exact List.mem_cons_of_mem _ (ih p hp c hc)
  | fourSpaces _ ih =>
    intro p hp c hc
    rcases List.mem_cons.mp hp with rfl | hp
    · simp at hc; simp [hc]
    · have := ih p hp c hc; simp [this]
  | space _ _ ih => exact fun p hp c hc => List.mem_cons_of_mem _ (ih p hp c hc)

theorem small_numbers {u : Ucd} (hu : u.Laws) {s : Str} (h : ∀ c ∈ s, u.upper c = false) : NoCapitalNumbers u s := by
  refine noCapitalNumbers_of fun c hc => ?_
  by_cases ha : isAscii c = true
  · rw [← hu.upper_ascii c ha]; exact h c hc
  · simp only [isAscii, decide_eq_true_eq] at ha
    simp only [asciiUpper, Bool.and_eq_false_iff, decide_eq_false_iff_not]
    right; omega

/-- **C24** A text of any characters in which there is no capital letter is shown exactly. -/
theorem C24_text_small (u : Ucd) (hu : u.Laws) (s : Str) (h : ∀ c ∈ s, u.upper c = false) :
    ∃ ts, splitIntoWords u s = .ok ts ∧ (ts.map (Tok.str u)).flatten = expandTabs s :=
  C24_text_any_partial u hu s (small_numbers hu h) fun _ hps =>
    keepsCase_small fun p hp c hc => h c (textSplit_mem hps p hp c hc)

/-- **C24** The same for string literals. -/
theorem C24_literal_small (u : Ucd) (hu : u.Laws) (s : Str) (h : ∀ c ∈ s, u.upper c = false) :
    ∃ ts, splitString u s = .ok ts ∧ (ts.map (Tok.str u)).flatten = nbsp s :=
  C24_literal_any_partial u hu s (small_numbers hu h) fun _ hps =>
    keepsCase_small fun p hp c hc => h c (by
      rw [← literalSplit_flatten hps]; exact List.mem_flatten.mpr ⟨p, hp, hc⟩)

-- a text with word characters outside ASCII, so that `C24_text_partial` does not apply
example : (∀ c ∈ "größe = 10;".toList, asciiUcd.upper c = false) ∧ ¬ AsciiWords asciiUcd "größe = 10;".toList := by
  refine ⟨by decide +kernel, fun h => ?_⟩
  exact absurd (h 'ö' (by decide +kernel) (by decide +kernel)) (by decide +kernel)

-- what the example text becomes
example : (splitIntoWords asciiUcd "größe = 10;".toList).toOption.map (·.map (Tok.str asciiUcd)) =
    some ["größe".toList, ['='], "10".toList, [';']] := by decide +kernel

/-! ## C26 for all literals -/

/-- **C26** With full strings, and when characters outside ASCII are kept, any literal is output as one token that shows its
pieces as `ShownLiterals` says. -/
theorem C26_full_strings_any (env : Env) (hu : env.ucd.Laws) (load : Str → Except PyErr BpeData) (o : CommonOpts)
    (hn : o.noStr = false) (huni : o.noUnicode = false) (lit : Str) (hb : env.ucd.isBlank lit = false)
    (hlen : (lit.length : Int) ≤ o.maxStrLength) (hmax : lit.length ≤ sysMaxsize) (ty : TokType)
    (hk : kindOf ty = .string) :
    ∃ ps xs md, LiteralSplit env.ucd lit ps ∧ ShownLiterals env.ucd ps xs ∧
      textApi env load (.nosplit o true) [(ty, lit)] false = .ok ([xs.flatten], md) := by
  obtain ⟨v, n, hv, hvp, hg, hz, hln⟩ := limit_enough o.maxStrLength lit.length hlen hmax
  rw [← hn] at hv
  have hc := (textConfig_eq (.nosplit o true) hv hvp).1
  have hcv := configOf_valid (.nosplit o true) hvp
  obtain ⟨ps, ts, h1, h3, h4⟩ := C24_literals_any env.ucd hu lit
  have hstr : strList env.ucd ts = (ts.map (Tok.str env.ucd)).flatten := strList_eq _ _
  have hne : lit ≠ ['\n'] ∧ lit ≠ ['\t'] := by
    constructor
    · rintro rfl
      simp [Ucd.isBlank, hu.space_ascii '\n' (by decide)] at hb
    · rintro rfl
      simp [Ucd.isBlank, hu.space_ascii '\t' (by decide)] at hb
  have hconv : convertText env.ucd [(ty, lit)] = .ok [.stringLiteral ts lit.length] := by
    rw [C25_single, convert_kind _ _ _ hb hne.1 hne.2, hk]
    simp [tokensOf, h3, Except.map]
  obtain ⟨rc, hok, hr⟩ := toRepr_eq (env := env) hcv [.stringLiteral ts lit.length] none
  have hm : rc.maxStrLength = some n := by
    have := hok.maxLen
    have e : (configOf (.nosplit o true) v).str = v := rfl
    rw [e, hg] at this
    exact (Except.ok.inj this).symm
  have hty : Ty.stringLiteral ∉ rc.types := by
    rw [hok.types, typesToBeRepr_mem]
    simp [configOf, hz]
  have hfull : rc.fullStrings = true := by rw [hok.fullStrings]; simp [configOf, splitCode]
  have hbpe : rc.bpe = false := by rw [hok.bpe]; simp [configOf, splitCode, PrepConfig.isBpe]
  have hrep : replaceInString rc (strList env.ucd ts) = .ok (strList env.ucd ts) := by
    refine replaceInString_id fun hm => ?_
    rw [hok.types, typesToBeRepr_mem] at hm
    simp [configOf, optsOf, huni] at hm
  have hunits : unitsList env.ucd rc false [.stringLiteral ts lit.length] =
      .ok [⟨.stringLiteral, [strList env.ucd ts], []⟩] := by
    have hlt : ¬ lit.length > n := by omega
    simp only [unitsList, Tok.units, if_neg hty, hm, if_neg hlt, hbpe, hfull, hrep, Bool.false_eq_true, if_false, if_true,
      bind, Except.bind, List.append_nil]
  have hnb : (configOf (.nosplit o true) v).isBpe = false := by simp [configOf, splitCode, PrepConfig.isBpe]
  refine ⟨ps, _, (flatForm [⟨.stringLiteral, [strList env.ucd ts], []⟩]).2, h1, h4, ?_⟩
  unfold textApi
  rw [hc]
  simp only [bind, Except.bind]
  unfold preprocessText
  rw [hconv]
  simp only [bind, Except.bind, hnb, Bool.false_eq_true, if_false]
  have : finishParsed [Tok.stringLiteral ts lit.length] false = [Tok.stringLiteral ts lit.length] := rfl
  rw [this, hr, hunits]
  simp [Except.map, hnb, hstr]

/-- **C26** With full strings a literal without capital letters is output as one token: the literal with non-breaking
spaces.  Its characters need not be ASCII. -/
theorem C26_full_strings_small (env : Env) (hu : env.ucd.Laws) (load : Str → Except PyErr BpeData) (o : CommonOpts)
    (hn : o.noStr = false) (huni : o.noUnicode = false) (lit : Str) (hs : ∀ c ∈ lit, env.ucd.upper c = false)
    (hb : env.ucd.isBlank lit = false) (hlen : (lit.length : Int) ≤ o.maxStrLength) (hmax : lit.length ≤ sysMaxsize)
    (ty : TokType) (hk : kindOf ty = .string) :
    ∃ md, textApi env load (.nosplit o true) [(ty, lit)] false = .ok ([nbsp lit], md) := by
  obtain ⟨ps, xs, md, h1, h2, h3⟩ := C26_full_strings_any env hu load o hn huni lit hb hlen hmax ty hk
  refine ⟨md, ?_⟩
  rw [h3, shownLiterals_keeps h2 (keepsCase_small fun p hp c hc => hs c (by
    rw [← literalSplit_flatten h1]; exact List.mem_flatten.mpr ⟨p, hp, hc⟩))]
  congr 3
  conv => rhs; rw [← literalSplit_flatten h1, nbsp_flatten]
  congr 1
  refine List.map_congr_left fun p hp => ?_
  unfold shownLiteral
  rw [literalSplit_numbers hu h1 [] (.inl (by simp)) (small_numbers hu hs) p hp]

example : (textApi demoEnv (fun _ => .error .keyError) (.nosplit {} true)
    [(["Literal", "String", "Double"], "\"größe  10\"".toList)] false).toOption.map (·.1) =
      some ["\"größe\u00a0\u00a010\"".toList] := by decide +kernel

end Verif.Props
