import Verif.Props.Parse
/-!
# String literals (C26)
-/
namespace Verif.Props
open Verif Spec

theorem strList_eq (u : Ucd) (ts : List Tok) : strList u ts = (ts.map (Tok.str u)).flatten := by
  induction ts with
  | nil => rfl
  | cons t r ih => rw [strList, ih]; rfl

theorem limit_enough (m : Int) (k : Nat) (h : (k : Int) ≤ m) (hk : k ≤ sysMaxsize) :
    ∃ v n, createStrValue false m = .ok v ∧ v ∈ possibleStrValues ∧ getMaxStrLength v = .ok (some n) ∧ v ≠ ['0'] ∧ k ≤ n := by
  have hl : possibleStrValues.length = 62 := by decide +kernel
  by_cases h2 : m < 2
  · refine ⟨['2'], 2, ?_, by decide +kernel, by decide +kernel, by decide, by omega⟩
    unfold createStrValue
    rw [if_neg (by decide), if_pos (by omega)]
  · by_cases h62 : m < 62
    · obtain ⟨v, h1, h3, h4, h5⟩ := limit_decoded m.toNat (by omega) (by omega)
      have e : ((m.toNat : Nat) : Int) = m := by omega
      rw [e] at h1
      exact ⟨v, m.toNat, h1, h3, h4, h5, by omega⟩
    · refine ⟨['1'], sysMaxsize, ?_, by decide +kernel, by decide +kernel, by decide, hk⟩
      unfold createStrValue
      rw [if_neg (by decide), if_neg (by omega), if_neg (by rw [hl]; omega)]

theorem pySplit_mem {sep : Char} {s p : Str} (h : p ∈ pySplit sep s) : ∀ c ∈ p, c ∈ s := by
  induction s generalizing p with
  | nil => simp [pySplit] at h; subst h; simp
  | cons x s ih =>
    rw [pySplit] at h
    split at h
    · rcases List.mem_cons.mp h with rfl | h
      · simp
      · exact fun c hc => by simp [ih h c hc]
    · split at h
      · simp at h; subst h; intro c hc; simp at hc; simp [hc]
      · rename_i q r he
        rcases List.mem_cons.mp h with rfl | h
        · intro c hc
          rcases List.mem_cons.mp hc with rfl | hc
          · simp
          · have := ih (p := q) (by rw [he]; simp) c hc
            simp [this]
        · have := ih (p := p) (by rw [he]; simp [h])
          exact fun c hc => by simp [this c hc]

theorem replaceInString_id {rc : ReprConfig} {s : Str} (h : Ty.nonEng ∈ rc.types → ∀ c ∈ s, c = '\u00a0' ∨ c.toNat < 128) :
    replaceInString rc s = .ok s := by
  unfold replaceInString
  split
  · rename_i hm
    have hs := h hm
    have hp : ∀ p ∈ pySplit '\u00a0' s, replaceNonAsciiSeqs p Ph.nonAsciiSeq = .ok p := by
      intro p hp
      refine C46_ascii_unchanged p '÷' fun c hc => ?_
      rcases hs c (pySplit_mem hp c hc) with rfl | h
      · exact absurd hc (pySplit_noSep_mem hp)
      · exact h
    have : (pySplit '\u00a0' s).mapM (fun t => replaceNonAsciiSeqs t Ph.nonAsciiSeq) = .ok (pySplit '\u00a0' s) := by
      generalize pySplit '\u00a0' s = l at hp
      induction l with
      | nil => rfl
      | cons a r ih => rw [List.mapM_cons, hp a (by simp), ih fun p hp' => hp p (by simp [hp'])]; rfl
    rw [this]
    simp only [bind, Except.bind]
    congr 1
    exact pyJoin_pySplit '\u00a0' s
  · rfl

/-- What full strings make of a literal: one token that shows the pieces of the literal. -/
theorem full_string (env : Env) (hu : env.ucd.Laws) (load : Str → Except PyErr BpeData) (o : CommonOpts)
    (hn : o.noStr = false) (lit : Str) (ha : AsciiWords env.ucd lit) (hb : env.ucd.isBlank lit = false)
    (huni : o.noUnicode = true → ∀ c ∈ lit, c.toNat < 128)
    (hlen : (lit.length : Int) ≤ o.maxStrLength) (hmax : lit.length ≤ sysMaxsize) (ty : TokType)
    (hk : kindOf ty = .string) :
    ∃ ps md, LiteralSplit env.ucd lit ps ∧
      textApi env load (.nosplit o true) [(ty, lit)] false = .ok ([(ps.map shownLiteral).flatten], md) := by
  obtain ⟨v, n, hv, hvp, hg, hz, hln⟩ := limit_enough o.maxStrLength lit.length hlen hmax
  rw [← hn] at hv
  have hc := (textConfig_eq (.nosplit o true) hv hvp).1
  have hcv := configOf_valid (.nosplit o true) hvp
  obtain ⟨ps, ts, h1, -, h3, h4⟩ := C24_literals env.ucd hu lit ha
  have hstr : strList env.ucd ts = (ps.map shownLiteral).flatten := by rw [strList_eq, h4]
  have hne : lit ≠ ['\n'] ∧ lit ≠ ['\t'] := by
    constructor
    · rintro rfl
      simp [Ucd.isBlank, hu.space_ascii '\n' (by decide)] at hb
    · rintro rfl
      simp [Ucd.isBlank, hu.space_ascii '\t' (by decide)] at hb
  have hconv : convertText env.ucd [(ty, lit)] = .ok [.stringLiteral ts lit.length] := by
    rw [C25_single, convert_kind _ _ _ hb hne.1 hne.2, hk]
    simp [tokensOf, h3, Except.map]
  obtain ⟨rc, hok, hr⟩ := toRepr_eq (env := env) hcv [.stringLiteral ts lit.length] none
  have hm : rc.maxStrLength = some n := by
    have := hok.maxLen
    have e : (configOf (.nosplit o true) v).str = v := rfl
    rw [e, hg] at this
    exact (Except.ok.inj this).symm
  have hty : Ty.stringLiteral ∉ rc.types := by
    rw [hok.types, typesToBeRepr_mem]
    simp [configOf, hz]
  have hfull : rc.fullStrings = true := by rw [hok.fullStrings]; simp [configOf, splitCode]
  have hbpe : rc.bpe = false := by rw [hok.bpe]; simp [configOf, splitCode, PrepConfig.isBpe]
  have hrep : replaceInString rc (strList env.ucd ts) = .ok (strList env.ucd ts) := by
    refine replaceInString_id fun hm => ?_
    have hun : o.noUnicode = true := by
      rw [hok.types, typesToBeRepr_mem] at hm
      simp [configOf, optsOf] at hm
      cases hnu : o.noUnicode <;> simp [hnu] at hm ⊢
    have hasc := huni hun
    rw [hstr]
    intro c hc
    obtain ⟨q, hq, hcq⟩ := List.mem_flatten.mp hc
    obtain ⟨p, hp, rfl⟩ := List.mem_map.mp hq
    have hpl : ∀ c ∈ p, c.toNat < 128 := fun c hc => hasc c (by
      rw [← literalSplit_flatten h1]; exact List.mem_flatten.mpr ⟨p, hp, hc⟩)
    have hlow : ∀ c ∈ lowerNumber p, c.toNat < 128 := by
      unfold lowerNumber
      split
      · intro c hc
        obtain ⟨d, hd, rfl⟩ := List.mem_map.mp hc
        have := asciiToLower_ascii (c := d) (by simp [isAscii, hpl d hd])
        simpa [isAscii] using this
      · exact hpl
    unfold shownLiteral nbsp at hcq
    obtain ⟨d, hd, rfl⟩ := List.mem_map.mp hcq
    split
    · exact .inl rfl
    · exact .inr (hlow d hd)
  have hunits : unitsList env.ucd rc false [.stringLiteral ts lit.length] =
      .ok [⟨.stringLiteral, [strList env.ucd ts], []⟩] := by
    have hlt : ¬ lit.length > n := by omega
    simp only [unitsList, Tok.units, if_neg hty, hm, if_neg hlt, hbpe, hfull, hrep, Bool.false_eq_true, if_false, if_true,
      bind, Except.bind, List.append_nil]
  have hnb : (configOf (.nosplit o true) v).isBpe = false := by simp [configOf, splitCode, PrepConfig.isBpe]
  refine ⟨ps, (flatForm [⟨.stringLiteral, [strList env.ucd ts], []⟩]).2, h1, ?_⟩
  unfold textApi
  rw [hc]
  simp only [bind, Except.bind]
  unfold preprocessText
  rw [hconv]
  simp only [bind, Except.bind, hnb, Bool.false_eq_true, if_false]
  have : finishParsed [Tok.stringLiteral ts lit.length] false = [Tok.stringLiteral ts lit.length] := rfl
  rw [this, hr, hunits]
  simp [Except.map, hnb, hstr]

/-- **C26 (partial)** With full strings a literal is output as one token: the literal with non-breaking spaces.  Missing:
this is not so if a number literal in it contains a capital letter (`C26_violated`); it is only proved if the word
characters of the literal are ASCII. -/
theorem C26_full_strings_partial (env : Env) (hu : env.ucd.Laws) (load : Str → Except PyErr BpeData) (o : CommonOpts)
    (hn : o.noStr = false) (lit : Str) (ha : AsciiWords env.ucd lit) (hc : NoCapitalNumbers env.ucd lit)
    (hb : env.ucd.isBlank lit = false) (huni : o.noUnicode = true → ∀ c ∈ lit, c.toNat < 128)
    (hlen : (lit.length : Int) ≤ o.maxStrLength) (hmax : lit.length ≤ sysMaxsize) (ty : TokType)
    (hk : kindOf ty = .string) :
    ∃ md, textApi env load (.nosplit o true) [(ty, lit)] false = .ok ([nbsp lit], md) := by
  obtain ⟨ps, md, h1, h2⟩ := full_string env hu load o hn lit ha hb huni hlen hmax ty hk
  refine ⟨md, ?_⟩
  rw [h2]
  congr 3
  conv => rhs; rw [← literalSplit_flatten h1, nbsp_flatten]
  congr 1
  refine List.map_congr_left fun p hp => ?_
  unfold shownLiteral
  rw [literalSplit_numbers hu h1 [] (.inl (by simp)) hc p hp]

/-- **C26** Without the condition on numbers, the literal is still output as one token and only the case of letters can
differ. -/
theorem C26_full_strings_up_to_case (env : Env) (hu : env.ucd.Laws) (load : Str → Except PyErr BpeData) (o : CommonOpts)
    (hn : o.noStr = false) (lit : Str) (ha : AsciiWords env.ucd lit)
    (hb : env.ucd.isBlank lit = false) (huni : o.noUnicode = true → ∀ c ∈ lit, c.toNat < 128)
    (hlen : (lit.length : Int) ≤ o.maxStrLength) (hmax : lit.length ≤ sysMaxsize) (ty : TokType)
    (hk : kindOf ty = .string) :
    ∃ out md, textApi env load (.nosplit o true) [(ty, lit)] false = .ok ([out], md) ∧
      out.map asciiToLower = (nbsp lit).map asciiToLower := by
  obtain ⟨ps, md, h1, h2⟩ := full_string env hu load o hn lit ha hb huni hlen hmax ty hk
  refine ⟨_, md, h2, ?_⟩
  rw [← literalSplit_flatten h1, nbsp_flatten]
  refine map_flatten_congr fun p _ => ?_
  unfold shownLiteral
  rw [nbsp_lower, nbsp_lower, lowerNumber_lower]

/-- **C26 is violated**: capital letters in a number within a literal are not kept. -/
theorem C26_violated : (textApi demoEnv (fun _ => .error .keyError) (.nosplit {} true)
    [(["Literal", "String"], "\"mask 0xFF\"".toList)] false).toOption.map (·.1) =
      some ["\"mask\u00a00xff\"".toList] := by
  decide +kernel

/-- The hypotheses are met by a literal with words, a number and several spaces. -/
example : kindOf ["Literal", "String", "Double"] = .string ∧ asciiUcd.isBlank "\"a  b 10\"".toList = false ∧
    AsciiWords asciiUcd "\"a  b 10\"".toList ∧ (textApi demoEnv (fun _ => .error .keyError) (.nosplit {} true)
    [(["Literal", "String", "Double"], "\"a  b 10\"".toList)] false).toOption.map (·.1) =
      some ["\"a\u00a0\u00a0b\u00a010\"".toList] := by
  refine ⟨by decide, by decide +kernel, ?_, by decide +kernel⟩
  unfold AsciiWords; decide +kernel

/-- A literal without capital letters meets the condition on numbers. -/
theorem noCapitalNumbers_of {u : Ucd} {s : Str} (h : ∀ c ∈ s, asciiUpper c = false) : NoCapitalNumbers u s := by
  intro a w b e _ _ _ _ c hc
  exact h c (by rw [e]; simp [hc])

end Verif.Props
