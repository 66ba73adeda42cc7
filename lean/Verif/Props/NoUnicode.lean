import Verif.Proofs.NoUnicode
import Verif.Props.Config
import Verif.Props.Preprocess
/-!
# C27: the option `no_unicode`
-/
namespace Verif.Props
open Verif Verif.Spec

theorem plain_asciiLower {s : Str} (h : Plain s) : Plain (s.map asciiToLower) := by
  intro c hc
  obtain ⟨d, hd, rfl⟩ := List.mem_map.mp hc
  unfold asciiToLower
  split
  · next hu =>
    left
    unfold asciiUpper at hu
    simp at hu
    have hv : Nat.isValidChar (d.toNat + 32) := by unfold Nat.isValidChar; omega
    have : (Char.ofNat (d.toNat + 32)).toNat = d.toNat + 32 := by rw [Char.ofNat, dif_pos hv]; rfl
    omega
  · exact h d hd

theorem plain_asciiUpper {s : Str} (h : Plain s) : Plain (s.map asciiToUpper) := by
  intro c hc
  obtain ⟨d, hd, rfl⟩ := List.mem_map.mp hc
  unfold asciiToUpper
  split
  · next hu =>
    left
    unfold asciiLower at hu
    simp at hu
    have hv : Nat.isValidChar (d.toNat - 32) := by unfold Nat.isValidChar; omega
    have : (Char.ofNat (d.toNat - 32)).toNat = d.toNat - 32 := by rw [Char.ofNat, dif_pos hv]; rfl
    omega
  · exact h d hd

theorem demoEnv_keeps : KeepsPlain demoEnv where
  lower := fun _ h => plain_asciiLower h
  upper := fun _ h => plain_asciiUpper h
  capitalize := by
    intro s h
    cases s with
    | nil => exact h
    | cons c r =>
      have h1 := plain_asciiUpper (s := [c]) (h.sub (by simp))
      exact plain_append h1 (plain_asciiLower (h.sub (by simp +contextual)))
  ronin := by intro s h p hp; simp [demoEnv] at hp; subst hp; exact h
  porter := fun _ h => h

/-- **C27**, partial: with `no_unicode`, for every splitting mode, the output consists of ASCII characters and the two placeholders,
if all non-ASCII characters of the text are letters or digits in names, comments and string literals.  Other non-ASCII characters are
not replaced; see `C27_violated`. -/
theorem C27_output_partial (env : Env) (hu : env.ucd.Laws) (hk : KeepsPlain env) (load : Str → Except PyErr BpeData)
    (hload : ∀ i d, load i = .ok d → PlainCache d) (call : ApiCall) (hn : (optsOf call).noUnicode = true)
    (lexed : List (TokType × Str)) (hl : ∀ e ∈ lexed, OnlyWordsNonAscii env.ucd e) (appendEof : Bool) (out : List Str) (md : Meta)
    (h : textApi env load call lexed appendEof = .ok (out, md)) : ∀ t ∈ out, Plain t := by
  obtain ⟨v, hv, hp⟩ := createStrValue_ok (optsOf call).noStr (optsOf call).maxStrLength
  have hc := (textConfig_eq call hv hp).1
  have hval := configOf_valid call hp
  have hU : (configOf call v).enOnly = ['U'] := by simp [configOf, hn]
  unfold textApi at h
  simp only [hc, bind, Except.bind] at h
  unfold preprocessText at h
  cases ht : convertText env.ucd lexed with
  | error e => simp [ht, bind, Except.bind] at h
  | ok ts =>
    simp only [ht, bind, Except.bind] at h
    have hts := everywhereList_mem.mpr (clean_finish appendEof (clean_convertText hu hk hl ht))
    split at h
    · split at h
      · cases h
      · cases h
      · next ch r _ =>
        cases hd : load (ch :: r) with
        | error e => simp [hd] at h
        | ok d =>
          simp only [hd] at h
          exact plain_toRepr hk hval hU (by intro d' hd'; cases hd'; exact hload _ _ hd) hts h
    · exact plain_toRepr hk hval hU (by intro d' hd'; cases hd') hts h

/-- Non-vacuity of C27: a name, a comment and a string literal with non-ASCII letters, in four modes. -/
def umlauts : List (TokType × Str) :=
  [(["Name"], "größe".toList), (["Operator"], "=".toList), (["Literal", "String"], "\"äb ü\"".toList),
   (["Comment", "Single"], "// für".toList)]

example : (∀ e ∈ umlauts, OnlyWordsNonAscii demoEnv.ucd e) ∧ PlainCache ⟨[], []⟩ ∧
    (textApi demoEnv (fun _ => .ok ⟨[], []⟩) (.chars { noUnicode := true }) umlauts false).toOption.map (·.1) =
      some (["g", "r", "÷", "e", "</t>", "=</t>", "\"", "÷", "b", "\u00a0", "÷", "\"", "</t>", "/</t>", "/</t>", "f", "÷", "r", "</t>",
        "<EOL></t>"].map String.toList) ∧
    (textApi demoEnv (fun _ => .error .keyError) (.nosplit { noUnicode := true } true) umlauts false).toOption.map (·.1) =
      some (["<non-en>", "=", "\"÷b\u00a0÷\"", "/", "/", "<non-en>", "<EOL>"].map String.toList) := by
  refine ⟨?_, ?_, by decide +kernel, by decide +kernel⟩
  · unfold OnlyWordsNonAscii; decide +kernel
  · intro w l hw; cases hw

/-- **C27** With `no_unicode`, a word with a non-ASCII letter is replaced as a whole, unless BPE is used. -/
theorem C27_word (env : Env) (hu : env.ucd.Laws) (load : Str → Except PyErr BpeData) (call : ApiCall)
    (hn : (optsOf call).noUnicode = true) (hb : ∀ i o, call ≠ .bpe i o) (hc : ∀ o, call ≠ .chars o) (s : Str)
    (hw : ∀ c ∈ s, env.ucd.reWord c = true) (hsp : ∃ c ∈ s, env.ucd.space c = false) (ha : ∃ c ∈ s, 128 ≤ c.toNat) (ty : TokType)
    (hk : kindOf ty = .words) : ∃ md, textApi env load call [(ty, s)] false = .ok (["<non-en>".toList], md) := by
  obtain ⟨v, hv, hp⟩ := createStrValue_ok (optsOf call).noStr (optsOf call).maxStrLength
  have hcfg := (textConfig_eq call hv hp).1
  have hval := configOf_valid call hp
  have hU : (configOf call v).enOnly = ['U'] := by simp [configOf, hn]
  obtain ⟨c0, hc0, hge⟩ := ha
  have hnasc : isAscii c0 = false := by simp [isAscii]; omega
  have hne : s ≠ [] := List.ne_nil_of_mem hc0
  have h1 : s ≠ ['\n'] := by rintro rfl; simp at hc0; subst hc0; exact absurd hge (by decide)
  have h2 : s ≠ ['\t'] := by rintro rfl; simp at hc0; subst hc0; exact absurd hge (by decide)
  have h4 : s ≠ [' ', ' ', ' ', ' '] := by rintro rfl; simp at hc0; subst hc0; exact absurd hge (by decide)
  have hbl : env.ucd.isBlank s = false := by
    obtain ⟨c, hc, hs⟩ := hsp
    simp only [Ucd.isBlank, List.all_eq_false]
    exact ⟨c, hc, by simp [hs]⟩
  have hnum : isNumber s = false := by
    cases hh : isNumber s with
    | false => rfl
    | true => rw [(isNumber_ascii ((isNumber_iff s).mp hh)).2 c0 hc0] at hnasc; cases hnasc
  have hngl : isNonEng s = true := by
    simp only [isNonEng, Bool.not_eq_true', List.all_eq_false]
    exact ⟨c0, hc0, by simp [hnasc]⟩
  obtain ⟨subs, hsub⟩ := splitIdentifier_ok hu s
  rw [hngl, if_pos rfl] at hsub
  have hpieces : finditer (wordMatch env.ucd) s.length s = [s] := by
    refine (textSplit_iff hu s [s]).mp ?_
    have := TextSplit.word (u := env.ucd) (w := s) (r := []) (ps := []) hne hw (by intro c h; simp at h) .nil
    simpa using this
  have htok : toParsedToken env.ucd s = .ok (.nonEng subs) := by
    unfold toParsedToken
    rw [if_neg h1, if_neg h2, hnum, isWordText_iff hne hw]
    simpa using hsub
  have hconv : convertText env.ucd [(ty, s)] = .ok [.nonEng subs] := by
    have h3 : convert env.ucd ty s = .ok [.nonEng subs] := by
      rw [convert_kind _ _ _ hbl h1 h2, hk]
      show splitIntoWords env.ucd s = _
      unfold splitIntoWords
      rw [hpieces]
      simp [wordPiece, if_neg h4, htok, List.mapM_cons, bind, Except.bind, pure, Except.pure]
    simp [convertText, h3, bind, Except.bind]
  have hnb : (configOf call v).isBpe = false := by
    cases call with
    | bpe i o => exact absurd rfl (hb i o)
    | chars o => exact absurd rfl (hc o)
    | nosplit o fs => cases fs <;> simp [configOf, PrepConfig.isBpe, splitCode]
    | basic o sn ro st nc => cases sn <;> cases ro <;> cases st <;> simp [configOf, PrepConfig.isBpe, splitCode]
  unfold textApi
  simp only [hcfg, bind, Except.bind]
  unfold preprocessText
  simp only [hconv, bind, Except.bind, hnb, Bool.false_eq_true, if_false]
  obtain ⟨rc, hok, he⟩ := toRepr_eq (env := env) hval [.nonEng subs] none
  have hfin : finishParsed [.nonEng subs] false = [.nonEng subs] := rfl
  rw [hfin, he]
  have hty : Ty.nonEng ∈ rc.types := by rw [hok.types, typesToBeRepr_mem]; simp [hU]
  have hbp : rc.bpe = false := by rw [hok.bpe, hnb]; rfl
  have hun : unitsList env.ucd rc false [.nonEng subs] = .ok [⟨Ty.nonEng, [Ph.nonEng], []⟩] := by
    simp [unitsList, Tok.units, nonEngUnits, hty, hbp, bind, Except.bind]
  rw [hun]
  simp only [Except.map, hnb, Bool.false_eq_true, if_false]
  exact ⟨_, rfl⟩

example : (∀ c ∈ "größe".toList, demoEnv.ucd.reWord c = true) ∧ (∃ c ∈ "größe".toList, demoEnv.ucd.space c = false) ∧
    ∃ c ∈ "größe".toList, 128 ≤ c.toNat := by decide +kernel

/-- **C27 is violated**: non-ASCII characters that are not letters or digits are left as they are. -/
theorem C27_violated : (textApi demoEnv (fun _ => .error .keyError) (.nosplit { noUnicode := true } false)
    [(["Name"], "a«".toList)] false).toOption.map (·.1) = some ["a".toList, "«".toList] ∧ ¬ Plain "«".toList := by
  refine ⟨by decide +kernel, by decide +kernel⟩

/-- Also violated: with BPE, the capital letters of a word with a non-ASCII letter are lost, although they are ASCII. -/
theorem C27_case_violated : (textApi demoEnv (fun _ => .ok ⟨[], []⟩) (.chars { noUnicode := true })
    [(["Name"], "FooBarß".toList)] false).toOption.map (·.1) = some (["F", "o", "o", "b", "a", "r", "÷", "</t>"].map String.toList) ∧
    (textApi demoEnv (fun _ => .ok ⟨[], []⟩) (.chars { noUnicode := false })
    [(["Name"], "FooBarß".toList)] false).toOption.map (·.1) = some (["F", "o", "o", "B", "a", "r", "ß", "</t>"].map String.toList) := by
  refine ⟨by decide +kernel, by decide +kernel⟩

end Verif.Props
