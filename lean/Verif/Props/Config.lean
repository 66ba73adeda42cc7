import Verif.Spec.Api
import Verif.Proofs.Congr
import Verif.Proofs.Literal
import Verif.Props.Preprocess
/-!
# Properties of configurations, options and placeholders (C21, C28, C29, C46)
-/
namespace Verif.Props
open Verif Spec

/-! ## C28 -/

/-- **C28** Decoding the string of a configuration gives back the configuration. -/
theorem C28_encode_decode (d : Dict PrepParam Str) (c : PrepConfig) (h : PrepConfig.make d = .ok c) :
    PrepConfig.fromEncoded c.toStr = .ok c :=
  (fromEncoded_ok_iff _ _).mpr ⟨((make_ok_iff d c).mp h).2.2, rfl⟩

/-- **C28** The string of a decoded configuration is the string it was decoded from. -/
theorem C28_decode_encode (s : Str) (c : PrepConfig) (h : PrepConfig.fromEncoded s = .ok c) : c.toStr = s :=
  ((fromEncoded_ok_iff _ _).mp h).2.symm

/-- **C28** Different configurations have different strings. -/
theorem C28_injective (d d' : Dict PrepParam Str) (c c' : PrepConfig) (h : PrepConfig.make d = .ok c)
    (h' : PrepConfig.make d' = .ok c') (he : c.toStr = c'.toStr) : c = c' := by
  have h1 := C28_encode_decode d c h
  rw [he, C28_encode_decode d' c' h'] at h1
  exact (Except.ok.inj h1).symm

/-- **C28** Decoding accepts exactly the valid strings. -/
theorem C28_accepts (s : Str) : (∃ c, PrepConfig.fromEncoded s = .ok c) ↔ ValidCode s := by
  constructor
  · rintro ⟨c, h⟩
    obtain ⟨hv, rfl⟩ := (fromEncoded_ok_iff _ _).mp h
    obtain ⟨a, h1⟩ := possible_single hv.enOnly
    obtain ⟨b, h2⟩ := possible_single hv.com
    obtain ⟨c', h3⟩ := possible_single hv.str
    obtain ⟨d, h4⟩ := possible_single hv.split
    obtain ⟨e, h5⟩ := possible_single hv.tabs
    obtain ⟨f, h6⟩ := possible_single hv.case
    have hc : c = ⟨[a], [b], [c'], [d], [e], [f]⟩ := by cases c; simp_all
    subst hc
    exact (valid_iff_code a b c' d e f).mp hv
  · intro h
    obtain ⟨a, b, c, d, e, f, rfl, -⟩ := id h
    exact ⟨⟨[a], [b], [c], [d], [e], [f]⟩, (fromEncoded_ok_iff _ _).mpr ⟨(valid_iff_code a b c d e f).mpr h, rfl⟩⟩

/-- **C28** Every other string is rejected with `ValueError`. -/
theorem C28_rejects (s : Str) (h : ¬ ValidCode s) : PrepConfig.fromEncoded s = .error .valueError := by
  have hno : ¬ ∃ c, PrepConfig.fromEncoded s = .ok c := fun hc => h ((C28_accepts s).mp hc)
  unfold PrepConfig.fromEncoded at hno ⊢
  split
  · rfl
  · rename_i hl
    rw [if_neg hl] at hno
    have hl : s.length = 6 := by simpa [PrepParam.all] using hl
    match s, hl with
    | [a, b, c, d, e, f], _ =>
      rcases make_total (paramDict [a, b, c, d, e, f]) (by rw [paramDict_six]; rfl)
          (by intro p; rw [paramDict_six]; cases p <;> simp [Dict.keys]) with h1 | h1
      · exact absurd h1 hno
      · exact h1

/-- **C28** A configuration is accepted exactly if it has one possible value for each of the six options and does not combine
lower-casing with a mode that does not support it. -/
theorem C28_constructor (en com str spl tabs case : Char) :
    (∃ c, PrepConfig.make [(.enOnly, [en]), (.com, [com]), (.str, [str]), (.split, [spl]), (.tabsNewlines, [tabs]), (.case, [case])]
      = .ok c) ↔ ValidCode [en, com, str, spl, tabs, case] := by
  rw [← C28_accepts]
  unfold PrepConfig.fromEncoded
  rw [if_neg (by simp [PrepParam.all]), paramDict_six]

/-- Non-vacuity of C28. -/
example : PrepConfig.fromEncoded "Uc13su".toList = .ok ⟨['U'], ['c'], ['1'], ['3'], ['s'], ['u']⟩ ∧
    ¬ ValidCode "uc1Fsl".toList ∧ ¬ ValidCode "uc1Fs".toList := by
  refine ⟨by decide +kernel, ?_, ?_⟩
  · rw [← C28_accepts]
    rintro ⟨c, h⟩
    have : PrepConfig.fromEncoded "uc1Fsl".toList = .error .valueError := by decide +kernel
    rw [this] at h; cases h
  · rw [← C28_accepts]
    rintro ⟨c, h⟩
    have : PrepConfig.fromEncoded "uc1Fs".toList = .error .valueError := by decide +kernel
    rw [this] at h; cases h

/-! ## C29 -/

theorem createStrValue_ok (b : Bool) (n : Int) : ∃ v, createStrValue b n = .ok v ∧ v ∈ possibleStrValues := by
  unfold createStrValue
  split
  · exact ⟨_, rfl, by decide +kernel⟩
  · split
    · exact ⟨_, rfl, by decide +kernel⟩
    · split
      · rename_i h
        have hlt : n.toNat < possibleStrValues.length := by omega
        rw [List.getElem?_eq_getElem hlt]
        exact ⟨_, rfl, List.getElem_mem _⟩
      · exact ⟨_, rfl, by decide +kernel⟩

theorem make_six {a b c d e f : Str} (hv : (PrepConfig.mk a b c d e f).Valid) :
    PrepConfig.make [(.enOnly, a), (.com, b), (.str, c), (.split, d), (.tabsNewlines, e), (.case, f)] =
      .ok ⟨a, b, c, d, e, f⟩ := by
  rw [make_ok_iff]
  refine ⟨rfl, fun p => ?_, hv⟩
  cases p <;> simp [Dict.get?, PrepConfig.get]

/-- The configuration of a call. -/
def configOf (call : ApiCall) (v : Str) : PrepConfig :=
  ⟨if (optsOf call).noUnicode then ['U'] else ['u'], if (optsOf call).noCom then ['0'] else ['c'], v,
    [splitCode call], if (optsOf call).noSpaces then ['0'] else ['s'], if noCaseOf call then ['l'] else ['u']⟩

theorem configOf_valid (call : ApiCall) {v : Str} (h : v ∈ possibleStrValues) : (configOf call v).Valid := by
  refine ⟨?_, ?_, h, ?_, ?_, ?_, ?_⟩
  · simp only [configOf]; split <;> simp [possibleParamValues]
  · simp only [configOf]; split <;> simp [possibleParamValues]
  · cases call <;> simp only [configOf, splitCode] <;> (repeat' split) <;> simp [possibleParamValues]
  · simp only [configOf]; split <;> simp [possibleParamValues]
  · simp only [configOf]; split <;> simp [possibleParamValues]
  · cases call with
    | basic o sn ro st nc => cases sn <;> cases ro <;> cases st <;> simp [configOf, splitCode]
    | _ => simp [configOf, noCaseOf]

theorem split_nosplit (i : Option Str) (fs sn ro st : Bool) :
    createSplitValue "nosplit".toList i fs sn ro st = .ok (if fs then ['F'] else ['0']) := rfl

theorem split_chars (i : Option Str) (fs sn ro st : Bool) : createSplitValue "chars".toList i fs sn ro st = .ok ['8'] := rfl

theorem split_basic (i : Option Str) (fs sn ro st : Bool) : createSplitValue "basic".toList i fs sn ro st =
    .ok (if st then ['s'] else if ro then ['3'] else if sn then ['2'] else ['1']) := rfl

theorem split_bpe (i : Option Str) (fs sn ro st : Bool) : createSplitValue "bpe".toList i fs sn ro st =
    .ok (if i = some "1k".toList then ['5'] else if i = some "5k".toList then ['4'] else if i = some "10k".toList then ['6']
      else ['9']) := rfl

theorem createPrepConfig_eq (o : PrepOpts) {v spv : Str} (hv : createStrValue o.noStr o.maxStrLength = .ok v)
    (hs : createSplitValue o.splType o.bpeCodesId o.fullStrings o.splitNumbers o.ronin o.stem = .ok spv) :
    createPrepConfig o = PrepConfig.make [(.enOnly, if o.noUnicode then ['U'] else ['u']),
      (.com, if o.noCom then ['0'] else ['c']), (.str, v), (.split, spv), (.tabsNewlines, if o.noSpaces then ['0'] else ['s']),
      (.case, if o.noCase then ['l'] else ['u'])] := by
  unfold createPrepConfig
  rw [hv, hs]
  rfl

theorem cliPrepConfig_eq (a : CliArgs) {n : Int} {v spv : Str} (hn : a.maxStrLength = some (intStr n))
    (hv : createStrValue a.noStr n = .ok v) (hs : cliSplitValue a = .ok spv) :
    cliPrepConfig a = PrepConfig.make [(.enOnly, if a.noUnicode then ['U'] else ['u']),
      (.com, if a.noCom then ['0'] else ['c']), (.str, v), (.split, spv), (.tabsNewlines, if a.noSpaces then ['0'] else ['s']),
      (.case, if a.noCase then ['l'] else ['u'])] := by
  unfold cliPrepConfig
  rw [hn]
  simp only [pyInt_intStr, bind, Except.bind]
  rw [hv, hs]

theorem predefined_bpe (i : Str) (o : CommonOpts) : cliPredefinedId (commandLine (.bpe i o)) =
    if i = "1k".toList then some "1k".toList else if i = "5k".toList then some "5k".toList
    else if i = "10k".toList then some "10k".toList else none := by
  by_cases h1 : i = "1k".toList
  · subst h1; rfl
  · by_cases h2 : i = "5k".toList
    · subst h2; rfl
    · by_cases h3 : i = "10k".toList
      · subst h3; rfl
      · unfold cliPredefinedId
        rw [if_neg (show ¬ (commandLine (.bpe i o)).k1 = true from fun h => h1 (of_decide_eq_true h)),
          if_neg (show ¬ (commandLine (.bpe i o)).k5 = true from fun h => h2 (of_decide_eq_true h)),
          if_neg (show ¬ (commandLine (.bpe i o)).k10 = true from fun h => h3 (of_decide_eq_true h)),
          if_neg h1, if_neg h2, if_neg h3]
        rfl

theorem textConfig_eq (call : ApiCall) {v : Str} (hv : createStrValue (optsOf call).noStr (optsOf call).maxStrLength = .ok v)
    (hp : v ∈ possibleStrValues) : textConfig call = .ok (configOf call v) ∧ corpusConfig call = .ok (configOf call v) ∧
      cliPrepConfig (commandLine call) = .ok (configOf call v) := by
  have hval := configOf_valid call hp
  have key := make_six hval
  cases call with
  | nosplit o fs =>
    have hs : (if fs then ['F'] else ['0'] : Str) = [splitCode (.nosplit o fs)] := by cases fs <;> rfl
    refine ⟨?_, ?_, ?_⟩
    · exact (createPrepConfig_eq _ hv (split_nosplit _ _ _ _ _)).trans (by rw [hs]; exact key)
    · exact (createPrepConfig_eq _ hv (split_nosplit _ _ _ _ _)).trans (by rw [hs]; exact key)
    · exact (cliPrepConfig_eq (commandLine (.nosplit o fs)) rfl hv
        (show cliSplitValue (commandLine (.nosplit o fs)) = .ok [splitCode (.nosplit o fs)] by rw [← hs]; rfl)).trans key
  | chars o =>
    refine ⟨?_, ?_, ?_⟩
    · exact (createPrepConfig_eq _ hv (split_chars _ _ _ _ _)).trans key
    · exact (createPrepConfig_eq _ hv (split_chars _ _ _ _ _)).trans key
    · exact (cliPrepConfig_eq (commandLine (.chars o)) rfl hv
        (show cliSplitValue (commandLine (.chars o)) = .ok [splitCode (.chars o)] from rfl)).trans key
  | basic o sn ro st nc =>
    have hs : ∀ sn' ro', (st = false → ro' = ro) → (st = false → ro = false → sn' = sn) →
        (if st then ['s'] else if ro' then ['3'] else if sn' then ['2'] else ['1'] : Str)
          = [splitCode (.basic o sn ro st nc)] := by
      intro sn' ro' h1 h2
      cases st <;> cases ro <;> cases sn <;> simp_all [splitCode]
    refine ⟨?_, ?_, ?_⟩
    · exact (createPrepConfig_eq _ hv (split_basic _ _ _ _ _)).trans (by
        rw [hs _ _ (by rintro rfl; simp) (by rintro rfl rfl; simp)]; exact key)
    · exact (createPrepConfig_eq _ hv (split_basic _ _ _ _ _)).trans (by
        rw [hs _ _ (by rintro rfl; simp) (by rintro rfl rfl; simp)]; exact key)
    · exact (cliPrepConfig_eq (commandLine (.basic o sn ro st nc)) rfl hv
        (show cliSplitValue (commandLine (.basic o sn ro st nc)) = .ok [splitCode (.basic o sn ro st nc)] by
          rw [← hs sn ro (by simp) (by simp)]; rfl)).trans key
  | bpe i o =>
    have hs : (if some i = some "1k".toList then ['5'] else if some i = some "5k".toList then ['4']
        else if some i = some "10k".toList then ['6'] else ['9'] : Str) = [splitCode (.bpe i o)] := by
      simp only [splitCode, Option.some.injEq]
      split
      · rfl
      · split
        · rfl
        · split <;> rfl
    have hs' : cliSplitValue (commandLine (.bpe i o)) = .ok [splitCode (.bpe i o)] := by
      show createSplitValue "bpe".toList (cliPredefinedId (commandLine (.bpe i o))) false false false false = _
      rw [split_bpe, ← hs, predefined_bpe]
      by_cases h1 : i = "1k".toList
      · subst h1; rfl
      · by_cases h2 : i = "5k".toList
        · subst h2; rfl
        · by_cases h3 : i = "10k".toList
          · subst h3; rfl
          · simp only [h1, h2, h3, if_false, Option.some.injEq, reduceCtorEq]
    refine ⟨?_, ?_, ?_⟩
    · exact (createPrepConfig_eq _ hv (split_bpe _ _ _ _ _)).trans (by rw [hs]; exact key)
    · exact (createPrepConfig_eq _ hv (split_bpe _ _ _ _ _)).trans (by rw [hs]; exact key)
    · exact (cliPrepConfig_eq (commandLine (.bpe i o)) rfl hv hs').trans key

/-- **C29** For every call, the functions of `api.text`, the functions of `api.corpus` and the command line build the same
configuration; it is valid and says exactly what was asked for. -/
theorem C29_same_configuration (call : ApiCall) :
    ∃ c, textConfig call = .ok c ∧ corpusConfig call = .ok c ∧ cliPrepConfig (commandLine call) = .ok c ∧
      ValidCode c.toStr ∧
      c.enOnly = (if (optsOf call).noUnicode then ['U'] else ['u']) ∧
      c.com = (if (optsOf call).noCom then ['0'] else ['c']) ∧
      (c.str = ['0'] ↔ (optsOf call).noStr = true) ∧
      c.split = [splitCode call] ∧
      c.tabsNewlines = (if (optsOf call).noSpaces then ['0'] else ['s']) ∧
      c.case = (if noCaseOf call then ['l'] else ['u']) := by
  obtain ⟨v, hv, hp⟩ := createStrValue_ok (optsOf call).noStr (optsOf call).maxStrLength
  obtain ⟨h1, h2, h3⟩ := textConfig_eq call hv hp
  refine ⟨_, h1, h2, h3, ?_, rfl, rfl, ?_, rfl, rfl, rfl⟩
  · exact (C28_accepts _).mp ⟨_, (fromEncoded_ok_iff _ _).mpr ⟨configOf_valid call hp, rfl⟩⟩
  · show v = ['0'] ↔ _
    unfold createStrValue at hv
    constructor
    · rintro rfl
      split at hv
      · assumption
      · split at hv
        · simp at hv
        · split at hv
          · rename_i hr
            have hz : ∀ k : Fin 62, 2 ≤ k.val → possibleStrValues[k.val]? ≠ some ['0'] := by decide +kernel
            have hl : possibleStrValues.length = 62 := by decide +kernel
            have := hz ⟨(optsOf call).maxStrLength.toNat, by omega⟩ (by simp; omega)
            split at hv
            · rename_i x hx
              simp only [Except.ok.injEq] at hv
              subst hv
              exact absurd hx this
            · cases hv
          · simp at hv
    · intro h
      rw [if_pos h] at hv
      exact (Except.ok.inj hv).symm

/-- **C29** The BPE codes are the same too. -/
theorem C29_same_bpe_codes (call : ApiCall) (h : apiBpeCodesId call ≠ some []) :
    cliBpeCodesId (commandLine call) = apiBpeCodesId call := by
  cases call with
  | nosplit o fs => rfl
  | chars o => rfl
  | basic o sn ro st nc => rfl
  | bpe i o =>
    simp only [cliBpeCodesId, predefined_bpe, apiBpeCodesId] at h ⊢
    by_cases h1 : i = "1k".toList
    · subst h1; rfl
    · by_cases h2 : i = "5k".toList
      · subst h2; rfl
      · by_cases h3 : i = "10k".toList
        · subst h3; rfl
        · have : (commandLine (.bpe i o)).bpeCodesId = some i := by
            show (if i = "1k".toList ∨ i = "5k".toList ∨ i = "10k".toList then none else some i) = _
            rw [if_neg (by rintro (h | h | h) <;> contradiction)]
          rw [this]
          cases i with
          | nil => exact absurd rfl h
          | cons a r => rfl

/-- **C29** An empty id on the command line is the same as no id: then no codes are used (the API passes the empty id on). -/
theorem C29_empty_id (o : CommonOpts) :
    cliBpeCodesId (commandLine (.bpe [] o)) = none ∧ apiBpeCodesId (.bpe [] o) = some [] := by
  constructor
  · simp only [cliBpeCodesId, predefined_bpe]; rfl
  · rfl

/-- **C29** Leaving out the maximal string length on the command line is the same as the default of the API. -/
theorem C29_default_length (a : CliArgs) :
    cliPrepConfig { a with maxStrLength := none } = cliPrepConfig { a with maxStrLength := some (intStr sysMaxsize) } := by
  simp only [cliPrepConfig, pyInt_intStr]
  rfl

/-- Non-vacuity of C29: `basic(text, stem=True, no_case=True, max_str_length=10)` and a custom BPE code. -/
example : textConfig (.basic { maxStrLength := 10 } false false true true) = .ok ⟨['u'], ['c'], ['A'], ['s'], ['s'], ['l']⟩ ∧
    textConfig (.bpe "my-id".toList { noUnicode := true }) = .ok ⟨['U'], ['c'], ['1'], ['9'], ['s'], ['u']⟩ ∧
    apiBpeCodesId (.bpe "my-id".toList {}) ≠ some [] := by
  decide +kernel

/-! ## C21 -/

/-- The call with another value of `max_str_length`. -/
def withLimit : ApiCall → Int → ApiCall
  | .nosplit o fs, n => .nosplit { o with maxStrLength := n } fs
  | .chars o, n => .chars { o with maxStrLength := n }
  | .basic o sn ro st nc, n => .basic { o with maxStrLength := n } sn ro st nc
  | .bpe i o, n => .bpe i { o with maxStrLength := n }

theorem withLimit_opts (call : ApiCall) (n : Int) : (optsOf (withLimit call n)).noStr = (optsOf call).noStr ∧
    (optsOf (withLimit call n)).maxStrLength = n := by
  cases call <;> exact ⟨rfl, rfl⟩

theorem withLimit_configOf (call : ApiCall) (n : Int) (v : Str) : configOf (withLimit call n) v = configOf call v := by
  cases call <;> rfl

/-- The output for an empty string literal: `""` for full strings, otherwise two quotes, the last one marked for BPE. -/
def emptyLiteral (c : PrepConfig) : List Str :=
  if c.split = ['F'] then ["\"\"".toList]
  else if c.isBpe then ["\"".toList, "\"</t>".toList]
  else ["\"".toList, "\"".toList]

theorem limit_decoded (n : Nat) (h2 : 2 ≤ n) (h62 : n < 62) :
    ∃ v, createStrValue false n = .ok v ∧ v ∈ possibleStrValues ∧ getMaxStrLength v = .ok (some n) ∧ v ≠ ['0'] := by
  have hl : possibleStrValues.length = 62 := by decide +kernel
  have tab : ∀ k : Fin 62, 2 ≤ k.val → ((possibleStrValues[k.val]?.map getMaxStrLength) = some (.ok (some k.val)) ∧
      possibleStrValues[k.val]? ≠ some ['0']) := by decide +kernel
  obtain ⟨t1, t2⟩ := tab ⟨n, h62⟩ h2
  simp only at t1 t2
  cases hg : possibleStrValues[n]? with
  | none => simp [hg] at t1
  | some v =>
    rw [hg] at t1 t2
    refine ⟨v, ?_, List.mem_of_getElem? hg, by simpa using t1, by simpa using t2⟩
    unfold createStrValue
    rw [if_neg (by decide), if_neg (by omega), if_pos (by omega)]
    simp [hg]

theorem units_long_string {u : Ucd} {rc : ReprConfig} {ts : List Tok} {len n : Nat} (hs : Ty.stringLiteral ∉ rc.types)
    (hm : rc.maxStrLength = some n) (h : len > n) :
    unitsList u rc false [.stringLiteral ts len] = .ok [if rc.fullStrings then ⟨.stringLiteral, [['"', '"']], []⟩
      else ⟨.stringLiteral, [['"'], ['"']], [['"']]⟩] := by
  simp only [unitsList, Tok.units, hs, if_false, hm, if_pos h]
  cases rc.fullStrings <;> rfl

/-- **C21** (proved for limits 2 ... 61) A string literal whose length exceeds the limit is replaced by an empty literal; a
shorter one is preprocessed as without a limit. -/
theorem C21_replaced_iff_longer_partial (env : Env) (call : ApiCall) (hn : (optsOf call).noStr = false) (n : Nat)
    (h2 : 2 ≤ n) (h62 : n < 62) (bd : Option BpeData) (ts : List Tok) (len : Nat)
    (hnest : EverywhereList (fun t => ¬ IsString t) ts) :
    ∃ c c1, textConfig (withLimit call n) = .ok c ∧ textConfig (withLimit call sysMaxsize) = .ok c1 ∧
      (len > n → ∃ md, toRepr env c [.stringLiteral ts len] bd = .ok (emptyLiteral c, md) ∧
        md.types = [.stringLiteral]) ∧
      (len ≤ n → toRepr env c [.stringLiteral ts len] bd = toRepr env c1 [.stringLiteral ts len] bd) := by
  obtain ⟨v, hv, hp, hg, hz⟩ := limit_decoded n h2 h62
  have hv' : createStrValue (optsOf (withLimit call n)).noStr (optsOf (withLimit call n)).maxStrLength = .ok v := by
    rw [(withLimit_opts call n).1, (withLimit_opts call n).2, hn]; exact hv
  have h1' : createStrValue (optsOf (withLimit call sysMaxsize)).noStr (optsOf (withLimit call sysMaxsize)).maxStrLength
      = .ok ['1'] := by
    rw [(withLimit_opts call _).1, (withLimit_opts call _).2, hn]; decide +kernel
  have hc := (textConfig_eq _ hv' hp).1
  have hc1 := (textConfig_eq _ h1' (by decide +kernel)).1
  rw [withLimit_configOf] at hc hc1
  refine ⟨_, _, hc, hc1, ?_, ?_⟩
  · intro hlen
    obtain ⟨rc, hok, heq⟩ := toRepr_eq (env := env) (configOf_valid call hp) [.stringLiteral ts len] bd
    have hmx : rc.maxStrLength = some n := by
      have := hok.maxLen
      simp only [configOf, hg, Except.ok.injEq] at this
      exact this.symm
    have hst : Ty.stringLiteral ∉ rc.types := by
      rw [hok.types, typesToBeRepr_mem]
      simp [configOf, hz]
    rw [heq, units_long_string hst hmx hlen]
    rw [hok.fullStrings]
    refine ⟨(flatForm [if decide ((configOf call v).split = ['F']) = true then ⟨.stringLiteral, [['"', '"']], []⟩
      else ⟨.stringLiteral, [['"'], ['"']], [['"']]⟩]).2, ?_, ?_⟩
    · simp only [Except.map, Except.ok.injEq, Prod.mk.injEq, and_true]
      unfold emptyLiteral
      by_cases hF : (configOf call v).split = ['F']
      · have hb : (configOf call v).isBpe = false := by simp [PrepConfig.isBpe, hF]
        simp [hF, hb]
      · simp only [hF]
        cases (configOf call v).isBpe <;> simp [markLast, Ph.compoundWordEnd]
    · simp only [flatForm]
      split <;> rfl
  · intro hlen
    obtain ⟨rc, hok, heq⟩ := toRepr_eq (env := env) (configOf_valid call hp) [.stringLiteral ts len] bd
    obtain ⟨rc1, hok1, heq1⟩ := toRepr_eq (env := env) (configOf_valid call (v := ['1']) (by decide +kernel))
      [.stringLiteral ts len] bd
    have hx : (configOf call v).str = v := rfl
    have hx1 : (configOf call ['1']).str = ['1'] := rfl
    have hm : rc.maxStrLength = some n := by
      have := hok.maxLen
      rw [hx, hg] at this
      exact (Except.ok.inj this).symm
    have hm1 : rc1.maxStrLength = some sysMaxsize := by
      have := hok1.maxLen
      rw [hx1, show getMaxStrLength ['1'] = .ok (some sysMaxsize) from by decide +kernel] at this
      exact (Except.ok.inj this).symm
    have hsame : SameRc [] rc rc1 := sameRc_of hok hok1 rfl rfl rfl (.inl rfl)
      (.inl (by rw [hx, hx1]; simp [hz])) (.inl rfl) (by simp)
    rw [heq, heq1]
    have hb : (configOf call v).isBpe = (configOf call ['1']).isBpe := rfl
    rw [hb]
    have hu : unitsList env.ucd rc false [.stringLiteral ts len] = unitsList env.ucd rc1 false [.stringLiteral ts len] := by
      have h62' : (62 : Nat) ≤ sysMaxsize := by decide
      have e1 : ¬ (len > n) := by omega
      have e2 : ¬ (len > sysMaxsize) := by omega
      have hstr : (Ty.stringLiteral ∈ rc.types) ↔ (Ty.stringLiteral ∈ rc1.types) := hsame.types _ (by simp)
      have hin : unitsList env.ucd rc true ts = unitsList env.ucd rc1 true ts :=
        unitsList_congr env.ucd hsame true ts (everywhereList_imp (fun t ht =>
          ⟨by simp, fun ts' n' e => absurd ⟨ts', n', e⟩ ht⟩) ts hnest)
      simp only [unitsList, Tok.units, hm, hm1, e1, e2, if_false, hstr, hin, hsame.bpe, hsame.full,
        replaceInString_congr hsame, splitWord_congr hsame]
    rw [hu]

/-- **C21** is violated for larger limits: they are ignored. -/
theorem C21_large_limit_ignored (call : ApiCall) (n : Int) (h : 62 ≤ n ∨ n < 0) :
    textConfig (withLimit call n) = textConfig (withLimit call sysMaxsize) := by
  have hl : possibleStrValues.length = 62 := by decide +kernel
  obtain ⟨v, hv, hp⟩ := createStrValue_ok (optsOf call).noStr n
  have he : createStrValue (optsOf call).noStr n = createStrValue (optsOf call).noStr sysMaxsize := by
    have h62 : (62 : Int) ≤ (sysMaxsize : Int) := by decide
    unfold createStrValue
    rw [hl]
    split
    · rfl
    · rw [if_neg (by omega), if_neg (by omega), if_neg (by omega), if_neg (by omega)]
  have h1 := withLimit_opts call n
  have h2 := withLimit_opts call sysMaxsize
  rw [(textConfig_eq (withLimit call n) (v := v) (by rw [h1.1, h1.2, hv]) hp).1,
    (textConfig_eq (withLimit call sysMaxsize) (v := v) (by rw [h2.1, h2.2, ← he, hv]) hp).1, withLimit_configOf, withLimit_configOf]

/-- **C21** Witness: with `max_str_length=100` and full strings, a literal of 103 characters (101 letters and two quotes) is
not replaced. -/
theorem C21_violated :
    ∃ c, textConfig (.nosplit { maxStrLength := 100 } true) = .ok c ∧
      (toRepr demoEnv c [.stringLiteral [.nonCodeChar "\"".toList, .split [.word (List.replicate 101 'a') .none],
          .nonCodeChar "\"".toList] 103] none).map (·.1) =
        .ok ["\"".toList ++ List.replicate 101 'a' ++ "\"".toList] := by
  refine ⟨⟨['u'], ['c'], ['1'], ['F'], ['s'], ['u']⟩, by decide +kernel, by decide +kernel⟩

/-- **C21** The limits 0 and 1 are treated as 2, so that a literal of length 2 is not replaced (`''` stays `''`). -/
theorem C21_small_limit_violated :
    ∃ c, textConfig (.nosplit { maxStrLength := 0 } true) = .ok c ∧
      (toRepr demoEnv c [.stringLiteral [.nonCodeChar "'".toList, .nonCodeChar "'".toList] 2] none).map (·.1) =
        .ok ["''".toList] := by
  refine ⟨⟨['u'], ['c'], ['2'], ['F'], ['s'], ['u']⟩, by decide +kernel, by decide +kernel⟩

/-- Non-vacuity of C21. -/
example : (optsOf (.nosplit {} true)).noStr = false ∧
    EverywhereList (fun t => ¬ IsString t) [.nonCodeChar "'".toList, .nonCodeChar "'".toList] ∧
    (toRepr demoEnv (demoConfig "ucAFsu") [.stringLiteral [.nonCodeChar "\"".toList, .split [.word (List.replicate 8 'a') .none],
          .nonCodeChar "\"".toList] 10, .stringLiteral [.nonCodeChar "\"".toList, .split [.word (List.replicate 9 'a') .none],
          .nonCodeChar "\"".toList] 11] none).map (·.1) = .ok ["\"aaaaaaaa\"".toList, "\"\"".toList] := by
  refine ⟨rfl, ?_, by decide +kernel⟩
  simp [EverywhereList, Everywhere, IsString]

/-! ## C46 -/

theorem replaceLoop_replaced (ph : Str) : ∀ (w : Str) (b : Bool) (acc : Str),
    ∃ out, Replaced ph w out ∧
      (b = false → replaceLoop ph b acc w = acc ++ out) ∧
      (b = true → (∀ c, w.head? = some c → c.toNat < 128) → replaceLoop ph b acc w = acc ++ ph ++ out) ∧
      (b = true → (∃ c, w.head? = some c ∧ 128 ≤ c.toNat) → replaceLoop ph b acc w = acc ++ out) := by
  intro w
  induction w with
  | nil =>
    intro b acc
    refine ⟨[], .nil, ?_, ?_, ?_⟩
    · rintro rfl; simp [replaceLoop]
    · rintro rfl _; simp [replaceLoop]
    · rintro _ ⟨c, h, _⟩; simp at h
  | cons c r ih =>
    intro b acc
    by_cases hc : c.toNat < 128
    · obtain ⟨out, hout, h1, -, -⟩ := ih false ((if b then acc ++ ph else acc) ++ [c])
      refine ⟨c :: out, .keep hc hout, ?_, ?_, ?_⟩
      · rintro rfl
        simp only [replaceLoop, hc, if_true]
        rw [h1 rfl]; simp
      · rintro rfl _
        simp only [replaceLoop, hc, if_true]
        simp only [if_true] at h1
        rw [h1 trivial]; simp
      · rintro rfl ⟨d, hd, hd'⟩
        simp at hd; subst hd; omega
    · obtain ⟨out, hout, -, h2, h3⟩ := ih true acc
      by_cases hr : ∀ d, r.head? = some d → d.toNat < 128
      · refine ⟨ph ++ out, Replaced.run (run := [c]) (by simp) (by simp; omega) hr hout, ?_, ?_, ?_⟩
        · rintro rfl
          simp only [replaceLoop, hc, if_false]
          rw [h2 rfl hr]; simp
        · rintro rfl hh
          exact absurd (hh c rfl) hc
        · rintro rfl _
          simp only [replaceLoop, hc, if_false]
          rw [h2 rfl hr]; simp
      · have hr : ∃ d, r.head? = some d ∧ 128 ≤ d.toNat := by
          cases r with
          | nil => simp at hr
          | cons d r =>
            refine ⟨d, rfl, ?_⟩
            simp at hr; omega
        -- the run continues
        have hrun : Replaced ph (c :: r) out := by
          obtain ⟨d, hd, hd'⟩ := hr
          cases hout with
          | nil => simp at hd
          | keep hk _ => simp at hd; subst hd; omega
          | @run run w out hne hall hw hrest =>
            exact Replaced.run (run := c :: run) (by simp) (by
              intro x hx
              rcases List.mem_cons.mp hx with rfl | hx
              · omega
              · exact hall x hx) hw hrest
        refine ⟨out, hrun, ?_, ?_, ?_⟩
        · rintro rfl
          simp only [replaceLoop, hc, if_false]
          rw [h3 rfl hr]
        · rintro rfl hh
          exact absurd (hh c rfl) hc
        · rintro rfl _
          simp only [replaceLoop, hc, if_false]
          rw [h3 rfl hr]

/-- **C46** With a one-character placeholder the result is the text with every maximal non-ASCII run replaced by the placeholder. -/
theorem C46_replaces_runs (w : Str) (p : Char) : ∃ out, replaceNonAsciiSeqs w [p] = .ok out ∧ Replaced [p] w out := by
  obtain ⟨out, h, h1, -, -⟩ := replaceLoop_replaced [p] w false []
  refine ⟨out, ?_, h⟩
  simp only [replaceNonAsciiSeqs, List.length_singleton, ne_eq, not_true, if_false]
  rw [h1 rfl]; rfl

/-- **C46** The specification determines the result. -/
theorem C46_spec_deterministic (ph w a b : Str) (ha : Replaced ph w a) (hb : Replaced ph w b) : a = b := by
  induction ha generalizing b with
  | nil =>
    generalize hw : ([] : Str) = w at hb
    cases hb with
    | nil => rfl
    | keep _ _ => cases hw
    | run hne _ _ _ => simp at hw; exact absurd hw.1 hne
  | @keep c w out hc h ih =>
    generalize hw : c :: w = v at hb
    cases hb with
    | nil => cases hw
    | keep _ hb => cases hw; rw [ih _ hb]
    | @run run _ _ hne hall _ _ =>
      cases run with
      | nil => exact absurd rfl hne
      | cons d t =>
        simp at hw
        have := hall d (by simp)
        rw [← hw.1] at this; omega
  | @run run w out hne hall hw h ih =>
    generalize hv : run ++ w = v at hb
    cases hb with
    | nil => simp at hv; exact absurd hv.1 hne
    | keep hc _ =>
      cases run with
      | nil => exact absurd rfl hne
      | cons d t =>
        simp at hv
        have := hall d (by simp)
        rw [hv.1] at this; omega
    | @run run' w' out' hne' hall' hw' hb =>
      have hrr : run = run' ∧ w = w' := by
        clear ih h hb hne hne'
        induction run generalizing run' with
        | nil =>
          cases run' with
          | nil => exact ⟨rfl, by simpa using hv⟩
          | cons d t =>
            simp at hv
            have := hw d (by rw [hv]; rfl)
            have := hall' d (by simp)
            omega
        | cons c r ih =>
          cases run' with
          | nil =>
            simp at hv
            have := hw' c (by rw [← hv]; rfl)
            have := hall c (by simp)
            omega
          | cons d t =>
            simp only [List.cons_append, List.cons.injEq] at hv
            obtain ⟨e1, e2⟩ := ih (fun x hx => hall x (by simp [hx])) (fun x hx => hall' x (by simp [hx])) hv.2
            exact ⟨by rw [hv.1, e1], e2⟩
      rw [ih _ (hrr.2 ▸ hb)]

/-- **C46** ASCII text is not changed. -/
theorem C46_ascii_unchanged (w : Str) (p : Char) (h : ∀ c ∈ w, c.toNat < 128) : replaceNonAsciiSeqs w [p] = .ok w := by
  obtain ⟨out, ho, hr⟩ := C46_replaces_runs w p
  have : Replaced [p] w w := by
    clear ho hr
    induction w with
    | nil => exact .nil
    | cons c r ih => exact .keep (h c (by simp)) (ih fun x hx => h x (by simp [hx]))
  rw [ho, C46_spec_deterministic _ _ _ _ hr this]

/-- **C46** The ASCII characters are kept in their order (for the non-ASCII placeholder the library uses). -/
theorem C46_ascii_kept (w out : Str) (p : Char) (hp : 128 ≤ p.toNat) (h : replaceNonAsciiSeqs w [p] = .ok out) :
    out.filter (fun c => c.toNat < 128) = w.filter (fun c => c.toNat < 128) := by
  obtain ⟨o, ho, hr⟩ := C46_replaces_runs w p
  rw [h] at ho
  cases ho
  clear h
  induction hr with
  | nil => rfl
  | keep hc _ ih => simp [hc, ih]
  | @run run w out _ hall _ _ ih =>
    have h1 : run.filter (fun c => c.toNat < 128) = [] := by
      rw [List.filter_eq_nil_iff]
      intro c hc
      have := hall c hc
      simp; omega
    have h2 : [p].filter (fun c => c.toNat < 128) = [] := by
      rw [List.filter_eq_nil_iff]
      simp; omega
    rw [List.filter_append, List.filter_append, h1, h2, ih]

/-- **C46** Replacing twice is the same as replacing once. -/
theorem C46_idempotent (w out : Str) (p : Char) (h : replaceNonAsciiSeqs w [p] = .ok out) :
    replaceNonAsciiSeqs out [p] = .ok out := by
  obtain ⟨o, ho, hr⟩ := C46_replaces_runs w p
  rw [h] at ho
  cases ho
  clear h
  have key : ∀ w out, Replaced [p] w out → Replaced [p] out out ∧
      ((∀ c, w.head? = some c → c.toNat < 128) → ∀ c, out.head? = some c → c.toNat < 128) := by
    intro w out hr
    induction hr with
    | nil => exact ⟨.nil, by simp⟩
    | keep hc _ ih => exact ⟨.keep hc ih.1, fun _ d hd => by simp at hd; subst hd; exact hc⟩
    | @run run w out hne hall hw _ ih =>
      refine ⟨?_, ?_⟩
      · by_cases hp : p.toNat < 128
        · exact .keep hp ih.1
        · exact .run (run := [p]) (by simp) (by simp; omega) (ih.2 hw) ih.1
      · intro hh
        cases run with
        | nil => exact absurd rfl hne
        | cons d t =>
          have := hh d rfl
          have := hall d (by simp)
          omega
  obtain ⟨o2, ho2, hr2⟩ := C46_replaces_runs out p
  rw [ho2, C46_spec_deterministic _ _ _ _ hr2 (key w out hr).1]

/-- **C46** A placeholder that is not exactly one character is rejected. -/
theorem C46_bad_placeholder (w ph : Str) : replaceNonAsciiSeqs w ph = .error .valueError ↔ ph.length ≠ 1 := by
  unfold replaceNonAsciiSeqs
  split <;> simp_all

/-- Non-vacuity of C46. -/
example : replaceNonAsciiSeqs "aüößb÷÷ü".toList Ph.nonAsciiSeq = .ok "a÷b÷".toList ∧
    replaceNonAsciiSeqs "ü".toList "xy".toList = .error .valueError := by
  decide +kernel

end Verif.Props
