import Verif.Spec.BpeState
import Verif.Props.Config
import Verif.Props.Registry
import Verif.Props.BpeEncode
import Verif.Props.Preprocess
/-!
# Calls of the API do not depend on earlier calls (C41); unsplittable tokens and learnt codes (C53)
-/
namespace Verif.Props
open Verif Spec

/-! ## Lemmas -/

theorem toReprSt_complete {env : Env} {c : PrepConfig} (hb : c.isBpe = true) (ts : List Tok) (d : BpeData) :
    toReprSt env c ts (some ⟨some d.cache, some d.merges⟩) = toRepr env c ts (some d) := by
  have hsub : (BpeState.subwords ⟨some d.cache, some d.merges⟩) = bpeSplitter (some d) := rfl
  have hrc : c.reprConfigSt env (some ⟨some d.cache, some d.merges⟩) = c.reprConfig env (some d) := by
    have hmem : c.split ∈ [['4'], ['5'], ['6'], ['7'], ['8'], ['9']] := by simpa [PrepConfig.isBpe] using hb
    have hns : ∀ bd, c.numberSplitter bd = .ok (bpeSplitter bd) := by
      intro bd
      unfold PrepConfig.numberSplitter
      have h1 : c.split ∉ [['0'], ['F'], ['1']] := by
        simp only [List.mem_cons, List.not_mem_nil, or_false] at hmem ⊢
        rcases hmem with h | h | h | h | h | h <;> rw [h] <;> decide
      have h2 : c.split ∉ [['2'], ['3'], ['s']] := by
        simp only [List.mem_cons, List.not_mem_nil, or_false] at hmem ⊢
        rcases hmem with h | h | h | h | h | h <;> rw [h] <;> decide
      rw [if_neg h1, if_neg h2, if_pos hmem]
    have hws : ∀ bd, c.wordSplitter env bd = .ok (some (bpeSplitter bd)) := by
      intro bd
      unfold PrepConfig.wordSplitter
      rw [if_pos hmem]
    unfold PrepConfig.reprConfigSt PrepConfig.reprConfig
    simp only [hb, if_true, hns, hws, bind, Except.bind, Option.map_some, hsub]
    cases getMaxStrLength c.str <;> rfl
  unfold toReprSt toRepr
  rw [hrc]

theorem toReprSt_nonBpe {env : Env} {c : PrepConfig} (hb : c.isBpe = false) (ts : List Tok) (g : Option BpeState) :
    toReprSt env c ts g = toRepr env c ts none := by
  have hrc : c.reprConfigSt env g = c.reprConfig env none := by
    unfold PrepConfig.reprConfigSt PrepConfig.reprConfig
    simp only [hb, Bool.false_eq_true, if_false]
    cases c.numberSplitter none with
    | error e => rfl
    | ok a =>
      cases c.wordSplitter env none with
      | error e => rfl
      | ok b => cases getMaxStrLength c.str <;> cases g <;> rfl
  unfold toReprSt toRepr
  rw [hrc]

/-- What loading does when it is not skipped: it fails as reading the codes fails, or leaves exactly the codes. -/
def LoadsAs (r : Except PyErr Unit × Option BpeState) (x : Except PyErr BpeData) : Prop :=
  match x with
  | .error e => r.1 = .error e
  | .ok d => r = (.ok (), some ⟨some d.cache, some d.merges⟩)

theorem initDefault_loads {d : BpeDisk} {c : PrepConfig} {n : Str} (hn : defaultMergesDir c.split = .ok n) {dir : Str}
    (hc : (c.case = ['u'] ∧ dir = "case".toList) ∨ (c.case ≠ ['u'] ∧ dir = "nocase".toList)) :
    LoadsAs (let r := initDefault d c; (r.1, some r.2)) (shippedCodes d dir n) := by
  have hcd : caseDir c = dir := by
    unfold caseDir
    rcases hc with ⟨h, rfl⟩ | ⟨h, rfl⟩
    · rw [if_pos h]
    · rw [if_neg h]
  unfold initDefault shippedCodes
  rw [hn, hcd]
  have h1 : defaultCache d dir n = shippedCache d dir n := by
    unfold defaultCache shippedCache
    cases d.text (BpeFile.defaultCache dir n) <;> rfl
  simp only [h1]
  cases shippedCache d dir n with
  | error e => rfl
  | ok cache =>
    simp only [bind, Except.bind]
    cases d.read (BpeFile.defaultMerges dir n) with
    | error e => rfl
    | ok t =>
      simp only
      cases readMerges t none <;> rfl

theorem initCustom_loads {u : Ucd} {d : BpeDisk} {s : Str} {cc : CustomBpeConfig} (h : CustomBpeConfig.fromId u d.reg s = .ok cc) :
    LoadsAs (let r := initCustom u d cc; (r.1, some r.2)) (learntCodes u d s) := by
  have hcache : customCache d cc = .ok [] := by
    unfold customCache
    rw [C39_cache_unused u d.reg s cc h]
    rfl
  unfold initCustom learntCodes
  rw [hcache, h]
  simp only [bind, Except.bind]
  cases d.read (BpeFile.learntMerges cc.dir.name cc.sub) with
  | error e => rfl
  | ok t =>
    simp only
    cases readMerges t (some cc.nMerges.toNat) with
    | error e => rfl
    | ok m =>
      simp only
      cases nonbpeVocab u d cc.id <;> rfl

theorem load_ok {u : Ucd} {d : BpeDisk} {call : ApiCall} {v : Str} {id : Str} (hb : (configOf call v).isBpe = true)
    (hid : apiBpeCodesId call = some id) (hne : id ≠ []) (g : Option BpeState) (force : Bool) (hf : force = true ∨ g = none) :
    LoadsAs (loadForText u d (configOf call v) (some id) force g) (codesOnDisk u d call id) := by
  have hsk : (g.isSome && !force) = false := by rcases hf with rfl | rfl <;> simp
  obtain ⟨ch, r, rfl⟩ : ∃ ch r, id = ch :: r := by
    cases id with
    | nil => exact absurd rfl hne
    | cons ch r => exact ⟨ch, r, rfl⟩
  have hcase : (configOf call v).case = ['u'] := by
    cases call with
    | basic o sn ro st nc => simp [apiBpeCodesId] at hid
    | _ => rfl
  have hsplit : (configOf call v).split = [splitCode call] := rfl
  have key : ∀ n, defaultMergesDir [splitCode call] = .ok n → isPredefinedId (ch :: r) = true →
      LoadsAs (loadForText u d (configOf call v) (some (ch :: r)) force g) (shippedCodes d "case".toList n) := by
    intro n hn hp
    unfold loadForText
    simp only
    rw [if_pos hp]
    unfold initBpeData
    rw [hsk]
    simp only [Bool.false_eq_true, if_false]
    exact initDefault_loads (by rw [hsplit]; exact hn) (.inl ⟨hcase, rfl⟩)
  unfold codesOnDisk
  by_cases h1 : (ch :: r) = "1k".toList
  · rw [if_pos (Or.inl h1)]
    cases call with
    | nosplit o fs => cases hid
    | chars o => cases hid; cases h1
    | basic o sn ro st nc => cases hid
    | bpe i o =>
      simp only [apiBpeCodesId, Option.some.injEq] at hid
      exact key _ (by rw [h1]; simp only [splitCode]; rw [if_pos (hid.trans h1)]; decide) (by rw [h1]; decide)
  · by_cases h2 : (ch :: r) = "5k".toList
    · rw [if_pos (Or.inr (Or.inl h2))]
      cases call with
      | nosplit o fs => cases hid
      | chars o => cases hid; cases h2
      | basic o sn ro st nc => cases hid
      | bpe i o =>
        simp only [apiBpeCodesId, Option.some.injEq] at hid
        exact key _ (by rw [h2]; simp only [splitCode]; rw [hid, if_neg h1, if_pos h2]; decide) (by rw [h2]; decide)
    · by_cases h3 : (ch :: r) = "10k".toList
      · rw [if_pos (Or.inr (Or.inr h3))]
        cases call with
        | nosplit o fs => cases hid
        | chars o => cases hid; cases h3
        | basic o sn ro st nc => cases hid
        | bpe i o =>
          simp only [apiBpeCodesId, Option.some.injEq] at hid
          exact key _ (by rw [h3]; simp only [splitCode]; rw [hid, if_neg h1, if_neg h2, if_pos h3]; decide) (by rw [h3]; decide)
      · rw [if_neg (by rintro (h | h | h); exact h1 h; exact h2 h; exact h3 h)]
        by_cases h0 : (ch :: r) = "0".toList
        · rw [if_pos h0]
          cases call with
          | nosplit o fs => cases hid
          | basic o sn ro st nc => cases hid
          | chars o => exact key _ rfl (by rw [h0]; decide)
          | bpe i o =>
            simp only [apiBpeCodesId, Option.some.injEq] at hid
            have hk : defaultMergesDir [splitCode (.bpe i o)] = .error .keyError := by
              simp only [splitCode]; rw [hid, if_neg h1, if_neg h2, if_neg h3]; decide
            unfold loadForText
            simp only
            rw [if_pos (by rw [h0]; decide)]
            unfold initBpeData
            rw [hsk]
            simp only [Bool.false_eq_true, if_false, LoadsAs]
            unfold initDefault
            rw [hsplit, hk]
        · rw [if_neg h0]
          have hp : isPredefinedId (ch :: r) = false := by
            unfold isPredefinedId
            simp only [List.mem_cons, List.not_mem_nil, or_false, h1, h2, h3, h0, decide_false]
          unfold loadForText
          simp only
          rw [hp]
          simp only [Bool.false_eq_true, if_false]
          cases hcc : CustomBpeConfig.fromId u d.reg (ch :: r) with
          | error e =>
            unfold learntCodes
            rw [hcc]
            rfl
          | ok cc =>
            simp only
            unfold initBpeData
            rw [hsk]
            simp only [Bool.false_eq_true, if_false]
            exact initCustom_loads hcc

/-! ## C41 -/

theorem not_reuse_forced {t : TextCall} (h : ¬ AsksReuse t) : t.forced = true := by
  unfold TextCall.forced
  split
  · next i o ha =>
    cases hf : t.force with
    | true => rfl
    | false => exact absurd ⟨i, o, ha, hf⟩ h
  · rfl

/-- **C41** The codes shipped with the package are those for the splitting mode and, when the text is lower-cased, those without case,
whatever was loaded before. -/
theorem C41_shipped (u : Ucd) (d : BpeDisk) (c : PrepConfig) (n dir : Str) (g : Option BpeState) (force : Bool)
    (hf : force = true ∨ g = none)
    (hn : (c.split, n) ∈ [(['4'], "5k".toList), (['5'], "1k".toList), (['6'], "10k".toList), (['7'], "20k".toList), (['8'], "0".toList)])
    (hc : (c.case = ['u'] ∧ dir = "case".toList) ∨ (c.case ≠ ['u'] ∧ dir = "nocase".toList)) :
    LoadsAs (initBpeData u d c none force g) (shippedCodes d dir n) := by
  have hsk : (g.isSome && !force) = false := by rcases hf with rfl | rfl <;> simp
  have hdm : defaultMergesDir c.split = .ok n := by
    simp only [List.mem_cons, Prod.mk.injEq, List.not_mem_nil, or_false] at hn
    rcases hn with ⟨h, rfl⟩ | ⟨h, rfl⟩ | ⟨h, rfl⟩ | ⟨h, rfl⟩ | ⟨h, rfl⟩ <;> rw [h] <;> rfl
  unfold initBpeData
  rw [hsk]
  exact initDefault_loads hdm hc

/-- **C41** Unless data loaded before is to be reused, the result of a call is what the same call gives with the codes that are on
the disk, whatever the global data is. -/
theorem C41_result (env : Env) (d : BpeDisk) (t : TextCall) (g : Option BpeState) (hr : ¬ AsksReuse t ∨ g = none) :
    (textApiSt env d t g).1 = textApi env (codesOnDisk env.ucd d t.api) t.api t.lexed t.appendEof := by
  have h : t.forced = true ∨ g = none := hr.imp_left not_reuse_forced
  obtain ⟨v, hv, hvp⟩ := createStrValue_ok (optsOf t.api).noStr (optsOf t.api).maxStrLength
  have hc := (textConfig_eq t.api hv hvp).1
  unfold textApiSt textApi
  rw [hc]
  simp only [bind, Except.bind]
  unfold preprocessSt preprocessText
  cases convertText env.ucd t.lexed with
  | error e => rfl
  | ok parsed =>
    simp only [bind, Except.bind]
    by_cases hb : (configOf t.api v).isBpe = true
    · rw [if_pos hb, if_pos hb]
      cases hid : apiBpeCodesId t.api with
      | none => rfl
      | some id =>
        cases id with
        | nil => rfl
        | cons ch r =>
          have hl := load_ok (u := env.ucd) (d := d) (v := v) hb hid (by simp) g t.forced h
          simp only
          cases hx : codesOnDisk env.ucd d t.api (ch :: r) with
          | error e =>
            rw [hx] at hl
            unfold LoadsAs at hl
            simp only at hl ⊢
            split
            · next e' g' he => rw [he] at hl; exact congrArg Except.error (Except.error.inj hl)
            · next g' he => rw [he] at hl; cases hl
          | ok bd =>
            rw [hx] at hl
            unfold LoadsAs at hl
            simp only at hl ⊢
            rw [hl]
            exact toReprSt_complete hb _ bd
    · rw [if_neg hb, if_neg hb]
      exact toReprSt_nonBpe (by simpa using hb) _ g

/-- **C41** A call that does not ask for reuse gives the same result after any calls as in a new process. -/
theorem C41_history (env : Env) (hist : List (BpeDisk × TextCall)) (g : Option BpeState) (d : BpeDisk) (t : TextCall)
    (h : ¬ AsksReuse t) : (textApiSt env d t (afterCalls env hist g)).1 = (textApiSt env d t none).1 := by
  rw [C41_result env d t _ (Or.inl h), C41_result env d t _ (Or.inl h)]

/-- Calls without BPE codes. -/
def NoCodes : ApiCall → Prop
  | .nosplit _ _ => True
  | .basic _ _ _ _ _ => True
  | _ => False

/-- **C41** A call without BPE codes gives the same result whatever the global data is and whatever is on the disk, and leaves the
global data as it is. -/
theorem C41_no_codes (env : Env) (d d' : BpeDisk) (t : TextCall) (g g' : Option BpeState) (h : NoCodes t.api) :
    (textApiSt env d t g).1 = (textApiSt env d' t g').1 ∧ (textApiSt env d t g).2 = g := by
  obtain ⟨v, hv, hvp⟩ := createStrValue_ok (optsOf t.api).noStr (optsOf t.api).maxStrLength
  have hc := (textConfig_eq t.api hv hvp).1
  have hb : (configOf t.api v).isBpe = false := by
    cases ha : t.api with
    | nosplit o fs => cases fs <;> rfl
    | basic o sn ro st nc => cases sn <;> cases ro <;> cases st <;> rfl
    | chars o => rw [ha] at h; exact h.elim
    | bpe i o => rw [ha] at h; exact h.elim
  unfold textApiSt
  rw [hc]
  simp only
  unfold preprocessSt
  cases convertText env.ucd t.lexed with
  | error e => exact ⟨rfl, rfl⟩
  | ok parsed =>
    simp only [hb, Bool.false_eq_true, if_false]
    exact ⟨(toReprSt_nonBpe hb _ g).trans (toReprSt_nonBpe hb _ g').symm, trivial⟩

/-- A disk with the codes `1k` (one merge), `5k` and `0` (no merges), and without `10k`. -/
def codesDisk : BpeDisk :=
  ⟨none, fun f =>
    if f = .defaultMerges "case".toList "1k".toList then some "a b 10\n".toList
    else if f = .defaultMerges "case".toList "5k".toList then some []
    else if f = .defaultMerges "case".toList "0".toList then some [] else none⟩

/-- A call for the name `ab`. -/
def abCall (a : ApiCall) (force : Bool) : TextCall := ⟨a, [(["Name"], "ab".toList)], false, force, fun c => c⟩

/-- The tokens a call returns after other calls. -/
def tokensAfter (hist : List TextCall) (t : TextCall) : Except PyErr (List String) :=
  ((textApiSt demoEnv codesDisk t (afterCalls demoEnv (hist.map fun t => (codesDisk, t)) none)).1).map (·.1.map String.ofList)

theorem force_not_reuse {t : TextCall} (h : t.force = true) : ¬ AsksReuse t := by
  rintro ⟨i, o, -, hf⟩
  rw [h] at hf
  cases hf

example : ¬ AsksReuse (abCall (.bpe "5k".toList {}) true) ∧ ¬ AsksReuse (abCall (.chars {}) false) :=
  ⟨force_not_reuse rfl, by rintro ⟨i, o, h, -⟩; cases h⟩

example : tokensAfter [abCall (.bpe "1k".toList {}) true] (abCall (.bpe "5k".toList {}) true) = .ok ["a", "b", "</t>"] ∧
    tokensAfter [] (abCall (.bpe "1k".toList {}) true) = .ok ["ab", "</t>"] ∧
    tokensAfter [abCall (.bpe "1k".toList {}) true] (abCall (.chars {}) false) = .ok ["a", "b", "</t>"] := by decide +kernel

example : NoCodes (.nosplit {} false) ∧
    tokensAfter [abCall (.bpe "1k".toList {}) true] (abCall (.nosplit {} false) true) = .ok ["ab"] := ⟨trivial, by decide +kernel⟩

/-- **C41** The tokens returned by `bpe(text, '0')`: there are none, the call always fails, although the name is accepted. -/
theorem C41_bpe_zero (env : Env) (d : BpeDisk) (o : CommonOpts) (t : TextCall) (g : Option BpeState) (ht : t.api = .bpe "0".toList o)
    (hf : t.force = true) (ts : List Tok) (hc : convertText env.ucd t.lexed = .ok ts) :
    isPredefinedId "0".toList = true ∧ (textApiSt env d t g).1 = .error .keyError := by
  refine ⟨by decide, ?_⟩
  rw [C41_result env d t g (Or.inl (force_not_reuse hf)), ht]
  obtain ⟨v, hv, hvp⟩ := createStrValue_ok (optsOf (.bpe "0".toList o)).noStr (optsOf (.bpe "0".toList o)).maxStrLength
  unfold textApi
  rw [(textConfig_eq (.bpe "0".toList o) hv hvp).1]
  simp only [bind, Except.bind]
  unfold preprocessText
  rw [hc]
  rfl

example : tokensAfter [] (abCall (.bpe "0".toList {}) true) = .error .keyError := by decide +kernel

/-- **C41** With reuse, a call with codes shipped with the package does not look at the disk at all once there is global data: the
result is determined by that data, whatever codes it came from. -/
theorem C41_reuse (env : Env) (d d' : BpeDisk) (t : TextCall) (id : Str) (o : CommonOpts) (s : BpeState) (ht : t.api = .bpe id o)
    (hf : t.force = false) (hid : isPredefinedId id = true) : textApiSt env d t (some s) = textApiSt env d' t (some s) := by
  have hforced : t.forced = false := by simp [TextCall.forced, ht, hf]
  have hload : ∀ (d : BpeDisk) (c : PrepConfig), loadForText env.ucd d c (apiBpeCodesId t.api) t.forced (some s) = (.ok (), some s) := by
    intro d c
    rw [ht]
    simp only [apiBpeCodesId]
    cases id with
    | nil => cases hid
    | cons ch r =>
      unfold loadForText
      simp only
      rw [if_pos hid]
      unfold initBpeData
      rw [hforced]
      rfl
  unfold textApiSt preprocessSt
  simp only [hload]

/-- **C41 does not hold for calls that ask for reuse**: after a call with the codes `1k`, a call with the codes `5k` splits with
the codes `1k`. -/
theorem C41_reuse_violated :
    tokensAfter [] (abCall (.bpe "5k".toList {}) false) = .ok ["a", "b", "</t>"] ∧
    tokensAfter [abCall (.bpe "1k".toList {}) true] (abCall (.bpe "5k".toList {}) false) = .ok ["ab", "</t>"] := by decide +kernel

/-- **C41 does not hold for calls that ask for reuse**: after a call that failed, because its codes are not there or because of
`bpe(text, '0')`, calls with other codes fail. -/
theorem C41_failed_load_violated :
    tokensAfter [] (abCall (.bpe "5k".toList {}) false) = .ok ["a", "b", "</t>"] ∧
    tokensAfter [abCall (.bpe "10k".toList {}) true] (abCall (.bpe "5k".toList {}) false) = .error .typeError ∧
    tokensAfter [abCall (.bpe "0".toList {}) true] (abCall (.bpe "5k".toList {}) false) = .error .typeError ∧
    tokensAfter [abCall (.bpe "0".toList {}) true] (abCall (.bpe "5k".toList {}) true) = .ok ["a", "b", "</t>"] := by decide +kernel

theorem pySplit_two (x t : Str) : 2 ≤ (pySplit ' ' (x ++ ' ' :: t)).length := by
  induction x with
  | nil =>
    have := List.length_pos_iff.mpr (pySplit_ne_nil ' ' t)
    simp [pySplit]
    omega
  | cons c x ih =>
    simp only [List.cons_append, pySplit]
    split
    · simp only [List.length_cons]; omega
    · split
      · next h => rw [h] at ih; simp at ih
      · next p ps h => rw [h] at ih; simpa using ih

/-- **C41** Whatever was loaded before loading failed, without merges no word can be split that is not in the cache, and without a
cache no word at all. -/
theorem C41_failed_load (s : BpeState) (w : Str) (hw : w ≠ []) (h : ∀ c, s.cache = some c → s.merges = none ∧ c.get? (escape w true) = none) :
    s.subwords w = .error .typeError := by
  obtain ⟨cache, merges⟩ := s
  cases cache with
  | none => rfl
  | some c =>
    obtain ⟨h1, h2⟩ := h c rfl
    simp only at h1
    subst h1
    simp only [BpeState.subwords, h2]
    have henc : encodeNoMerges (escape w true) = .error .typeError := by
      unfold encodeNoMerges
      simp only [toCharList_escape, bind, Except.bind]
      refine if_pos ?_
      obtain ⟨x, y, l, hl⟩ : ∃ x y l, unitsOf w = x :: y :: l := by
        cases w with
        | nil => exact absurd rfl hw
        | cons a r =>
          cases r with
          | nil => exact ⟨_, _, _, rfl⟩
          | cons b r => exact ⟨_, _, _, rfl⟩
      rw [hl]
      have hj : pyJoin [' '] (x :: y :: l) = x ++ ' ' :: pyJoin [' '] (y :: l) := by simp [pyJoin]
      rw [hj]
      exact pySplit_two x _
    rw [henc]
    rfl

/-- A disk with learnt codes whose merges are not there. -/
def noMergesDisk : BpeDisk := { codesDisk with reg := some [⟨"p_1".toList, some "p".toList, ["100".toList]⟩] }

/-- **C41** The same for learnt codes: after a call that fails because the file with the merges is not there, calls that ask for reuse
fail. -/
theorem C41_failed_custom_violated :
    ((textApiSt demoEnv noMergesDisk (abCall (.bpe "p-100".toList {}) true) none).1).map (·.1.map String.ofList) = .error .fileNotFound ∧
    ((textApiSt demoEnv noMergesDisk (abCall (.bpe "5k".toList {}) false)
      (afterCalls demoEnv [(noMergesDisk, abCall (.bpe "p-100".toList {}) true)] none)).1).map (·.1.map String.ofList) =
        .error .typeError := by decide +kernel

/-! ## C53: unsplittable tokens when learnt codes are applied -/

/-- The cache that is made of a vocabulary of unsplittable tokens. -/
theorem C53_cache (c : BpeCache) (ws : List Str) (k : Str) : (addNonbpe c ws).get? k = if k ∈ ws then some [k] else c.get? k := by
  induction ws generalizing c with
  | nil => simp [addNonbpe]
  | cons w r ih =>
    have : addNonbpe c (w :: r) = addNonbpe (c.set w [w]) r := rfl
    rw [this, ih, Dict.get?_set]
    by_cases h1 : k ∈ r
    · simp [h1]
    · by_cases h2 : k = w
      · subst h2; simp [h1]
      · simp [h1, h2, Ne.symm h2]

/-- **C53** A word is kept whole if the escaped word is in the vocabulary. -/
theorem C53_kept_partial (ws : List Str) (m : MergeList) (w : Str) (h : escape w true ∈ ws) :
    getBpeSubwords w ⟨addNonbpe [] ws, m⟩ = .ok [w] := by
  have hlast : (escape w true).getLast? = some escChar := by simp [escape]
  have hdrop : undoubleEsc (escape w true).dropLast = w := by
    simp only [escape, if_true, List.dropLast_concat]
    rw [doubleEsc_eq, undouble_units]
  unfold getBpeSubwords getBpeSubwordsSt
  simp only [C53_cache, if_pos h]
  have hun : unescape [escape w true] = .ok ([w], [(escape w true).dropLast]) := by
    unfold unescape
    simp [hlast, hdrop]
  rw [hun]
  rfl

/-- **C53** The vocabulary has no effect on any other word, so an unsplittable token is split like any other word. -/
theorem C53_no_effect (ws : List Str) (m : MergeList) (w : Str) (h : escape w true ∉ ws) :
    getBpeSubwords w ⟨addNonbpe [] ws, m⟩ = getBpeSubwords w ⟨[], m⟩ := by
  unfold getBpeSubwords getBpeSubwordsSt
  simp only [C53_cache, if_neg h]
  cases encodeWord (escape w true) m with
  | error e => rfl
  | ok r =>
    simp only [Dict.get?, bind, Except.bind, Except.map]
    cases unescape r <;> rfl

/-- A disk with codes `p` learnt by the user (no merges) and a vocabulary of unsplittable tokens. -/
def nonbpeDisk (vocab : String) : BpeDisk :=
  ⟨some [⟨"p_1".toList, some "p".toList, ["100".toList]⟩], fun f =>
    if f = .learntMerges "p_1".toList "100".toList then some []
    else if f = .nonbpeVocab "p_1_-_u0EFsu".toList then some vocab.toList else none⟩

/-- The tokens of `ab` with the codes `p` for a vocabulary of unsplittable tokens. -/
def abWith (vocab : String) : Except PyErr (List String) :=
  ((textApiSt demoEnv (nonbpeDisk vocab) (abCall (.bpe "p-100".toList {}) true) none).1).map (·.1.map String.ofList)

/-- **C53 does not hold**: `ab` is in the vocabulary of unsplittable tokens of the codes `p`, but it is split.  It would be kept whole
if the vocabulary had the escaped word `ab@`. -/
theorem C53_violated :
    nonbpeVocab asciiUcd (nonbpeDisk "ab\n") "p".toList = .ok ["ab".toList] ∧
    abWith "ab\n" = .ok ["a", "b", "</t>"] ∧ abWith "ab@\n" = .ok ["ab</t>"] := by decide +kernel

example : escape "ab".toList true ∉ ["ab".toList] ∧ escape "ab".toList true ∈ ["ab@".toList] := by decide

end Verif.Props
