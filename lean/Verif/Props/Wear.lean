import Verif.Proofs.Wear
import Verif.Props.Reference
import Verif.Props.BpeState
/-!
# Calls with a cache of splits that wears (C63)
-/
namespace Verif.Props
open Verif Spec

/-! ## Lemmas -/

theorem isBpe_config {call : ApiCall} (v : Str) : (configOf call v).isBpe = true ↔ IsBpe call := by
  cases call with
  | nosplit o fs => cases fs <;> simp [configOf, splitCode, PrepConfig.isBpe, IsBpe]
  | chars o => simp [configOf, splitCode, PrepConfig.isBpe, IsBpe]
  | basic o sn ro st nc => cases sn <;> cases ro <;> cases st <;> simp [configOf, splitCode, PrepConfig.isBpe, IsBpe]
  | bpe i o =>
    simp only [configOf, splitCode, PrepConfig.isBpe, IsBpe, iff_true]
    (repeat' split) <;> decide

/-- The configuration of a call with byte-pair encoding, up to the splitters. -/
theorem bpe_config (env : Env) {call : ApiCall} (hb : IsBpe call) {v : Str}
    (hp : v ∈ possibleStrValues) (h0 : (optsOf call).noStr = true → v = ['0'])
    (h1 : (optsOf call).noStr = false → v ≠ ['0'] ∧ getMaxStrLength v = .ok (some (limitOf (optsOf call).maxStrLength))) :
    ∃ rc, (∀ s, (configOf call v).reprConfigSt env (some s) = .ok (Wear.withSplitter rc s.subwords)) ∧
      Wear.BpeTypes rc (optsOf call).noStr (optsOf call).noCom (optsOf call).noUnicode (limitOf (optsOf call).maxStrLength) := by
  have hi := (isBpe_config (call := call) v).2 hb
  obtain ⟨rc, hrc, hok⟩ := reprConfig_ok env (configOf_valid call hp) (some ⟨[], []⟩)
  have hs : (configOf call v).split ∈ [['4'], ['5'], ['6'], ['7'], ['8'], ['9']] := by simpa [PrepConfig.isBpe] using hi
  refine ⟨rc, fun s => ?_, ?_⟩
  · unfold PrepConfig.reprConfigSt
    simp only [Option.map_some, hrc, bind, Except.bind]
    rw [if_pos hi]
    rfl
  · refine ⟨by rw [hok.bpe, hi]; rfl, ?_, ?_, ?_, ?_, ?_, ?_, ?_, ?_, ?_⟩
    · rw [hok.types, typesToBeRepr_mem]
      simp only [List.mem_cons, List.not_mem_nil, or_false] at hs
      rcases hs with h | h | h | h | h | h <;> simp [h]
    · rw [hok.types, typesToBeRepr_mem]
      simp only [List.mem_cons, List.not_mem_nil, or_false] at hs
      rcases hs with h | h | h | h | h | h <;> simp [h]
    · rw [hok.types, typesToBeRepr_mem]; simp
    · rw [hok.types, typesToBeRepr_mem]; simp
    · rw [hok.types, typesToBeRepr_mem]; cases hn : (optsOf call).noUnicode <;> simp [configOf, hn]
    · rw [hok.types, typesToBeRepr_mem]; cases hn : (optsOf call).noCom <;> simp [configOf, hn]
    · rw [hok.types, typesToBeRepr_mem]; cases hn : (optsOf call).noCom <;> simp [configOf, hn]
    · rw [hok.types, typesToBeRepr_mem]
      cases hn : (optsOf call).noStr with
      | true => simp [configOf, h0 hn]
      | false => simp [configOf, (h1 hn).1]
    · intro hn
      have := hok.maxLen
      have e : (configOf call v).str = v := rfl
      rw [e, (h1 hn).2] at this
      exact (Except.ok.inj this).symm

theorem toReprIn_bpe {env : Env} {c : PrepConfig} {rc : ReprConfig} (hb : c.isBpe = true)
    (hrc : ∀ s, c.reprConfigSt env (some s) = .ok (Wear.withSplitter rc s.subwords)) (ts : List Tok) (s : BpeState) :
    Wear.toReprIn env c ts (some s) = ((Wear.toReprBpe Wear.lookUp env.ucd rc ts s).1, some (Wear.toReprBpe Wear.lookUp env.ucd rc ts s).2) ∧
    toReprSt env c ts (some s) = Wear.toReprPlain env.ucd rc s.subwords ts := by
  constructor
  · unfold Wear.toReprIn
    simp only
    rw [if_pos hb, hrc s]
    simp only [Wear.toReprBpe_with]
  · unfold toReprSt Wear.toReprPlain
    rw [hrc s]
    simp only [bind, Except.bind]
    cases toReprList env.ucd (Wear.withSplitter rc s.subwords) ts with
    | error e => rfl
    | ok x =>
      simp only
      rw [if_pos hb]

theorem worker_bpe {env : Env} {c : PrepConfig} {rc : ReprConfig} (hb : c.isBpe = true)
    (hrc : ∀ s, c.reprConfigSt env (some s) = .ok (Wear.withSplitter rc s.subwords)) (fs : List (List Tok)) (s : BpeState) :
    Wear.worker env c fs (some s) = ((Wear.files Wear.lookUp env.ucd rc fs s).1, some (Wear.files Wear.lookUp env.ucd rc fs s).2) := by
  induction fs generalizing s with
  | nil => rfl
  | cons ts r ih =>
    change Wear.Comp.bind (Wear.toReprIn env c ts) (fun x => Wear.Comp.bind (Wear.worker env c r) fun xs => pure (x :: xs)) (some s) =
      ((Wear.Comp.bind (Wear.toReprBpe Wear.lookUp env.ucd rc ts) (fun x => Wear.Comp.bind (Wear.files Wear.lookUp env.ucd rc r) fun xs => pure (x :: xs)) s).1,
       some (Wear.Comp.bind (Wear.toReprBpe Wear.lookUp env.ucd rc ts) (fun x => Wear.Comp.bind (Wear.files Wear.lookUp env.ucd rc r) fun xs => pure (x :: xs)) s).2)
    unfold Wear.Comp.bind
    rw [(toReprIn_bpe hb hrc ts s).1]
    rcases Wear.toReprBpe Wear.lookUp env.ucd rc ts s with ⟨x, s'⟩
    cases x with
    | error e => rfl
    | ok a =>
      simp only
      rw [ih s']
      rcases Wear.files Wear.lookUp env.ucd rc r s' with ⟨y, s''⟩
      cases y <;> rfl

theorem wearApi_eq (env : Env) (d : BpeDisk) (t : TextCall) (g : Option BpeState) {c : PrepConfig} (hc : textConfig t.api = .ok c) :
    Wear.textApi env d t g =
      match convertText env.ucd t.lexed with
      | .error e => (.error e, g)
      | .ok parsed =>
        if c.isBpe then
          match loadForText env.ucd d c (apiBpeCodesId t.api) t.forced g with
          | (.error e, g') => (.error e, g')
          | (.ok (), g') => Wear.toReprIn env c (finishParsed parsed t.appendEof) g'
        else Wear.toReprIn env c (finishParsed parsed t.appendEof) g := by
  unfold Wear.textApi
  rw [hc]
  change Wear.preprocess env d c (apiBpeCodesId t.api) t g = _
  unfold Wear.preprocess
  cases convertText env.ucd t.lexed with
  | error e => rfl
  | ok parsed =>
    simp only
    by_cases hb : c.isBpe = true
    · simp only [hb, if_true]
      change Wear.Comp.bind (fun g => loadForText env.ucd d c (apiBpeCodesId t.api) t.forced g)
        (fun _ => Wear.toReprIn env c (finishParsed parsed t.appendEof)) g = _
      simp only [Wear.Comp.bind]
      rcases loadForText env.ucd d c (apiBpeCodesId t.api) t.forced g with ⟨x, g'⟩
      cases x <;> rfl
    · simp only [hb]; rfl

/-! ## C63 -/

/-- **C63** Splitting the tokens of a text with the global data `s`.  If no word that is in the cache is needed twice, the result is the one
that the codes determine.  Otherwise the call fails, provided that the cache has splits of the words and no such word ends with `@`. -/
theorem C63_text (env : Env) (call : ApiCall) (hb : IsBpe call) (c : PrepConfig) (hc : textConfig call = .ok c) (ts : List Tok) (s : BpeState) :
    (¬ Repeats s (needed env.ucd (optsOf call) ts) → (Wear.toReprIn env c ts (some s)).1 = toReprSt env c ts (some s)) ∧
    (Repeats s (needed env.ucd (optsOf call) ts) → (∀ w ∈ needed env.ucd (optsOf call) ts, InCache s w → SoundFor s w) →
      (∃ x, toReprSt env c ts (some s) = .ok x) → CacheError (Wear.toReprIn env c ts (some s)).1) := by
  obtain ⟨v, hv, hvp, h0, h1⟩ := strValue (optsOf call).noStr (optsOf call).maxStrLength
  rw [(textConfig_eq call hv hvp).1] at hc
  cases hc
  obtain ⟨rc, hrc, hty⟩ := bpe_config env hb hvp h0 h1
  have hi := (isBpe_config (call := call) v).2 hb
  obtain ⟨e1, e2⟩ := toReprIn_bpe hi hrc ts s
  have key := Wear.wears_result (Wear.toReprBpe_rel (Wear.wears_closed s) env.ucd rc ts) (Wear.toReprBpe_writes s.subwords env.ucd hty ts) []
  rw [Wear.recorded] at key
  rw [e1, e2]
  refine ⟨fun h => (key.1 h).1, fun hr hs hx => key.2 ?_ hr hs hx⟩
  rintro ⟨w, -, h⟩
  simp at h

/-- The codes that a call finds on the disk. -/
theorem loads {env : Env} {d : BpeDisk} {t : TextCall} {g : Option BpeState} (hb : IsBpe t.api) (hr : ¬ AsksReuse t ∨ g = none) {id : Str}
    (hid : apiBpeCodesId t.api = some id) (hne : id ≠ []) {bd : BpeData} (hd : codesOnDisk env.ucd d t.api id = .ok bd) {c : PrepConfig}
    (hc : textConfig t.api = .ok c) : loadForText env.ucd d c (some id) t.forced g = (.ok (), some (fresh bd)) := by
  obtain ⟨v, hv, hvp⟩ := createStrValue_ok (optsOf t.api).noStr (optsOf t.api).maxStrLength
  rw [(textConfig_eq t.api hv hvp).1] at hc
  cases hc
  have hl := load_ok (u := env.ucd) (d := d) (v := v) ((isBpe_config v).2 hb) hid hne g t.forced (hr.imp_left not_reuse_forced)
  rw [hd] at hl
  exact hl

/-- **C63** A whole call of `bpe` or `chars` that loads its codes: it returns what the codes on the disk determine if no word that is in the
cache is needed twice, and fails otherwise. -/
theorem C63_call (env : Env) (d : BpeDisk) (t : TextCall) (g : Option BpeState) (hb : IsBpe t.api) (hr : ¬ AsksReuse t ∨ g = none) (id : Str)
    (hid : apiBpeCodesId t.api = some id) (hne : id ≠ []) (bd : BpeData) (hd : codesOnDisk env.ucd d t.api id = .ok bd) (parsed : List Tok)
    (hp : convertText env.ucd t.lexed = .ok parsed) :
    let words := needed env.ucd (optsOf t.api) (finishParsed parsed t.appendEof)
    let result := Verif.textApi env (codesOnDisk env.ucd d t.api) t.api t.lexed t.appendEof
    (¬ Repeats (fresh bd) words → (Wear.textApi env d t g).1 = result) ∧
    (Repeats (fresh bd) words → (∀ w ∈ words, InCache (fresh bd) w → SoundFor (fresh bd) w) → (∃ x, result = .ok x) →
      CacheError (Wear.textApi env d t g).1) := by
  intro words result
  obtain ⟨v, hv, hvp⟩ := createStrValue_ok (optsOf t.api).noStr (optsOf t.api).maxStrLength
  have hc := (textConfig_eq t.api hv hvp).1
  have hl := loads hb hr hid hne hd hc
  have hi := (isBpe_config (call := t.api) v).2 hb
  have e1 : Wear.textApi env d t g = Wear.toReprIn env (configOf t.api v) (finishParsed parsed t.appendEof) (some (fresh bd)) := by
    rw [wearApi_eq env d t g hc, hp]
    simp only
    rw [if_pos hi, hid, hl]
  have e2 : result = toReprSt env (configOf t.api v) (finishParsed parsed t.appendEof) (some (fresh bd)) := by
    change Verif.textApi env (codesOnDisk env.ucd d t.api) t.api t.lexed t.appendEof = _
    rw [← C41_result env d t g hr]
    unfold textApiSt
    rw [hc]
    simp only
    unfold preprocessSt
    rw [hp]
    simp only
    rw [if_pos hi, hid, hl]
  rw [e1, e2]
  exact C63_text env t.api hb _ hc _ _

/-- **C63** Without a cache file and without unsplittable tokens the cache is empty, and every call returns what the codes determine. -/
theorem C63_no_cache (env : Env) (d : BpeDisk) (t : TextCall) (g : Option BpeState) (hb : IsBpe t.api) (hr : ¬ AsksReuse t ∨ g = none) (id : Str)
    (hid : apiBpeCodesId t.api = some id) (hne : id ≠ []) (bd : BpeData) (hd : codesOnDisk env.ucd d t.api id = .ok bd) (he : bd.cache = []) :
    (Wear.textApi env d t g).1 = Verif.textApi env (codesOnDisk env.ucd d t.api) t.api t.lexed t.appendEof := by
  cases hp : convertText env.ucd t.lexed with
  | ok parsed =>
    refine (C63_call env d t g hb hr id hid hne bd hd parsed hp).1 ?_
    rintro ⟨w, ⟨c, l, hc, hl⟩, -⟩
    simp only [fresh, Option.some.injEq] at hc
    rw [← hc, he] at hl
    cases hl
  | error e =>
    obtain ⟨v, hv, hvp⟩ := createStrValue_ok (optsOf t.api).noStr (optsOf t.api).maxStrLength
    have hc := (textConfig_eq t.api hv hvp).1
    rw [wearApi_eq env d t g hc, hp]
    unfold Verif.textApi
    rw [hc]
    simp only [bind, Except.bind]
    unfold preprocessText
    rw [hp]
    rfl

/-- **C63** Calls that load their codes do not depend on what earlier calls have done to the cache. -/
theorem C63_history (env : Env) (d : BpeDisk) (t : TextCall) (g : Option BpeState) (h : ¬ AsksReuse t) :
    (Wear.textApi env d t g).1 = (Wear.textApi env d t none).1 := by
  obtain ⟨v, hv, hvp⟩ := createStrValue_ok (optsOf t.api).noStr (optsOf t.api).maxStrLength
  have hc := (textConfig_eq t.api hv hvp).1
  rw [wearApi_eq env d t g hc, wearApi_eq env d t none hc]
  cases convertText env.ucd t.lexed with
  | error e => rfl
  | ok parsed =>
    simp only
    by_cases hi : (configOf t.api v).isBpe = true
    · rw [if_pos hi, if_pos hi, not_reuse_forced h]
      unfold loadForText
      cases apiBpeCodesId t.api with
      | none => rfl
      | some id =>
        cases id with
        | nil => rfl
        | cons ch r =>
          simp only
          by_cases hpre : isPredefinedId (ch :: r) = true
          · rw [if_pos hpre, if_pos hpre]
            simp only [initBpeData, Bool.not_true, Bool.and_false, Bool.false_eq_true, if_false]
          · rw [if_neg hpre, if_neg hpre]
            cases CustomBpeConfig.fromId env.ucd d.reg (ch :: r) with
            | error e => rfl
            | ok cc => simp only [initBpeData, Bool.not_true, Bool.and_false, Bool.false_eq_true, if_false]
    · rw [if_neg hi, if_neg hi]
      have hf : (configOf t.api v).isBpe = false := by simpa using hi
      cases g with
      | none => rfl
      | some s =>
        simp only [Wear.toReprIn, hf, Bool.false_eq_true, if_false]
        rw [toReprSt_nonBpe hf, toReprSt_nonBpe hf]

/-- **C63** Calls without byte-pair encoding neither depend on the cache nor change it. -/
theorem C63_no_codes (env : Env) (d : BpeDisk) (t : TextCall) (g : Option BpeState) (hb : ¬ IsBpe t.api) :
    (Wear.textApi env d t g).1 = Verif.textApi env (codesOnDisk env.ucd d t.api) t.api t.lexed t.appendEof ∧ (Wear.textApi env d t g).2 = g := by
  obtain ⟨v, hv, hvp⟩ := createStrValue_ok (optsOf t.api).noStr (optsOf t.api).maxStrLength
  have hc := (textConfig_eq t.api hv hvp).1
  have hi : ¬ (configOf t.api v).isBpe = true := fun e => hb ((isBpe_config v).1 e)
  have hf : (configOf t.api v).isBpe = false := by simpa using hi
  rw [wearApi_eq env d t g hc]
  unfold Verif.textApi
  rw [hc]
  simp only [bind, Except.bind]
  unfold preprocessText
  cases convertText env.ucd t.lexed with
  | error e => exact ⟨rfl, rfl⟩
  | ok parsed =>
    simp only [bind, Except.bind]
    rw [if_neg hi, if_neg hi]
    cases g with
    | none =>
      refine ⟨?_, rfl⟩
      simp only [Wear.toReprIn]
      exact toReprSt_nonBpe hf _ _
    | some s =>
      simp only [Wear.toReprIn, hf, Bool.false_eq_true, if_false]
      exact ⟨toReprSt_nonBpe hf _ _, trivial⟩

/-- **C63** The files that one worker process gets.  All of them have the result that the codes determine if no word that is in the cache is
needed twice in any of them together; otherwise the process fails. -/
theorem C63_worker (env : Env) (call : ApiCall) (hb : IsBpe call) (c : PrepConfig) (hc : textConfig call = .ok c) (fs : List (List Tok)) (s : BpeState) :
    (¬ Repeats s (fs.flatMap (needed env.ucd (optsOf call))) →
      (Wear.worker env c fs (some s)).1 = fs.mapM fun ts => toReprSt env c ts (some s)) ∧
    (Repeats s (fs.flatMap (needed env.ucd (optsOf call))) → (∀ ts ∈ fs, ∀ w ∈ needed env.ucd (optsOf call) ts, InCache s w → SoundFor s w) →
      (∀ ts ∈ fs, ∃ x, toReprSt env c ts (some s) = .ok x) → CacheError (Wear.worker env c fs (some s)).1) := by
  obtain ⟨v, hv, hvp, h0, h1⟩ := strValue (optsOf call).noStr (optsOf call).maxStrLength
  rw [(textConfig_eq call hv hvp).1] at hc
  cases hc
  obtain ⟨rc, hrc, hty⟩ := bpe_config env hb hvp h0 h1
  have hi := (isBpe_config (call := call) v).2 hb
  have key := Wear.wears_result (Wear.files_rel (Wear.wears_closed s) env.ucd rc fs) (Wear.files_writes s.subwords env.ucd hty fs) []
  have hfun : (fun ts => toReprSt env (configOf call v) ts (some s)) = Wear.toReprPlain env.ucd rc s.subwords :=
    funext fun ts => (toReprIn_bpe hi hrc ts s).2
  rw [Wear.files_recorded] at key
  rw [worker_bpe hi hrc, hfun]
  refine ⟨fun h => (key.1 h).1, fun hr hs hx => key.2 ?_ hr ?_ ?_⟩
  · rintro ⟨w, -, h⟩
    simp at h
  · intro w hw
    rw [List.nil_append, List.mem_flatMap] at hw
    obtain ⟨ts, hts, hw⟩ := hw
    exact hs ts hts w hw
  · clear hr hs key
    have hx' : ∀ ts ∈ fs, ∃ x, Wear.toReprPlain env.ucd rc s.subwords ts = .ok x := fun ts h => by
      obtain ⟨x, e⟩ := hx ts h
      exact ⟨x, by rw [← (toReprIn_bpe hi hrc ts s).2]; exact e⟩
    clear hx
    induction fs with
    | nil => exact ⟨[], rfl⟩
    | cons ts r ih =>
      obtain ⟨x, ex⟩ := hx' ts List.mem_cons_self
      obtain ⟨xs, exs⟩ := ih fun t h => hx' t (List.mem_cons_of_mem _ h)
      exact ⟨x :: xs, by rw [List.mapM_cons, ex]; simp only [bind, Except.bind]; rw [exs]; rfl⟩

/-- **C63** A call that reuses the codes of an earlier call gets the cache as that call has left it: it returns what the codes determine if no
word that is in the cache is needed twice in the two calls together, and fails otherwise. -/
theorem C63_reuse (env : Env) (d d' : BpeDisk) (t t' : TextCall) (g : Option BpeState) (hb : IsBpe t.api) (hr : ¬ AsksReuse t ∨ g = none) (id : Str)
    (hid : apiBpeCodesId t.api = some id) (hne : id ≠ []) (bd : BpeData) (hd : codesOnDisk env.ucd d t.api id = .ok bd)
    (parsed parsed' : List Tok) (hp : convertText env.ucd t.lexed = .ok parsed) (hp' : convertText env.ucd t'.lexed = .ok parsed')
    (id' : Str) (o' : CommonOpts) (ht' : t'.api = .bpe id' o') (hf' : t'.force = false) (hid' : isPredefinedId id' = true)
    (hx : ∃ x, (textApiSt env d t g).1 = .ok x) :
    let words := needed env.ucd (optsOf t.api) (finishParsed parsed t.appendEof)
    let words' := needed env.ucd o' (finishParsed parsed' t'.appendEof)
    let again := (Wear.textApi env d' t' (Wear.textApi env d t g).2).1
    let result := (textApiSt env d' t' (some (fresh bd))).1
    ¬ Repeats (fresh bd) words →
    (¬ Repeats (fresh bd) (words ++ words') → again = result) ∧
    (Repeats (fresh bd) (words ++ words') → (∀ w ∈ words ++ words', InCache (fresh bd) w → SoundFor (fresh bd) w) → (∃ x, result = .ok x) →
      CacheError again) := by
  intro words words' again result hn
  -- the first call
  obtain ⟨v, hv, hvp, h0, h1⟩ := strValue (optsOf t.api).noStr (optsOf t.api).maxStrLength
  have hc := (textConfig_eq t.api hv hvp).1
  have hl := loads hb hr hid hne hd hc
  have hi := (isBpe_config (call := t.api) v).2 hb
  obtain ⟨rc, hrc, hty⟩ := bpe_config env hb hvp h0 h1
  have e1 : Wear.textApi env d t g = Wear.toReprIn env (configOf t.api v) (finishParsed parsed t.appendEof) (some (fresh bd)) := by
    rw [wearApi_eq env d t g hc, hp]
    simp only
    rw [if_pos hi, hid, hl]
  have e2 : (textApiSt env d t g).1 = toReprSt env (configOf t.api v) (finishParsed parsed t.appendEof) (some (fresh bd)) := by
    unfold textApiSt
    rw [hc]
    simp only
    unfold preprocessSt
    rw [hp]
    simp only
    rw [if_pos hi, hid, hl]
  obtain ⟨i1, i2⟩ := toReprIn_bpe hi hrc (finishParsed parsed t.appendEof) (fresh bd)
  have key := Wear.wears_result (Wear.toReprBpe_rel (Wear.wears_closed (fresh bd)) env.ucd rc (finishParsed parsed t.appendEof))
    (Wear.toReprBpe_writes (fresh bd).subwords env.ucd hty (finishParsed parsed t.appendEof)) []
  rw [Wear.recorded, ← i2, ← e2] at key
  obtain ⟨x, hx⟩ := hx
  have hst : (Wear.textApi env d t g).2 = some (Wear.after (fresh bd) words) := by
    rw [e1, i1]
    exact congrArg some ((key.1 hn).2 x hx)
  -- the second call
  have hb' : IsBpe t'.api := by rw [ht']; trivial
  obtain ⟨v', hv', hvp', h0', h1'⟩ := strValue (optsOf t'.api).noStr (optsOf t'.api).maxStrLength
  have hc' := (textConfig_eq t'.api hv' hvp').1
  have hi' := (isBpe_config (call := t'.api) v').2 hb'
  obtain ⟨rc', hrc', hty'⟩ := bpe_config env hb' hvp' h0' h1'
  have hload : ∀ s, loadForText env.ucd d' (configOf t'.api v') (apiBpeCodesId t'.api) t'.forced (some s) = (.ok (), some s) := by
    intro s
    have hforced : t'.forced = false := by simp [TextCall.forced, ht', hf']
    rw [hforced, ht']
    unfold loadForText
    simp only [apiBpeCodesId]
    cases id' with
    | nil => cases hid'
    | cons ch r =>
      simp only
      rw [if_pos hid']
      rfl
  have e3 : again = (Wear.toReprBpe Wear.lookUp env.ucd rc' (finishParsed parsed' t'.appendEof) (Wear.after (fresh bd) words)).1 := by
    change (Wear.textApi env d' t' (Wear.textApi env d t g).2).1 = _
    rw [hst, wearApi_eq env d' t' _ hc', hp']
    simp only
    rw [if_pos hi', hload]
    simp only
    rw [(toReprIn_bpe hi' hrc' _ _).1]
  have e4 : result = Wear.toReprPlain env.ucd rc' (fresh bd).subwords (finishParsed parsed' t'.appendEof) := by
    change (textApiSt env d' t' (some (fresh bd))).1 = _
    unfold textApiSt
    rw [hc']
    simp only
    unfold preprocessSt
    rw [hp']
    simp only
    rw [if_pos hi', hload]
    exact (toReprIn_bpe hi' hrc' _ _).2
  have key' := Wear.wears_result (Wear.toReprBpe_rel (Wear.wears_closed (fresh bd)) env.ucd rc' (finishParsed parsed' t'.appendEof))
    (Wear.toReprBpe_writes (fresh bd).subwords env.ucd hty' (finishParsed parsed' t'.appendEof)) words
  rw [Wear.recorded, ← e4, ← e3] at key'
  have ho : optsOf t'.api = o' := by rw [ht']; rfl
  rw [ho] at key'
  exact ⟨fun h => (key'.1 h).1, fun hrep hs hok => key'.2 hn hrep hs hok⟩

/-! ## Concrete calls -/

/-- The codes `1k` with a file with cached splits. -/
def cachedDisk (cache : String) : BpeDisk :=
  ⟨none, fun f =>
    if f = .defaultMerges "case".toList "1k".toList then some "a b 10\n".toList
    else if f = .defaultCache "case".toList "1k".toList then some cache.toList else none⟩

/-- A call of `bpe` with the codes `1k` for names. -/
def namesCall (names : List String) (force : Bool := true) : TextCall :=
  ⟨.bpe "1k".toList {}, names.map fun n => (["Name"], n.toList), false, force, fun c => c⟩

/-- The tokens of calls that are made one after the other. -/
def tokensOfCalls (d : BpeDisk) : List TextCall → Option BpeState → List (Except PyErr (List String))
  | [], _ => []
  | t :: r, g => (Wear.textApi demoEnv d t g).1.map (·.1.map String.ofList) :: tokensOfCalls d r (Wear.textApi demoEnv d t g).2

/-- The words needed for names. -/
def wordsOfNames (names : List String) : Except PyErr (List String) :=
  (convertText asciiUcd (namesCall names).lexed).map fun ts => (needed asciiUcd {} (finishParsed ts false)).map String.ofList

/-- The data of the codes `1k` with a cached split of `ab`. -/
def abData : BpeData := ⟨[("ab@".toList, ["ab@".toList])], []⟩

theorem ab_repeats (words : List Str) : Repeats (fresh abData) words ↔ 2 ≤ words.count "ab".toList := by
  constructor
  · rintro ⟨w, ⟨c, l, hc, hl⟩, h⟩
    cases hc
    have hw : escape w true = "ab@".toList := by
      simp only [abData, Dict.get?] at hl
      split at hl
      · next e => exact e.symm
      · cases hl
    have : w = "ab".toList := Verif.escape_inj (hw.trans (by decide))
    rw [← this]
    exact h
  · intro h
    exact ⟨_, ⟨_, ["ab@".toList], rfl, by decide⟩, h⟩

theorem ab_sound : SoundFor (fresh abData) "ab".toList := by
  refine ⟨?_, by decide⟩
  intro c l hc hl
  cases hc
  have : l = ["ab@".toList] := by
    have e : abData.cache.get? (escape "ab".toList true) = some ["ab@".toList] := by decide
    rw [e] at hl
    exact (Option.some.inj hl).symm
  subst this
  exact ⟨(["ab".toList], ["ab".toList]), by decide, by decide⟩

example : IsBpe (namesCall ["ab", "cd"]).api ∧ ¬ AsksReuse (namesCall ["ab", "cd"]) ∧
    ((codesOnDisk asciiUcd (cachedDisk "ab@\tab@\n") (namesCall []).api "1k".toList).map (·.cache)) = .ok abData.cache ∧
    wordsOfNames ["ab", "cd", "cd"] = .ok ["ab", "cd", "cd"] ∧ wordsOfNames ["ab", "cd", "ab"] = .ok ["ab", "cd", "ab"] ∧
    ¬ Repeats (fresh abData) ["ab".toList, "cd".toList, "cd".toList] ∧ Repeats (fresh abData) ["ab".toList, "cd".toList, "ab".toList] ∧
    SoundFor (fresh abData) "ab".toList :=
  ⟨trivial, force_not_reuse rfl, by decide +kernel, by decide +kernel, by decide +kernel, by rw [ab_repeats]; decide, by rw [ab_repeats]; decide, ab_sound⟩

example : tokensOfCalls (cachedDisk "ab@\tab@\n") [namesCall ["ab", "cd", "cd"], namesCall ["ab"], namesCall ["cd"] false] none =
    [.ok ["ab</t>", "c", "d", "</t>", "c", "d", "</t>"], .ok ["ab</t>"], .ok ["c", "d", "</t>"]] := by decide +kernel

example : tokensOfCalls (cachedDisk "") [namesCall ["ab", "ab"], namesCall ["ab", "ab"] false] none =
    [.ok ["ab", "</t>", "ab", "</t>"], .ok ["ab", "</t>", "ab", "</t>"]] := by decide +kernel

example : ¬ IsBpe (.basic {} false false false false) ∧ ¬ IsBpe (.nosplit {} false) ∧ isPredefinedId "1k".toList = true :=
  ⟨id, id, by decide⟩

/-- **C63 does not hold**: the text `ab ab` cannot be split if a split of `ab` is cached, although `ab` can be and although the text can be split
without the cache. -/
theorem C63_twice_violated :
    tokensOfCalls (cachedDisk "ab@\tab@\n") [namesCall ["ab"], namesCall ["ab", "ab"]] none = [.ok ["ab</t>"], .error .valueError] ∧
    tokensOfCalls (cachedDisk "") [namesCall ["ab", "ab"]] none = [.ok ["ab", "</t>", "ab", "</t>"]] := by decide +kernel

/-- **C63 does not hold** for calls that reuse the codes: the second call for the same text fails. -/
theorem C63_reuse_violated :
    tokensOfCalls (cachedDisk "ab@\ta b@\n") [namesCall ["ab"], namesCall ["ab"] false, namesCall ["ab"]] none =
      [.ok ["a", "b</t>"], .error .valueError, .ok ["a", "b</t>"]] := by decide +kernel

/-- The results of a worker process for files with names. -/
def workerTokens (c : PrepConfig) (files : List (List String)) : Except PyErr (List (List String)) :=
  match files.mapM fun names => convertText asciiUcd (namesCall names).lexed with
  | .error e => .error e
  | .ok fs => (Wear.worker demoEnv c fs (some (fresh abData))).1.map fun l => l.map (·.1.map String.ofList)

/-- The configuration of a call. -/
def oneK : PrepConfig := ⟨['u'], ['c'], ['1'], ['5'], ['s'], ['u']⟩

example : (textConfig (.bpe "1k".toList {})).map (·.toStr) = .ok oneK.toStr := by decide +kernel

/-- **C63 does not hold** for corpora: two files that have the name `ab` cannot be preprocessed by one process, but by two. -/
theorem C63_processes_violated :
    workerTokens oneK [["ab"], ["ab", "cd"]] = .error .valueError ∧ workerTokens oneK [["ab"]] = .ok [["ab</t>"]] ∧
    workerTokens oneK [["ab", "cd"]] = .ok [["ab</t>", "c", "d", "</t>"]] := by decide +kernel

/-- A text with `n` string literals `a@`. -/
def literalsCall (n : Nat) : TextCall :=
  ⟨.bpe "1k".toList {}, (List.replicate n [(["Literal", "String"], "a@".toList), (["Punctuation"], ";".toList)]).flatten, false, true, fun c => c⟩

/-- **C63 does not hold** for words that end with `@`: the third time a wrong result is returned without an error, and only the fourth time an
exception is raised. -/
theorem C63_wrong_violated :
    tokensOfCalls (cachedDisk "a@@@\ta @@@\n") [literalsCall 2, literalsCall 3, literalsCall 4] none =
      [.ok ["a", "@</t>", ";</t>", "a", "@</t>", ";</t>"],
       .ok ["a", "@</t>", ";</t>", "a", "@</t>", ";</t>", "a", "</t>", ";</t>"], .error .indexError] := by decide +kernel

end Verif.Props
