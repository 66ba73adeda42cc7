import Verif.Proofs.Units
/-!
# Properties of preprocessing: metadata, composition, totality, iterators (C15 - C18)
-/
namespace Verif.Props
open Verif Spec

/-- Libraries used in the examples: ASCII only, a splitter that does nothing, a stemmer that does nothing. -/
def demoEnv : Env := ⟨asciiUcd, fun s => [s], id⟩

/-- `foo_Bar = 10L  // x` and a string literal. -/
def demoTokens : List Tok :=
  [.split [.word "foo".toList .none, .underscore, .word "bar".toList .firstLetter], .operator "=".toList,
   .number "10l".toList, .tab, .oneLineComment [.operator "/".toList, .operator "/".toList, .split [.word "x".toList .none], .newLine],
   .stringLiteral [.nonCodeChar "\"".toList, .split [.word "a".toList .none], .spaceInString 2, .number "7".toList, .nonCodeChar "\"".toList] 6]

def demoConfig (s : String) : PrepConfig :=
  match PrepConfig.fromEncoded s.toList with
  | .ok c => c
  | .error _ => ⟨[], [], [], [], [], []⟩

theorem demo_valid {s : String} {c : PrepConfig} (h : PrepConfig.fromEncoded s.toList = .ok c) : c.Valid :=
  ((fromEncoded_ok_iff _ _).mp h).1

/-! ## C15 -/

/-- **C15** (any representation configuration, any splitters) The boundaries start at 0, never decrease, end at the number
of subtokens, and there is one type per full token. -/
theorem C15_metadata_wellformed (u : Ucd) (rc : ReprConfig) (ts : List Tok) (l : List Str) (md : Meta)
    (h : toReprList u rc ts = .ok (l, md)) : WellFormed l.length md := by
  rw [toReprList_eq] at h
  cases hu : unitsList u rc false ts with
  | error e => simp [hu, Except.map] at h
  | ok us =>
    simp only [hu, Except.map, Except.ok.injEq] at h
    obtain ⟨rfl, rfl⟩ := Prod.mk.inj h
    refine ⟨boundsFrom_head? _ _, ?_, boundsFrom_pairwise _ _, ?_⟩
    · simp [boundsFrom_getLast?]
    · simp [boundsFrom_length]

/-- **C15** for the function used by the API (including end-of-token marks). -/
theorem C15_to_repr_wellformed (env : Env) (c : PrepConfig) (hv : c.Valid) (ts : List Tok) (bd : Option BpeData)
    (l : List Str) (md : Meta) (h : toRepr env c ts bd = .ok (l, md)) : WellFormed l.length md := by
  obtain ⟨rc, -, heq⟩ := toRepr_eq hv ts bd
  rw [heq] at h
  cases hu : unitsList env.ucd rc false ts with
  | error e => simp [hu, Except.map] at h
  | ok us =>
    simp only [hu, Except.map, Except.ok.injEq] at h
    obtain ⟨h1, rfl⟩ := Prod.mk.inj h
    have hlen : l.length = (us.map (·.subs)).flatten.length := by
      rw [← h1]
      split
      · simp [List.length_flatten, Function.comp_def, markLast_length]
      · rfl
    rw [hlen]
    refine ⟨boundsFrom_head? _ _, ?_, boundsFrom_pairwise _ _, ?_⟩
    · simp [flatForm, boundsFrom_getLast?]
    · simp [flatForm, boundsFrom_length]

/-- **C15** (strictness) If the splitters never return an empty list, no full token is empty. -/
theorem C15_boundaries_strict (u : Ucd) (rc : ReprConfig) (ts : List Tok) (l : List Str) (md : Meta)
    (hn : ∀ v r, v ≠ [] → rc.numberSplitter v = .ok r → r ≠ []) (hw : ∀ s r, rc.splitWord s = .ok r → r ≠ [])
    (ht : EverywhereList NumberNonempty ts)
    (h : toReprList u rc ts = .ok (l, md)) : md.bounds.Pairwise (· < ·) := by
  rw [toReprList_eq] at h
  cases hu : unitsList u rc false ts with
  | error e => simp [hu, Except.map] at h
  | ok us =>
    simp only [hu, Except.map, Except.ok.injEq] at h
    obtain ⟨rfl, rfl⟩ := Prod.mk.inj h
    have := unitsList_ne u (N := (· ≠ [])) hn (by simp) (by simp) (fun _ => hw) false ts ht us hu
    exact boundsFrom_strict 0 _ (by
      intro g hg
      obtain ⟨x, hx, rfl⟩ := List.mem_map.mp hg
      exact this x hx)

/-- **C15** (strictness, API) For every valid configuration no full token is empty; in particular for BPE this holds without
any assumption on the merges. -/
theorem C15_to_repr_strict (env : Env) (c : PrepConfig) (hv : c.Valid) (ts : List Tok) (bd : Option BpeData)
    (ht : EverywhereList NumberNonempty ts) (l : List Str) (md : Meta) (h : toRepr env c ts bd = .ok (l, md)) :
    md.bounds.Pairwise (· < ·) := by
  obtain ⟨rc, hok, heq⟩ := toRepr_eq hv ts bd
  rw [heq] at h
  cases hu : unitsList env.ucd rc false ts with
  | error e => simp [hu, Except.map] at h
  | ok us =>
    simp only [hu, Except.map, Except.ok.injEq] at h
    obtain ⟨-, rfl⟩ := Prod.mk.inj h
    have := unitsList_ne env.ucd (N := (· ≠ [])) (fun v l hx hl => number_ne hv hok v l (.inl hx) hl) (by simp) (by simp)
      (word_ne hok) false ts ht us hu
    exact boundsFrom_strict 0 _ (by
      intro g hg
      obtain ⟨x, hx, rfl⟩ := List.mem_map.mp hg
      exact this x hx)

/-- The type under which a token appears in the metadata: words with non-ASCII characters count as ordinary compound words
unless they are replaced by the `<non-en>` placeholder. -/
def shownType (rc : ReprConfig) : Tok → Ty
  | .nonEng _ => if Ty.nonEng ∈ rc.types ∧ rc.bpe = false then .nonEng else .splitContainer
  | t => t.ty

theorem splitUnits_ty {u : Ucd} {rc : ReprConfig} {subs : List Subtok} {us : List FullTok}
    (h : splitUnits u rc subs = .ok us) : us.map (·.ty) = [.splitContainer] := by
  unfold splitUnits at h
  split at h
  · split at h
    · cases hs : rc.splitWord (splitStr u subs) <;> simp [hs, bind, Except.bind] at h
      subst h; rfl
    · cases hs : subtoksRepr u rc [] subs <;> simp [hs, bind, Except.bind] at h
      subst h; rfl
  · cases hs : subtoksJoin u rc subs <;> simp [hs, bind, Except.bind] at h
    subst h; rfl

/-- **C15** (types) A token that is not a comment or string literal contributes exactly one full token, of its own type (none if it is a
dropped newline or tab); all full tokens of a comment or string literal have its type. -/
theorem C15_types (u : Ucd) (rc : ReprConfig) (t : Tok) (l : List Str) (md : Meta)
    (h : toReprList u rc [t] = .ok (l, md)) :
    (∀ ty ∈ md.types, ty = shownType rc t) ∧
    (¬ IsComment t → ¬ IsString t → md.types.length = if t.ty ∈ [Ty.newLine, .tab] ∧ t.ty ∈ rc.types then 0 else 1) := by
  rw [toReprList_eq] at h
  simp only [unitsList] at h
  cases hu : Tok.units u rc t with
  | error e => simp [hu, bind, Except.bind, Except.map] at h
  | ok us =>
    simp only [hu, bind, Except.bind, Except.map, List.append_nil, Except.ok.injEq] at h
    obtain ⟨-, rfl⟩ := Prod.mk.inj h
    simp only [List.length_map]
    have retyped : ∀ ty (vs : List FullTok), ∀ x ∈ (retype ty vs).map (·.ty), x = ty := by
      intro ty vs x hx
      simp [retype] at hx
      exact hx.2.symm
    cases t with
    | number v =>
      simp only [Tok.units, numberUnits] at hu
      split at hu
      · cases hs : rc.numberSplitter v <;> simp [hs, bind, Except.bind] at hu
        subst hu; simp [shownType, Tok.ty]
      · simp at hu; subst hu; simp [shownType, Tok.ty]
    | one =>
      simp only [Tok.units, numberUnits] at hu
      split at hu
      · cases hs : rc.numberSplitter ['1'] <;> simp [hs, bind, Except.bind] at hu
        subst hu; simp [shownType, Tok.ty]
      · simp at hu; subst hu; simp [shownType, Tok.ty]
    | zero =>
      simp only [Tok.units, numberUnits] at hu
      split at hu
      · cases hs : rc.numberSplitter ['0'] <;> simp [hs, bind, Except.bind] at hu
        subst hu; simp [shownType, Tok.ty]
      · simp at hu; subst hu; simp [shownType, Tok.ty]
    | newLine =>
      simp only [Tok.units, whitespaceUnits, Except.ok.injEq] at hu
      subst hu
      split <;> rename_i hm <;> simp [shownType, Tok.ty, hm]
    | tab =>
      simp only [Tok.units, whitespaceUnits, Except.ok.injEq] at hu
      subst hu
      split <;> rename_i hm <;> simp [shownType, Tok.ty, hm]
    | spaceInString n =>
      simp only [Tok.units] at hu
      split at hu <;> simp at hu
      subst hu; simp [shownType, Tok.ty]
    | split subs =>
      simp only [Tok.units] at hu
      have := splitUnits_ty hu
      refine ⟨by rw [this]; simp [shownType, Tok.ty], fun _ _ => ?_⟩
      have hl := congrArg List.length this
      simpa [Tok.ty] using hl
    | nonEng subs =>
      simp only [Tok.units, nonEngUnits] at hu
      split at hu <;> rename_i hm
      · split at hu <;> rename_i hb
        · cases hr : replaceNonAsciiSeqs (splitStr u subs) Ph.nonAsciiSeq with
          | error e => simp [hr, bind, Except.bind] at hu
          | ok tk =>
            cases hf : wordFrom u tk with
            | error e => simp [hr, hf, bind, Except.bind] at hu
            | ok w =>
              simp only [hr, hf, bind, Except.bind] at hu
              have := splitUnits_ty hu
              refine ⟨by rw [this]; simp [shownType, hb], fun _ _ => ?_⟩
              have hl := congrArg List.length this
              simpa [Tok.ty] using hl
        · simp at hu; subst hu
          have hb : rc.bpe = false := by simpa using hb
          simp [shownType, Tok.ty, hm, hb]
      · have := splitUnits_ty hu
        refine ⟨by rw [this]; simp [shownType, hm], fun _ _ => ?_⟩
        have hl := congrArg List.length this
        simpa [Tok.ty] using hl
    | oneLineComment ts =>
      refine ⟨?_, fun hc => absurd (.inl ⟨ts, rfl⟩) hc⟩
      simp only [Tok.units] at hu
      split at hu
      · simp at hu; subst hu; simp [shownType, Tok.ty]
      · cases hl : unitsList u rc false ts <;> simp [hl, bind, Except.bind] at hu
        subst hu
        intro ty hty
        rw [List.map_append, List.mem_append] at hty
        rcases hty with hty | hty
        · exact retyped _ _ ty hty
        · simpa [shownType, Tok.ty] using hty
    | multilineComment ts =>
      refine ⟨?_, fun hc => absurd (.inr ⟨ts, rfl⟩) hc⟩
      simp only [Tok.units] at hu
      split at hu
      · simp at hu; subst hu; simp [shownType, Tok.ty]
      · cases hl : unitsList u rc false ts <;> simp [hl, bind, Except.bind] at hu
        subst hu
        exact retyped _ _
    | stringLiteral ts n =>
      refine ⟨?_, fun _ hc => absurd ⟨ts, n, rfl⟩ hc⟩
      simp only [Tok.units] at hu
      split at hu
      · simp at hu; subst hu; simp [shownType, Tok.ty]
      · split at hu
        · cases hu
        · split at hu
          · split at hu <;> (simp at hu; subst hu; simp [shownType, Tok.ty])
          · split at hu
            · cases hr : replaceInString rc (strList u ts) with
              | error e => simp [hr, bind, Except.bind] at hu
              | ok s =>
                cases hs : rc.splitWord s <;> simp [hr, hs, bind, Except.bind] at hu
                subst hu; simp [shownType, Tok.ty]
            · split at hu
              · cases hr : replaceInString rc (strList u ts) <;> simp [hr, bind, Except.bind] at hu
                subst hu; simp [shownType, Tok.ty]
              · cases hl : unitsList u rc true ts <;> simp [hl, bind, Except.bind] at hu
                subst hu
                exact retyped _ _
    | _ =>
      simp only [Tok.units, nonProcUnits] at hu
      split at hu <;> simp at hu
      subst hu; simp [shownType, Tok.ty]

/-- Non-vacuity of C15: basic splitting with numbers; a compound word, a split number, a comment and a string literal. -/
example : toRepr demoEnv (demoConfig "uc12su") demoTokens none =
    .ok (["<w>".toList, "foo".toList, "_".toList, "Bar".toList, "</w>".toList, "=".toList,
          "<w>".toList, "1".toList, "0".toList, "l".toList, "</w>".toList, "\t".toList,
          "/".toList, "/".toList, "x".toList, "\n".toList, "<EOL>".toList,
          "\"".toList, "a".toList, "7".toList, "\"".toList],
      { nonproc := ["=".toList, "\t".toList, "/".toList, "\n".toList, "\"".toList]
        bounds := [0, 5, 6, 11, 12, 13, 14, 15, 16, 17, 18, 19, 20, 21]
        types := [.splitContainer, .operator, .number, .tab, .oneLineComment, .oneLineComment, .oneLineComment,
          .oneLineComment, .oneLineComment, .stringLiteral, .stringLiteral, .stringLiteral, .stringLiteral] }) := by
  decide +kernel

/-! ## C16 -/

/-- **C16** Preprocessing a concatenation gives the concatenation of the subtokens and types, the boundaries of the second part
shifted by the size of the first, and the union of the non-processable tokens. -/
theorem C16_compositional (env : Env) (c : PrepConfig) (hv : c.Valid) (a b : List Tok) (bd : Option BpeData)
    (x y : List Str) (m m' : Meta) (ha : toRepr env c a bd = .ok (x, m)) (hb : toRepr env c b bd = .ok (y, m')) :
    ∃ md, toRepr env c (a ++ b) bd = .ok (x ++ y, md) ∧
      md.bounds = m.bounds.dropLast ++ m'.bounds.map (x.length + ·) ∧
      md.types = m.types ++ m'.types ∧
      ∀ s, s ∈ md.nonproc ↔ s ∈ m.nonproc ∨ s ∈ m'.nonproc := by
  obtain ⟨rc, hok, h1⟩ := toRepr_eq (env := env) hv a bd
  obtain ⟨rc2, hok2, h2⟩ := toRepr_eq (env := env) hv b bd
  obtain ⟨rc3, hok3, h3⟩ := toRepr_eq (env := env) hv (a ++ b) bd
  have e2 : rc2 = rc := Except.ok.inj (hok2.unique.symm.trans hok.unique)
  have e3 : rc3 = rc := Except.ok.inj (hok3.unique.symm.trans hok.unique)
  subst e2 e3
  rw [h1] at ha; rw [h2] at hb; rw [h3, unitsList_append]
  cases hu : unitsList env.ucd rc3 false a with
  | error e => simp [hu, Except.map] at ha
  | ok us =>
    cases hw : unitsList env.ucd rc3 false b with
    | error e => simp [hw, Except.map] at hb
    | ok vs =>
      simp only [hu, hw, Except.map, Except.ok.injEq] at ha hb
      obtain ⟨rfl, rfl⟩ := Prod.mk.inj ha
      obtain ⟨rfl, rfl⟩ := Prod.mk.inj hb
      refine ⟨(flatForm (us ++ vs)).2, ?_, ?_, ?_, ?_⟩
      · simp only [bind, Except.bind, Except.map]
        split <;> simp
      · have hlen : (if c.isBpe = true then ((us.map (·.subs)).map markLast).flatten else (us.map (·.subs)).flatten).length
            = (us.map (·.subs)).flatten.length := by
          split
          · simp [List.length_flatten, Function.comp_def, markLast_length]
          · rfl
        rw [hlen]
        simp only [flatForm, List.map_append]
        rw [boundsFrom_append, boundsFrom_map]
        simp
      · simp [flatForm]
      · intro s
        simp [flatForm, mem_distinct]

/-- **C16** (failures) Preprocessing a concatenation fails exactly if preprocessing one of the parts fails. -/
theorem C16_failure (env : Env) (c : PrepConfig) (hv : c.Valid) (a b : List Tok) (bd : Option BpeData) (e : PyErr) :
    toRepr env c (a ++ b) bd = .error e ↔
      toRepr env c a bd = .error e ∨ (∃ r, toRepr env c a bd = .ok r) ∧ toRepr env c b bd = .error e := by
  obtain ⟨rc, hok, h1⟩ := toRepr_eq (env := env) hv a bd
  obtain ⟨rc2, hok2, h2⟩ := toRepr_eq (env := env) hv b bd
  obtain ⟨rc3, hok3, h3⟩ := toRepr_eq (env := env) hv (a ++ b) bd
  have e2 : rc2 = rc := Except.ok.inj (hok2.unique.symm.trans hok.unique)
  have e3 : rc3 = rc := Except.ok.inj (hok3.unique.symm.trans hok.unique)
  subst e2 e3
  rw [h1, h2, h3, unitsList_append]
  cases hu : unitsList env.ucd rc3 false a with
  | error e' => simp [Except.map, bind, Except.bind]
  | ok us =>
    cases hw : unitsList env.ucd rc3 false b with
    | error e' => simp [Except.map, bind, Except.bind]
    | ok vs => simp [Except.map, bind, Except.bind]

/-- Non-vacuity of C16: the demo tokens cut after the third token, in characters mode. -/
example : toRepr demoEnv (demoConfig "uc18su") (demoTokens.take 2) (some ⟨[], []⟩) =
    .ok (["f".toList, "o".toList, "o".toList, "_".toList, "B".toList, "a".toList, "r".toList, "</t>".toList, "=</t>".toList],
      ⟨["=".toList], [0, 8, 9], [.splitContainer, .operator]⟩) ∧
    (toRepr demoEnv (demoConfig "uc18su") (demoTokens.drop 2) (some ⟨[], []⟩)).toOption.isSome = true := by
  decide +kernel

/-! ## C17 -/

/-- **C17** For every valid configuration, every token sequence (whose non-ASCII words are not empty) is preprocessed without an
exception.  In BPE configurations the BPE data must have been loaded and its cache must be well-formed. -/
theorem C17_valid_config_total (env : Env) (hu : env.ucd.Laws) (c : PrepConfig) (hv : c.Valid) (ts : List Tok)
    (ht : EverywhereList (NonEngNonempty env.ucd) ts) (bd : Option BpeData)
    (hb : c.isBpe = true → ∃ d, bd = some d ∧ CacheOk d) :
    ∃ r, toRepr env c ts bd = .ok r := by
  obtain ⟨rc, hok, heq⟩ := toRepr_eq (env := env) hv ts bd
  obtain ⟨us, hus⟩ := unitsList_ok env.ucd hu (totalRc hv hok hb) false ts ht
  rw [heq, hus]
  exact ⟨_, rfl⟩

/-- **C17** in terms of configuration strings. -/
theorem C17_config_string_total (env : Env) (hu : env.ucd.Laws) (s : Str) (c : PrepConfig)
    (hs : PrepConfig.fromEncoded s = .ok c) (ts : List Tok) (ht : EverywhereList (NonEngNonempty env.ucd) ts)
    (d : BpeData) (hd : CacheOk d) : ∃ r, toRepr env c ts (some d) = .ok r :=
  C17_valid_config_total env hu c ((fromEncoded_ok_iff _ _).mp hs).1 ts ht _ fun _ => ⟨d, rfl, hd⟩

/-- BPE preprocessing without BPE data fails on the first compound word. -/
theorem C17_bpe_needs_data (env : Env) (c : PrepConfig) (hv : c.Valid) (hb : c.isBpe = true) (w : Str) (cap : Cap)
    (r : List Subtok) (ts : List Tok) :
    toRepr env c (.split (.word w cap :: r) :: ts) none = .error .attributeError := by
  obtain ⟨rc, hok, heq⟩ := toRepr_eq (env := env) hv (.split (.word w cap :: r) :: ts) none
  rw [heq]
  have hb' := hb
  simp only [PrepConfig.isBpe, decide_eq_true_eq] at hb'
  have hw := hok.word
  unfold PrepConfig.wordSplitter at hw
  rw [if_pos hb'] at hw
  have h0 : (if c.isBpe = true then (none : Option BpeData) else none) = none := by simp
  rw [h0] at hw
  simp only [Except.ok.injEq] at hw
  have hbpe : rc.bpe = false := by rw [hok.bpe]; simp
  have hsc : Ty.splitContainer ∈ rc.types ∧ Ty.word ∈ rc.types := by
    rw [hok.types, typesToBeRepr_mem, typesToBeRepr_mem]
    simp at hb' ⊢
    rcases hb' with e | e | e | e | e | e <;> simp [e]
  simp only [unitsList, Tok.units, splitUnits, hsc.1, hbpe, subtoksRepr, Subtok.repr, hsc.2, ReprConfig.splitWord, ← hw, bpeSplitter]
  cases rc.lowercase <;> simp [bind, Except.bind, Except.map]

/-- Non-vacuity of C17: the laws hold for ASCII, the empty cache is well-formed, and the demo tokens satisfy the hypothesis. -/
example : demoEnv.ucd.Laws ∧ CacheOk ⟨[], []⟩ ∧ CacheOk ⟨[("ab@".toList, ["a".toList, "b@".toList])], []⟩ ∧
    EverywhereList (NonEngNonempty demoEnv.ucd) (.nonEng [.word "üb".toList .none] :: demoTokens) := by
  refine ⟨asciiUcd_laws, ?_, ?_, ?_⟩
  · intro w l h
    simp [Dict.get?] at h
  · intro w l h
    simp only [Dict.get?] at h
    split at h
    · simp only [Option.some.injEq] at h
      subst h
      exact ⟨_, rfl, rfl⟩
    · cases h
  · simp [EverywhereList, demoTokens, Everywhere, NonEngNonempty, splitStr, concat, Subtok.str, withPreservedCase]

/-! ## C18 -/

/-- **C18** Iterating over full tokens yields the groups in order with their indices. -/
theorem C18_full_tokens {α β : Type} (gs : List (List α)) (format : List α → β) (withIndex : Bool) :
    fullTokenIter gs.flatten (boundsFrom 0 gs) format withIndex =
      .ok (gs.zipIdx.map fun gi => (if withIndex then some gi.2 else none, format gi.1)) :=
  fullTokenIter_groups gs format withIndex

/-- **C18** Iterating over subtokens yields every subtoken once, in order, with the index of the group it belongs to, if no
group is empty. -/
theorem C18_subtokens {α β : Type} (gs : List (List α)) (h : ∀ g ∈ gs, g ≠ []) (format : List α → β) (withIndex : Bool) :
    subtokenIter gs.flatten (boundsFrom 0 gs) format withIndex =
      .ok (gs.zipIdx.flatMap fun gi => gi.1.map fun x => (if withIndex then some gi.2 else none, format [x])) :=
  subtokenIter_groups gs h format withIndex

/-- **C18** For subtokens with well-formed metadata there are such groups: the slices delimited by the boundaries. -/
theorem C18_groups_exist (l : List Str) (md : Meta) (h : WellFormed l.length md) :
    ∃ gs : List (List Str), gs.flatten = l ∧ md.bounds = boundsFrom 0 gs ∧
      (md.bounds.Pairwise (· < ·) ↔ ∀ g ∈ gs, g ≠ []) := by
  obtain ⟨h1, h2, h3, -⟩ := h
  cases hb : md.bounds with
  | nil => simp [hb] at h1
  | cons b bs =>
    rw [hb] at h1 h2 h3
    simp only [List.head?_cons, Option.some.injEq] at h1
    subst h1
    obtain ⟨gs, hg, he⟩ := exists_groups l.length l 0 bs h3 h2 (by simp)
    exact ⟨gs, hg, he, by rw [he]; exact boundsFrom_strict_iff 0 gs⟩

/-- **C18** on the output of preprocessing: both iterators succeed, joining the full tokens gives back all the text, and the
subtoken iterator returns exactly the subtokens, tagged with nondecreasing full-token indices. -/
theorem C18_on_output (env : Env) (c : PrepConfig) (hv : c.Valid) (ts : List Tok) (bd : Option BpeData)
    (ht : EverywhereList NumberNonempty ts) (l : List Str) (md : Meta) (h : toRepr env c ts bd = .ok (l, md)) :
    ∃ gs : List (List Str), gs.flatten = l ∧ gs.length = md.types.length ∧
      fullTokenIter l md.bounds id true = .ok (gs.zipIdx.map fun gi => (some gi.2, gi.1)) ∧
      subtokenIter l md.bounds id true = .ok (gs.zipIdx.flatMap fun gi => gi.1.map fun x => (some gi.2, [x])) := by
  have hwf := C15_to_repr_wellformed env c hv ts bd l md h
  have hst := C15_to_repr_strict env c hv ts bd ht l md h
  obtain ⟨gs, hg, hb, hs⟩ := C18_groups_exist l md hwf
  refine ⟨gs, hg, ?_, ?_, ?_⟩
  · have := hwf.types
    rw [hb, boundsFrom_length] at this
    omega
  · rw [hb, ← hg]
    simpa using C18_full_tokens gs id true
  · rw [hb, ← hg]
    simpa using C18_subtokens gs (hs.mp hst) id true

/-- **C18** (rejections) The iterators reject exactly the boundaries that do not start at 0 or do not end at the number of
subtokens. -/
theorem C18_validation {α β : Type} (l : List α) (bounds : List Nat) (format : List α → β) (wi : Bool) :
    ¬ (bounds.head? = some 0 ∧ bounds.getLast? = some l.length) ↔
      fullTokenIter l bounds format wi = .error .valueError ∧ subtokenIter l bounds format wi = .error .valueError := by
  have hval : validateBoundaries l.length bounds =
      if bounds.head? = some 0 ∧ bounds.getLast? = some l.length then .ok () else .error .valueError := by
    unfold validateBoundaries
    cases h1 : bounds.head? with
    | none => simp
    | some a =>
      cases h2 : bounds.getLast? with
      | none => simp
      | some b =>
        by_cases hb : l.length = b
        · by_cases ha : a = 0
          · simp [ha, hb]
          · simp [ha, hb]
        · have : ¬ b = l.length := fun e => hb e.symm
          simp [hb, this]
  constructor
  · intro h
    unfold fullTokenIter subtokenIter
    rw [hval, if_neg h]
    exact ⟨rfl, rfl⟩
  · rintro ⟨h, -⟩ hc
    have hne : ∀ fuel w, fuel + w = bounds.length → collectIter (fullTokenNext l bounds format wi) fuel w ≠ .error .valueError := by
      intro fuel
      induction fuel with
      | zero => intro w _; simp [collectIter]
      | succ n ih =>
        intro w hw
        unfold collectIter fullTokenNext
        split
        · simp [bind, Except.bind]
        · split
          · simp only [bind, Except.bind]
            have := ih (w + 1) (by omega)
            cases hcol : collectIter (fullTokenNext l bounds format wi) n (w + 1) with
            | ok r =>
              have : collectIter (fun w => _) n (w + 1) = _ := hcol
              unfold fullTokenNext at hcol
              rw [hcol]; simp
            | error e =>
              rw [hcol] at this
              unfold fullTokenNext at hcol
              rw [hcol]
              simpa using this
          · simp [bind, Except.bind]
    unfold fullTokenIter at h
    rw [hval, if_pos hc] at h
    simp only [bind, Except.bind] at h
    exact hne _ _ (by simp) h

/-- With an empty full token the subtoken iterator reports a wrong index: the boundaries below say that "b" belongs to the third
full token (index 2), the iterator says 1. -/
theorem C18_empty_full_token_misindexed :
    fullTokenIter ["a".toList, "b".toList] [0, 1, 1, 2] id true =
      .ok [(some 0, ["a".toList]), (some 1, []), (some 2, ["b".toList])] ∧
    subtokenIter ["a".toList, "b".toList] [0, 1, 1, 2] id true = .ok [(some 0, ["a".toList]), (some 1, ["b".toList])] := by
  decide

/-- Non-vacuity of C18. -/
example : WellFormed 3 ⟨[], [0, 1, 3], [.word, .word]⟩ ∧
    subtokenIter ["hi".toList, "the".toList, "re".toList] [0, 1, 3] id true =
      .ok [(some 0, ["hi".toList]), (some 1, ["the".toList]), (some 1, ["re".toList])] := by
  refine ⟨⟨rfl, rfl, by decide, rfl⟩, by decide⟩

end Verif.Props
