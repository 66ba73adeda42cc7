import Verif.Proofs.Parts
import Verif.Props.Modes
/-!
# C87: Every piece of a text is processed by itself, and every option changes only what it is about
-/
namespace Verif.Props
open Verif Spec

/-- C87: for every call there is a fixed contribution of every piece that the lexer can deliver, such that the output for every text
consists of the contributions of its pieces in their order, without a newline at the very end and with `<EOF>` on request. -/
theorem C87_parts (env : Env) (hu : env.ucd.Laws) (load : Str → Except PyErr BpeData) (call : ApiCall)
    (hl : ∀ i, apiBpeCodesId call = some i → i ≠ [] ∧ ∃ d, load i = .ok d ∧ CacheOk d) : ∃ part, PartByPart env load call part :=
  let ⟨part, h, _⟩ := parts_exist hu hl
  ⟨part, h⟩

/-- C87: two calls that differ in their options contribute the same for every piece that the differing options are not about:
`no_com` is about comments, `no_str` and `max_str_length` about string literals, `no_unicode` about pieces with other characters than
ASCII. -/
theorem C87_options (env : Env) (hu : env.ucd.Laws) (load : Str → Except PyErr BpeData) (call : ApiCall)
    (hl : ∀ i, apiBpeCodesId call = some i → i ≠ [] ∧ ∃ d, load i = .ok d ∧ CacheOk d) (o o' : CommonOpts)
    (hw : o.noSpaces = o'.noSpaces) :
    ∃ p p', PartByPart env load (withOpts call o) p ∧ PartByPart env load (withOpts call o') p' ∧
      ∀ e, (IsCommentPiece e → o.noCom = o'.noCom) → (IsStringPiece e → o.noStr = o'.noStr ∧ o.maxStrLength = o'.maxStrLength) →
        (¬ AllAscii e.2 → o.noUnicode = o'.noUnicode) → p e = p' e := by
  obtain ⟨p, h1, h2⟩ := parts_exist hu (load := load) (call := withOpts call o) (by rw [withOpts_id]; exact hl)
  obtain ⟨p', g1, g2⟩ := parts_exist hu (load := load) (call := withOpts call o') (by rw [withOpts_id]; exact hl)
  refine ⟨p, p', h1, g1, fun e hc hs ha => partIs_unique hu (partIs_other hu hw (fun h _ => hc h) (fun h _ => ?_) ?_ (h2 e)) (g2 e)⟩
  · rw [(hs h).1, (hs h).2]; exact ⟨rfl, .rfl⟩
  · by_cases h : AllAscii e.2
    · exact .inl h
    · exact .inr (ha h)

/-- C87: a text without pieces that the differing options are about gives the same output with both. -/
theorem C87_same (env : Env) (hu : env.ucd.Laws) (load : Str → Except PyErr BpeData) (call : ApiCall)
    (hl : ∀ i, apiBpeCodesId call = some i → i ≠ [] ∧ ∃ d, load i = .ok d ∧ CacheOk d) (o o' : CommonOpts)
    (hw : o.noSpaces = o'.noSpaces) (lexed : List (TokType × Str)) (eof : Bool)
    (hc : (∃ e ∈ lexed, IsCommentPiece e) → o.noCom = o'.noCom)
    (hs : (∃ e ∈ lexed, IsStringPiece e) → o.noStr = o'.noStr ∧ o.maxStrLength = o'.maxStrLength)
    (ha : (∃ e ∈ lexed, ¬ AllAscii e.2) → o.noUnicode = o'.noUnicode) :
    textApi env load (withOpts call o) lexed eof = textApi env load (withOpts call o') lexed eof := by
  obtain ⟨p, p', h1, h2, h3⟩ := C87_options env hu load call hl o o' hw
  have hp : lexed.flatMap p = lexed.flatMap p' := by
    have : ∀ l : List (TokType × Str), (∀ e ∈ l, p e = p' e) → l.flatMap p = l.flatMap p' := by
      intro l
      induction l with
      | nil => intro _; rfl
      | cons e r ih =>
        intro h
        rw [List.flatMap_cons, List.flatMap_cons, h e (by simp), ih fun x hx => h x (by simp [hx])]
    exact this lexed fun e he => h3 e (fun h => hc ⟨e, he, h⟩) (fun h => hs ⟨e, he, h⟩) (fun h => ha ⟨e, he, h⟩)
  rw [h1, h2, hp]
  cases call <;> rfl

/-- C87: `no_spaces` takes the newlines and tabs out of every contribution and leaves everything else. -/
theorem C87_spaces (env : Env) (hu : env.ucd.Laws) (load : Str → Except PyErr BpeData) (call : ApiCall)
    (hl : ∀ i, apiBpeCodesId call = some i → i ≠ [] ∧ ∃ d, load i = .ok d ∧ CacheOk d) (o : CommonOpts) :
    ∃ part, PartByPart env load (withOpts call { o with noSpaces := false }) part ∧
      PartByPart env load (withOpts call { o with noSpaces := true }) fun e => (part e).filter fun x => !x.white := by
  obtain ⟨p, h1, h2⟩ := parts_exist hu (load := load) (call := withOpts call { o with noSpaces := false }) (by rw [withOpts_id]; exact hl)
  exact ⟨p, h1, parts_whole hu (by rw [withOpts_id]; exact hl) fun e => partIs_white hu (h2 e)⟩

/-- C87: `no_com` replaces the contribution of every comment by `<comment>` and leaves everything else. -/
theorem C87_comments (env : Env) (hu : env.ucd.Laws) (load : Str → Except PyErr BpeData) (call : ApiCall)
    (hl : ∀ i, apiBpeCodesId call = some i → i ≠ [] ∧ ∃ d, load i = .ok d ∧ CacheOk d) (o : CommonOpts) :
    ∃ part, PartByPart env load (withOpts call { o with noCom := false }) part ∧
      PartByPart env load (withOpts call { o with noCom := true }) (commentsHidden env.ucd part) := by
  obtain ⟨p, h1, h2⟩ := parts_exist hu (load := load) (call := withOpts call { o with noCom := false }) (by rw [withOpts_id]; exact hl)
  refine ⟨p, h1, parts_whole hu (by rw [withOpts_id]; exact hl) fun e => ?_⟩
  have f := (withOpts_fields call { o with noCom := true }).1
  obtain ⟨ty, v⟩ := e
  unfold commentsHidden
  split
  · next h =>
    obtain ⟨hk, hv⟩ := h
    have hw : NoWords env.ucd (pieceOpts (withOpts call { o with noCom := true })) (ty, v) := .inr (.inr (.inr (.inr (.inl ⟨hk, f⟩))))
    rcases hk with hk | hk
    · rw [if_pos hk]
      exact partIs_constant (h2 (ty, v)) (fun _ => withOpts_mode) (.same hw (.hiddenLine hv hk f)) (.inl rfl) fun _ => .constant
    · rw [if_neg (by rw [hk]; nofun)]
      exact partIs_constant (h2 (ty, v)) (fun _ => withOpts_mode) (.same hw (.hiddenBlock hv hk f)) (.inl rfl) fun _ => .constant
  · next h => exact partIs_other (o := { o with noCom := false }) hu rfl (fun h1 h2 => absurd ⟨h1, h2⟩ h) (fun _ _ => ⟨rfl, .rfl⟩) (.inr rfl) (h2 (ty, v))

/-- C87: `no_str` replaces the contribution of every string literal by `<str-literal>` and leaves everything else. -/
theorem C87_strings (env : Env) (hu : env.ucd.Laws) (load : Str → Except PyErr BpeData) (call : ApiCall)
    (hl : ∀ i, apiBpeCodesId call = some i → i ≠ [] ∧ ∃ d, load i = .ok d ∧ CacheOk d) (o : CommonOpts) :
    ∃ part, PartByPart env load (withOpts call { o with noStr := false }) part ∧
      PartByPart env load (withOpts call { o with noStr := true }) (stringsHidden env.ucd part) := by
  obtain ⟨p, h1, h2⟩ := parts_exist hu (load := load) (call := withOpts call { o with noStr := false }) (by rw [withOpts_id]; exact hl)
  refine ⟨p, h1, parts_whole hu (by rw [withOpts_id]; exact hl) fun e => ?_⟩
  have f := (withOpts_fields call { o with noStr := true }).2.1
  obtain ⟨ty, v⟩ := e
  unfold stringsHidden
  split
  · next h =>
    obtain ⟨hk, hv⟩ := h
    have hw : NoWords env.ucd (pieceOpts (withOpts call { o with noStr := true })) (ty, v) := .inr (.inr (.inr (.inr (.inr ⟨hk, .inl f⟩))))
    exact partIs_constant (h2 (ty, v)) (fun _ => withOpts_mode) (.same hw (.hiddenString hv hk f)) (.inl rfl) fun _ => .constant
  · next h => exact partIs_other (o := { o with noStr := false }) hu rfl (fun _ _ => rfl) (fun h1 h2 => absurd ⟨h1, h2⟩ h) (.inr rfl) (h2 (ty, v))

theorem limitOf_le (m : Int) : limitOf m ≤ limitOf (-1) := by
  have : limitOf (-1) = sysMaxsize := rfl
  rw [this]
  have : 62 ≤ sysMaxsize := by decide
  unfold limitOf
  split
  · omega
  · split <;> omega

/-- C87: `max_str_length` replaces the contribution of every string literal above the limit by a pair of quotes and leaves everything
else. -/
theorem C87_limit (env : Env) (hu : env.ucd.Laws) (load : Str → Except PyErr BpeData) (call : ApiCall)
    (hl : ∀ i, apiBpeCodesId call = some i → i ≠ [] ∧ ∃ d, load i = .ok d ∧ CacheOk d) (o : CommonOpts) (m : Int) :
    ∃ part, PartByPart env load (withOpts call { o with noStr := false, maxStrLength := -1 }) part ∧
      PartByPart env load (withOpts call { o with noStr := false, maxStrLength := m })
        (longHidden env.ucd (keepsStrings call) (limitOf m) part) := by
  obtain ⟨p, h1, h2⟩ := parts_exist hu (load := load) (call := withOpts call { o with noStr := false, maxStrLength := -1 })
    (by rw [withOpts_id]; exact hl)
  refine ⟨p, h1, parts_whole hu (by rw [withOpts_id]; exact hl) fun e => ?_⟩
  obtain ⟨-, f, g⟩ := withOpts_fields call { o with noStr := false, maxStrLength := m }
  obtain ⟨ty, v⟩ := e
  unfold longHidden
  split
  · next h =>
    obtain ⟨hk, hv, hn⟩ := h
    have hn' : (pieceOpts (withOpts call { o with noStr := false, maxStrLength := m })).limit < v.length := by rw [g]; exact hn
    have hw : NoWords env.ucd (pieceOpts (withOpts call { o with noStr := false, maxStrLength := m })) (ty, v) :=
      .inr (.inr (.inr (.inr (.inr ⟨hk, .inr hn'⟩))))
    have hd := DescribedAny.same (nu := (optsOf (withOpts call { o with noStr := false, maxStrLength := m })).noUnicode) hw
      (.long hv hk f hn')
    cases hx : keepsStrings call with
    | true =>
      have : (pieceOpts (withOpts call { o with noStr := false, maxStrLength := m })).literals = .full := by
        cases call with
        | nosplit _ fs => cases hx; rfl
        | _ => cases hx
      rw [if_pos this] at hd
      exact partIs_constant (h2 (ty, v)) (fun _ => withOpts_mode) hd (.inl rfl) fun _ => .constant
    | false =>
      have : (pieceOpts (withOpts call { o with noStr := false, maxStrLength := m })).literals ≠ .full := by
        cases call with
        | nosplit _ fs => cases hx; nofun
        | _ => nofun
      rw [if_neg this] at hd
      exact partIs_constant (h2 (ty, v)) (fun _ => withOpts_mode) hd (.inr rfl) fun _ => .quotes
  · next h =>
    refine partIs_other (o := { o with noStr := false, maxStrLength := -1 }) hu rfl (fun _ _ => rfl) (fun h1 h2 => ⟨rfl, ?_⟩) (.inr rfl) (h2 (ty, v))
    have hx : ¬ limitOf m < v.length := fun hx => h ⟨h1, h2, hx⟩
    have hy := limitOf_le m
    constructor
    · intro hz; exact absurd (show limitOf (-1) < v.length from hz) (by omega)
    · intro hz; exact absurd hz hx

theorem finishToks_append {us vs : List FullTok} (h : us.getLast?.map (·.ty) ≠ some .newLine) (eof : Bool) :
    finishToks eof (us ++ vs) = finishToks false us ++ finishToks eof vs := by
  have hf : finishToks false us = us := by
    unfold finishToks
    rw [if_neg h]
    exact List.append_nil us
  rw [hf]
  unfold finishToks
  rw [← List.append_assoc]
  congr 1
  by_cases hv : vs = []
  · subst hv
    rw [List.append_nil, if_neg h]
    exact (List.append_nil us).symm
  · obtain ⟨ws, w, rfl⟩ : ∃ ws w, vs = ws ++ [w] := ⟨vs.dropLast, vs.getLast hv, (List.dropLast_concat_getLast hv).symm⟩
    have e1 : ((us ++ (ws ++ [w])).getLast?.map (·.ty) = some Ty.newLine) ↔ w.ty = .newLine := by
      rw [← List.append_assoc, List.getLast?_append]
      exact ⟨fun e => Option.some.inj e, fun e => congrArg some e⟩
    have e2 : ((ws ++ [w]).getLast?.map (·.ty) = some Ty.newLine) ↔ w.ty = .newLine := by
      rw [List.getLast?_append]
      exact ⟨fun e => Option.some.inj e, fun e => congrArg some e⟩
    by_cases hw : w.ty = .newLine
    · rw [if_pos (e1.2 hw), if_pos (e2.2 hw), ← List.append_assoc, List.dropLast_concat, List.dropLast_concat]
    · rw [if_neg fun e => hw (e1.1 e), if_neg fun e => hw (e2.1 e)]

/-- C87: a text may be cut after any operator or bracket and its two parts processed one after the other. -/
theorem C87_cut (env : Env) (hu : env.ucd.Laws) (load : Str → Except PyErr BpeData) (call : ApiCall)
    (hl : ∀ i, apiBpeCodesId call = some i → i ≠ [] ∧ ∃ d, load i = .ok d ∧ CacheOk d) (a b : List (TokType × Str)) (e : TokType × Str)
    (he : kindOf e.1 = .operator) (hv : Visible env.ucd e) (eof : Bool) :
    ∃ out out' md md' md'', textApi env load call (a ++ [e]) false = .ok (out, md) ∧ textApi env load call b eof = .ok (out', md') ∧
      textApi env load call (a ++ [e] ++ b) eof = .ok (out ++ out', md'') := by
  obtain ⟨p, h1, h2⟩ := parts_exist hu (load := load) (call := call) hl
  obtain ⟨m, -, hm, -⟩ := h2 e
  have hp : p e = [⟨operatorType e.2, [e.2], [e.2]⟩] :=
    partIs_unique hu (h2 e) ⟨m, [⟨operatorType e.2, e.2, .fixed⟩], hm, .same (.inr (.inl he)) (.operator hv he),
      .cons (.inr nofun) (.same nofun .fixed) .nil⟩
  refine ⟨_, _, _, _, (outputOf call (finishToks eof ((a ++ [e] ++ b).flatMap p))).2, h1 _ _, h1 _ _, (h1 _ _).trans ?_⟩
  have happ : finishToks eof ((a ++ [e] ++ b).flatMap p) = finishToks false ((a ++ [e]).flatMap p) ++ finishToks eof (b.flatMap p) := by
    rw [List.flatMap_append (xs := a ++ [e]), finishToks_append]
    rw [List.flatMap_append, List.flatMap_cons, List.flatMap_nil, List.append_nil, hp, List.getLast?_append]
    exact fun h => operatorType_ne _ (Option.some.inj (show some (operatorType e.2) = _ from h))
  rw [happ]
  unfold outputOf
  rw [List.flatMap_append]

/-! ## Examples -/

/-- The codes of the examples. -/
def partsLoad (i : Str) : Except PyErr BpeData := if i = "x".toList then .ok modesCodes else .error .keyError

theorem parts_load : ∀ i, apiBpeCodesId (.bpe "x".toList {}) = some i → i ≠ [] ∧ ∃ d, partsLoad i = .ok d ∧ CacheOk d := by
  intro i hi
  cases hi
  exact ⟨by decide, modesCodes, rfl, modes_cacheOk⟩

/-- Non-vacuity of C87: BPE with the codes `x`. -/
example := C87_parts demoEnv asciiUcd_laws partsLoad (.bpe "x".toList {}) parts_load

/-- `no_com` and `no_unicode` make no difference to the text `maxSize = 12"a b"`, which has neither comments nor umlauts. -/
example : textApi demoEnv partsLoad (.bpe "x".toList {}) modesTokens false =
    textApi demoEnv partsLoad (.bpe "x".toList { noCom := true, noUnicode := true }) modesTokens false :=
  C87_same demoEnv asciiUcd_laws partsLoad (.bpe "x".toList {}) parts_load {} { noCom := true, noUnicode := true } rfl modesTokens false
    (by unfold IsCommentPiece; decide +kernel) (fun _ => ⟨rfl, rfl⟩) (by unfold AllAscii; decide +kernel)

/-- What `no_str` and `no_com` do to the parts of a text. -/
example : stringsHidden demoEnv.ucd (fun _ => []) (["Literal", "String"], "\"a b\"".toList) =
    [⟨.stringLiteral, ["<str-literal>".toList], []⟩] :=
  if_pos ⟨by unfold IsStringPiece; decide, '"', by decide, by decide⟩

/-- The text may be cut after `=`. -/
example := C87_cut demoEnv asciiUcd_laws partsLoad (.bpe "x".toList {}) parts_load
  [(["Name"], "maxSize".toList), (["Text"], " ".toList)] [(["Literal", "Number"], "12".toList)] (["Operator"], "=".toList) (by decide)
  ⟨'=', by decide, by decide⟩ true

end Verif.Props
