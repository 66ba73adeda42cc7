import Verif.Proofs.LeftOver
import Verif.Props.NoUnicode
import Verif.Props.Solid
/-!
# C27: what the option `no_unicode` leaves
-/
namespace Verif.Props
open Verif Verif.Spec

/-- **C27** What is left with `no_unicode`, whatever the text and the splitting mode: if the numbers are ASCII, every token that contains
other characters than ASCII and the placeholders is an operator or a keyword of the text, or a single character that is neither a letter
nor a digit, possibly with the mark that ends words. -/
theorem C27_left (env : Env) (hu : env.ucd.Laws) (hk : KeepsPlain env) (load : Str → Except PyErr BpeData)
    (hload : ∀ i d, load i = .ok d → PlainCache d) (call : ApiCall) (hn : (optsOf call).noUnicode = true)
    (lexed : List (TokType × Str)) (hnum : ∀ e ∈ lexed, kindOf e.1 = .number → ∀ c ∈ e.2, isAscii c = true) (appendEof : Bool)
    (out : List Str) (md : Meta) (h : textApi env load call lexed appendEof = .ok (out, md)) (t : Str) (ht : t ∈ out) (hp : ¬ Plain t) :
    ∃ e ∈ lexed, ∃ s, Leftover env.ucd e s ∧ (t = s ∨ t = s ++ "</t>".toList) := by
  obtain ⟨v, hv, hpv⟩ := createStrValue_ok (optsOf call).noStr (optsOf call).maxStrLength
  have hc := (textConfig_eq call hv hpv).1
  have hval := configOf_valid call hpv
  have hU : (configOf call v).enOnly = ['U'] := by simp [configOf, hn]
  suffices ∀ p ∈ out, Plain p ∨ ∃ s, (∃ e ∈ lexed, Leftover env.ucd e s) ∧ (p = s ∨ p = s ++ "</t>".toList) by
    rcases this t ht with h1 | ⟨s, ⟨e, he, hs⟩, h2⟩
    · exact absurd h1 hp
    · exact ⟨e, he, s, hs, h2⟩
  unfold textApi at h
  simp only [hc, bind, Except.bind] at h
  unfold preprocessText at h
  cases hcv : convertText env.ucd lexed with
  | error e => simp [hcv, bind, Except.bind] at h
  | ok ts =>
    simp only [hcv, bind, Except.bind] at h
    have hts := everywhereList_mem.mpr (cleanOr_finish appendEof (cleanOr_convertText hu hk
      (A := fun s => ∃ e ∈ lexed, Leftover env.ucd e s) hnum (fun e he s hs => ⟨e, he, hs⟩) hcv))
    split at h
    · split at h
      · cases h
      · cases h
      · next ch r _ =>
        cases hd : load (ch :: r) with
        | error e => simp [hd] at h
        | ok d =>
          simp only [hd] at h
          exact left_toRepr hk hval hU (by intro d' hd'; cases hd'; exact hload _ _ hd) hts h
    · exact left_toRepr hk hval hU (by intro d' hd'; cases hd') hts h

theorem mapM_mem' {α β : Type} {f : α → Except PyErr β} {l : List α} {bs : List β} (h : l.mapM f = .ok bs) :
    ∀ a ∈ l, ∃ b ∈ bs, f a = .ok b := by
  induction l generalizing bs with
  | nil => cases h; simp
  | cons a r ih =>
    rw [List.mapM_cons] at h
    cases hf : f a with
    | error e => rw [hf] at h; cases h
    | ok b =>
      cases hr : r.mapM f with
      | error e => rw [hf, hr] at h; cases h
      | ok cs =>
        rw [hf, hr] at h
        cases h
        intro x hx
        rcases List.mem_cons.mp hx with rfl | hx
        · exact ⟨b, by simp, hf⟩
        · obtain ⟨y, hy, h2⟩ := ih hr x hx
          exact ⟨y, by simp [hy], h2⟩

theorem textSplit_char {u : Ucd} {s : Str} {ps : List Str} (h : TextSplit u s ps) (c : Char) (hc : c ∈ s) (hw : u.reWord c = false)
    (hs : c ≠ ' ') : [c] ∈ ps := by
  induction h with
  | nil => cases hc
  | word h1 h2 _ _ ih =>
    rcases List.mem_append.mp hc with hc | hc
    · rw [h2 c hc] at hw; cases hw
    · exact List.mem_cons_of_mem _ (ih hc)
  | char _ h2 _ ih =>
    rcases List.mem_cons.mp hc with rfl | hc
    · exact List.mem_cons_self
    · exact List.mem_cons_of_mem _ (ih hc)
  | fourSpaces _ ih =>
    simp only [List.mem_cons] at hc
    rcases hc with hc | hc | hc | hc | hc
    · exact absurd hc hs
    · exact absurd hc hs
    · exact absurd hc hs
    · exact absurd hc hs
    · exact List.mem_cons_of_mem _ (ih hc)
  | space _ _ ih =>
    rcases List.mem_cons.mp hc with hc | hc
    · exact absurd hc hs
    · exact ih hc

theorem convertText_mem {u : Ucd} {lexed : List (TokType × Str)} {ts : List Tok} (h : convertText u lexed = .ok ts) :
    ∀ e ∈ lexed, ∃ a, convert u e.1 e.2 = .ok a ∧ ∀ t ∈ a, t ∈ ts := by
  induction lexed generalizing ts with
  | nil => simp
  | cons e r ih =>
    obtain ⟨ty, s⟩ := e
    unfold convertText at h
    cases h1 : convert u ty s with
    | error e => simp [h1, bind, Except.bind] at h
    | ok a =>
      cases h2 : convertText u r with
      | error e => simp [h1, h2, bind, Except.bind] at h
      | ok b =>
        simp only [h1, h2, bind, Except.bind, Except.ok.injEq] at h
        subst h
        intro e he
        rcases List.mem_cons.mp he with rfl | he
        · exact ⟨a, h1, fun t ht => List.mem_append_left _ ht⟩
        · obtain ⟨a', ha', h3⟩ := ih h2 e he
          exact ⟨a', ha', fun t ht => List.mem_append_right _ (h3 t ht)⟩

/-- A parsed token, not inside of a comment or a literal, whose text is never replaced. -/
def Bare (t : Tok) (s : Str) : Prop := t = .keyWord s ∨ t = .operator s ∨ t = .nonCodeChar s

theorem bare_units {u : Ucd} {rc : ReprConfig} {t : Tok} {s : Str} (hb : Bare t s) {us : List FullTok} (h : t.units u rc = .ok us) :
    ∃ x ∈ us, x.subs = [s] := by
  have key : ∀ ty, nonProcUnits rc ty s = .ok us → ∃ x ∈ us, x.subs = [s] := by
    intro ty h
    unfold nonProcUnits at h
    split at h
    · cases h
    · cases h; exact ⟨_, List.mem_singleton.mpr rfl, rfl⟩
  rcases hb with rfl | rfl | rfl <;> exact key _ h

theorem bare_toRepr {env : Env} {c : PrepConfig} (hv : c.Valid) {bd : Option BpeData} {ts : List Tok} {t : Tok} {s : Str}
    (ht : t ∈ ts) (hb : Bare t s ∨ ∃ t' ts', (t = .oneLineComment ts' ∨ t = .multilineComment ts') ∧ t' ∈ ts' ∧ Bare t' s ∧ c.com ≠ ['0'])
    {out : List Str} {md : Meta} (h : toRepr env c ts bd = .ok (out, md)) :
    (if c.isBpe then s ++ "</t>".toList else s) ∈ out := by
  obtain ⟨rc, hok, he⟩ := toRepr_eq (env := env) hv ts bd
  rw [he] at h
  cases hl : unitsList env.ucd rc false ts with
  | error e => rw [hl] at h; cases h
  | ok us =>
    rw [hl] at h
    have h1 := congrArg Prod.fst (Except.ok.inj h)
    simp only at h1
    subst h1
    obtain ⟨vs, hvs, hsub⟩ := unitsList_mem hl ht
    have hx : ∃ x ∈ us, x.subs = [s] := by
      rcases hb with hb | ⟨t', ts', htt, ht', hb, hcom⟩
      · obtain ⟨x, hx, h2⟩ := bare_units hb hvs
        exact ⟨x, hsub x hx, h2⟩
      · have hty : Ty.oneLineComment ∉ rc.types ∧ Ty.multilineComment ∉ rc.types := by
          rw [hok.types]
          constructor <;> (rw [typesToBeRepr_mem]; simp [hcom])
        have inner : ∀ ws, unitsList env.ucd rc false ts' = .ok ws → ∀ ty, ∃ x ∈ retype ty ws, x.subs = [s] := by
          intro ws hws ty
          obtain ⟨zs, hzs, hsub2⟩ := unitsList_mem hws ht'
          obtain ⟨x, hx, h2⟩ := bare_units hb hzs
          exact ⟨{ x with ty := ty }, List.mem_map.mpr ⟨x, hsub2 x hx, rfl⟩, h2⟩
        rcases htt with rfl | rfl
        · unfold Tok.units at hvs
          rw [if_neg hty.1] at hvs
          cases hw : unitsList env.ucd rc false ts' with
          | error e => simp [hw, bind, Except.bind] at hvs
          | ok ws =>
            simp only [hw, bind, Except.bind, Except.ok.injEq] at hvs
            subst hvs
            obtain ⟨x, hx, h2⟩ := inner ws hw .oneLineComment
            exact ⟨x, hsub x (List.mem_append_left _ hx), h2⟩
        · unfold Tok.units at hvs
          rw [if_neg hty.2] at hvs
          cases hw : unitsList env.ucd rc false ts' with
          | error e => simp [hw, bind, Except.bind] at hvs
          | ok ws =>
            simp only [hw, bind, Except.bind, Except.ok.injEq] at hvs
            subst hvs
            obtain ⟨x, hx, h2⟩ := inner ws hw .multilineComment
            exact ⟨x, hsub x hx, h2⟩
    obtain ⟨x, hx, h2⟩ := hx
    split
    · refine List.mem_flatten.mpr ⟨markLast x.subs, List.mem_map.mpr ⟨x.subs, List.mem_map.mpr ⟨x, hx, rfl⟩, rfl⟩, ?_⟩
      rw [h2]
      simp [markLast, Ph.compoundWordEnd]
    · refine List.mem_flatten.mpr ⟨x.subs, List.mem_map.mpr ⟨x, hx, rfl⟩, ?_⟩
      rw [h2]
      simp

/-- **C27** All of it is left outside of string literals: operators and keywords that are not ASCII, and single characters that are
neither ASCII nor letters nor digits, in words and in comments that are not removed, are tokens of the output with any options. -/
theorem C27_kept (env : Env) (hu : env.ucd.Laws) (load : Str → Except PyErr BpeData) (call : ApiCall)
    (lexed : List (TokType × Str)) (appendEof : Bool) (out : List Str) (md : Meta)
    (h : textApi env load call lexed appendEof = .ok (out, md)) (e : TokType × Str) (he : e ∈ lexed) (hb : env.ucd.isBlank e.2 = false)
    (s : Str) (hs : Leftover env.ucd e s) (ha : ∃ c ∈ s, 128 ≤ c.toNat) (hstr : kindOf e.1 ≠ .string)
    (hcom : kindOf e.1 ∈ [Kind.lineComment, .blockComment] → (optsOf call).noCom = false) :
    s ∈ out ∨ s ++ "</t>".toList ∈ out := by
  obtain ⟨v, hv, hpv⟩ := createStrValue_ok (optsOf call).noStr (optsOf call).maxStrLength
  have hc := (textConfig_eq call hv hpv).1
  have hval := configOf_valid call hpv
  obtain ⟨c0, hc0, hge⟩ := ha
  have hmem : c0 ∈ e.2 := by
    rcases hs with ⟨_, rfl⟩ | ⟨_, c, hc, rfl, _⟩
    · exact hc0
    · simp at hc0; subst hc0; exact hc
  have hne : ∀ w : Str, (∀ c ∈ w, c.toNat < 128) → e.2 ≠ w := by
    intro w hw h; rw [h] at hmem; have := hw c0 hmem; omega
  have h1 : e.2 ≠ ['\n'] := hne _ (by decide)
  have h2 : e.2 ≠ ['\t'] := hne _ (by decide)
  have words : ∀ (c : Char) ws, c ∈ e.2 → s = [c] → env.ucd.reWord c = false → splitIntoWords env.ucd e.2 = .ok ws → ∃ t ∈ ws, Bare t s := by
    intro c ws hc hsc hw hws
    subst hsc
    simp at hc0
    subst hc0
    have hsp : c0 ≠ ' ' := by rintro rfl; exact absurd hge (by decide)
    obtain ⟨t, ht, hp⟩ := mapM_mem' hws [c0] (textSplit_char ((textSplit_iff hu e.2 _).mpr rfl) c0 hc hw hsp)
    refine ⟨t, ht, .inr (.inr ?_)⟩
    unfold wordPiece at hp
    rw [if_neg (by simp)] at hp
    unfold toParsedToken at hp
    have g1 : ¬ [c0] = ['\n'] := by intro h; cases h; exact absurd hge (by decide)
    have g2 : ¬ [c0] = ['\t'] := by intro h; cases h; exact absurd hge (by decide)
    have g3 : isNumber [c0] = false := by
      cases hh : isNumber [c0] with
      | false => rfl
      | true =>
        have := (isNumber_ascii ((isNumber_iff [c0]).mp hh)).2 c0 (by simp)
        simp [isAscii] at this
        omega
    have g4 : isWordText env.ucd [c0] = false := by simp [isWordText, hw]
    rw [if_neg g1, if_neg g2, g3, g4] at hp
    simpa using hp.symm
  unfold textApi at h
  simp only [hc, bind, Except.bind] at h
  unfold preprocessText at h
  cases hcv : convertText env.ucd lexed with
  | error e => simp [hcv, bind, Except.bind] at h
  | ok ts =>
    simp only [hcv, bind, Except.bind] at h
    obtain ⟨a, hca, hsub⟩ := convertText_mem hcv e he
    rw [convert_kind _ _ _ hb h1 h2] at hca
    have hfound : ∃ t ∈ a, Bare t s ∨
        ∃ t' ts', (t = .oneLineComment ts' ∨ t = .multilineComment ts') ∧ t' ∈ ts' ∧ Bare t' s ∧ (configOf call v).com ≠ ['0'] := by
      have hcom' : kindOf e.1 ∈ [Kind.lineComment, .blockComment] → (configOf call v).com ≠ ['0'] := by
        intro hh; simp [configOf, hcom hh]
      rcases hs with ⟨hkd | hkd, rfl⟩ | ⟨hkd, c, hcm, hsc, hw⟩
      · rw [hkd] at hca
        cases hca
        refine ⟨_, List.mem_singleton.mpr rfl, .inl (.inr (.inl ?_))⟩
        unfold operatorToken
        rw [if_neg (hne _ (by decide)), if_neg (hne _ (by decide)), if_neg (hne _ (by decide)), if_neg (hne _ (by decide)),
          if_neg (hne _ (by decide))]
      · rw [hkd] at hca
        cases hca
        exact ⟨_, List.mem_singleton.mpr rfl, .inl (.inl rfl)⟩
      · simp only [List.mem_cons, List.not_mem_nil, or_false] at hkd
        rcases hkd with hkd | hkd | hkd | hkd
        · rw [hkd] at hca
          obtain ⟨t, ht, hb⟩ := words c a hcm hsc hw hca
          exact ⟨t, ht, .inl hb⟩
        · exact absurd hkd hstr
        · rw [hkd] at hca
          simp only [tokensOf] at hca
          cases hws : splitIntoWords env.ucd e.2 with
          | error e => rw [hws] at hca; cases hca
          | ok ws =>
            rw [hws] at hca
            cases hca
            obtain ⟨t, ht, hb⟩ := words c ws hcm hsc hw hws
            exact ⟨_, List.mem_singleton.mpr rfl, .inr ⟨t, ws, .inl rfl, ht, hb, hcom' (by simp [hkd])⟩⟩
        · rw [hkd] at hca
          simp only [tokensOf] at hca
          cases hws : splitIntoWords env.ucd e.2 with
          | error e => rw [hws] at hca; cases hca
          | ok ws =>
            rw [hws] at hca
            cases hca
            obtain ⟨t, ht, hb⟩ := words c ws hcm hsc hw hws
            exact ⟨_, List.mem_singleton.mpr rfl, .inr ⟨t, ws, .inr rfl, ht, hb, hcom' (by simp [hkd])⟩⟩
    obtain ⟨t, ht, hbt⟩ := hfound
    have hnl : t.isNewLine = false := by
      rcases hbt with (rfl | rfl | rfl) | ⟨_, _, rfl | rfl, _⟩ <;> rfl
    have hin := (finishParsed_sub ts appendEof).2 t (hsub t ht) hnl
    have fin : ∀ bd, toRepr env (configOf call v) (finishParsed ts appendEof) bd = .ok (out, md) →
        s ∈ out ∨ s ++ "</t>".toList ∈ out := by
      intro bd hr
      have := bare_toRepr hval hin hbt hr
      split at this
      · exact .inr this
      · exact .inl this
    split at h
    · split at h
      · cases h
      · cases h
      · next ch r _ =>
        cases hd : load (ch :: r) with
        | error e => simp [hd] at h
        | ok d =>
          simp only [hd] at h
          exact fin _ h
    · exact fin _ h

/-- Non-vacuity: an operator, a name and a comment with characters that are not replaced. -/
example : (textApi demoEnv (fun _ => .ok ⟨[], []⟩) (.chars { noUnicode := true })
      [(["Operator"], "≠".toList), (["Name"], "ä«".toList), (["Comment", "Single"], "»ü".toList)] false).toOption.map (·.1) =
      some (["≠</t>", "÷", "</t>", "«</t>", "»</t>", "÷", "</t>", "<EOL></t>"].map String.toList) ∧
    ¬ Plain "«</t>".toList ∧ Leftover demoEnv.ucd (["Name"], "ä«".toList) "«".toList ∧
    Leftover demoEnv.ucd (["Comment", "Single"], "»ü".toList) "»".toList := by
  refine ⟨by decide +kernel, by decide +kernel, .inr ⟨by decide +kernel, '«', by decide, rfl, by decide +kernel⟩,
    .inr ⟨by decide +kernel, '»', by decide, rfl, by decide +kernel⟩⟩

end Verif.Props
