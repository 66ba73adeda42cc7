import Verif.Proofs.NoUnicode
import Verif.Proofs.Solid
import Verif.Spec.LeftOver
/-!
# What the option `no_unicode` leaves
-/
namespace Verif
open Spec

/-- Texts that are not replaced are plain or among `A`. -/
def CleanOr (A : Str → Prop) (t : Tok) : Prop :=
  CleanTok t ∨ ∃ s, A s ∧ (t = .keyWord s ∨ t = .operator s ∨ t = .nonCodeChar s)

/-- Full tokens consist of plain pieces or of one text among `A`. -/
def LeftUnits (A : Str → Prop) (us : List FullTok) : Prop :=
  ∀ x ∈ us, (∀ p ∈ x.subs, Plain p) ∨ ∃ s, A s ∧ x.subs = [s]

theorem leftUnits_of_plain {A : Str → Prop} {us : List FullTok} (h : PlainUnits us) : LeftUnits A us := fun x hx => .inl (h x hx)

theorem leftUnits_append {A : Str → Prop} {us vs : List FullTok} (h1 : LeftUnits A us) (h2 : LeftUnits A vs) : LeftUnits A (us ++ vs) := by
  intro x hx
  rcases List.mem_append.mp hx with hx | hx
  · exact h1 x hx
  · exact h2 x hx

theorem leftUnits_retype {A : Str → Prop} {ty : Ty} {us : List FullTok} (h : LeftUnits A us) : LeftUnits A (retype ty us) := by
  intro x hx
  obtain ⟨y, hy, rfl⟩ := List.mem_map.mp hx
  exact h y hy

section
variable {env : Env} (hk : KeepsPlain env) {rc : ReprConfig} (hrc : PlainRc rc) {A : Str → Prop}

theorem left_nonProc {ty : Ty} {s : Str} {us : List FullTok} (hs : A s) (h : nonProcUnits rc ty s = .ok us) : LeftUnits A us := by
  unfold nonProcUnits at h
  split at h
  · cases h
  · cases h
    intro x hx
    simp at hx
    subst hx
    exact .inr ⟨s, hs, rfl⟩

include hk hrc

theorem left_leaf {t : Tok} {us : List FullTok} (hc : Everywhere CleanTok t ∨ ∃ s, A s ∧ (t = .keyWord s ∨ t = .operator s ∨ t = .nonCodeChar s))
    (h : t.units env.ucd rc = .ok us) : LeftUnits A us := by
  rcases hc with hc | ⟨s, hs, rfl | rfl | rfl⟩
  · exact leftUnits_of_plain (plain_units hk hrc t hc us h)
  · exact left_nonProc hs h
  · exact left_nonProc hs h
  · exact left_nonProc hs h

set_option linter.unusedSectionVars false in
mutual
theorem left_units : (t : Tok) → Everywhere (CleanOr A) t → ∀ us, t.units env.ucd rc = .ok us → LeftUnits A us
  | .number v, hv, _, h => left_leaf (t := .number v) hk hrc hv h
  | .one, hv, _, h => left_leaf (t := .one) hk hrc hv h
  | .zero, hv, _, h => left_leaf (t := .zero) hk hrc hv h
  | .newLine, hv, _, h => left_leaf (t := .newLine) hk hrc hv h
  | .tab, hv, _, h => left_leaf (t := .tab) hk hrc hv h
  | .spaceInString n, hv, _, h => left_leaf (t := .spaceInString n) hk hrc hv h
  | .keyWord s, hv, _, h => left_leaf (t := .keyWord s) hk hrc hv h
  | .operator s, hv, _, h => left_leaf (t := .operator s) hk hrc hv h
  | .semicolon, hv, _, h => left_leaf (t := .semicolon) hk hrc hv h
  | .openingCurly, hv, _, h => left_leaf (t := .openingCurly) hk hrc hv h
  | .closingCurly, hv, _, h => left_leaf (t := .closingCurly) hk hrc hv h
  | .openingBracket, hv, _, h => left_leaf (t := .openingBracket) hk hrc hv h
  | .closingBracket, hv, _, h => left_leaf (t := .closingBracket) hk hrc hv h
  | .nonCodeChar s, hv, _, h => left_leaf (t := .nonCodeChar s) hk hrc hv h
  | .specialToken s, hv, _, h => left_leaf (t := .specialToken s) hk hrc hv h
  | .split subs, hv, _, h => left_leaf (t := .split subs) hk hrc hv h
  | .nonEng subs, hv, _, h => left_leaf (t := .nonEng subs) hk hrc hv h
  | .oneLineComment ts, hv, us, h => by
    have ih := left_unitsList false ts hv.2
    unfold Tok.units at h
    split at h
    · cases h
      exact leftUnits_of_plain (plainUnits_one (by decide))
    · cases hl : unitsList env.ucd rc false ts with
      | error e => simp [hl, bind, Except.bind] at h
      | ok vs =>
        simp only [hl, bind, Except.bind, Except.ok.injEq] at h
        subst h
        exact leftUnits_append (leftUnits_retype (ih vs hl)) (leftUnits_of_plain (plainUnits_one (by decide)))
  | .multilineComment ts, hv, us, h => by
    have ih := left_unitsList false ts hv.2
    unfold Tok.units at h
    split at h
    · cases h
      exact leftUnits_of_plain (plainUnits_one (by decide))
    · cases hl : unitsList env.ucd rc false ts with
      | error e => simp [hl, bind, Except.bind] at h
      | ok vs =>
        simp only [hl, bind, Except.bind, Except.ok.injEq] at h
        subst h
        exact leftUnits_retype (ih vs hl)
  | .stringLiteral ts len, hv, us, h => by
    have ih := left_unitsList true ts hv.2
    unfold Tok.units at h
    split at h
    · cases h
      exact leftUnits_of_plain (plainUnits_one (by decide))
    · split at h
      · cases h
      · split at h
        · split at h
          · cases h; exact leftUnits_of_plain (plainUnits_one (by decide))
          · cases h; exact leftUnits_of_plain (plainUnits_one (by decide))
        · split at h
          · cases hr : replaceInString rc (strList env.ucd ts) with
            | error e => simp [hr, bind, Except.bind] at h
            | ok s =>
              simp only [hr, bind, Except.bind] at h
              cases hs : rc.splitWord s with
              | error e => simp [hs] at h
              | ok l =>
                simp only [hs, Except.ok.injEq] at h
                subst h
                exact leftUnits_of_plain (plainUnits_one (hrc.word _ _ (plain_replaceInString hrc.nonEng hr) hs))
          · split at h
            · cases hr : replaceInString rc (strList env.ucd ts) with
              | error e => simp [hr, bind, Except.bind] at h
              | ok s =>
                simp only [hr, bind, Except.bind, Except.ok.injEq] at h
                subst h
                refine leftUnits_of_plain (plainUnits_one ?_)
                intro p hp
                simp at hp
                subst hp
                exact plain_replaceInString hrc.nonEng hr
            · cases hl : unitsList env.ucd rc true ts with
              | error e => simp [hl, bind, Except.bind] at h
              | ok vs =>
                simp only [hl, bind, Except.bind, Except.ok.injEq] at h
                subst h
                exact leftUnits_retype (ih vs hl)

theorem left_unitsList (skip : Bool) : (ts : List Tok) → EverywhereList (CleanOr A) ts →
    ∀ us, unitsList env.ucd rc skip ts = .ok us → LeftUnits A us
  | [], _, us, h => by simp [unitsList] at h; subst h; intro x hx; cases hx
  | t :: r, hv, us, h => by
    have ih1 := left_units t hv.1
    have ih2 := left_unitsList skip r hv.2
    have main : (do
        let a ← Tok.units env.ucd rc t
        let b ← unitsList env.ucd rc skip r
        Except.ok (a ++ b) : Except PyErr _) = .ok us → LeftUnits A us := by
      intro h
      cases ha : Tok.units env.ucd rc t with
      | error e => simp [ha, bind, Except.bind] at h
      | ok a =>
        cases hb : unitsList env.ucd rc skip r with
        | error e => simp [ha, hb, bind, Except.bind] at h
        | ok b =>
          simp only [ha, hb, bind, Except.bind, Except.ok.injEq] at h
          subst h
          exact leftUnits_append (ih1 a ha) (ih2 b hb)
    cases skip
    · exact main (by simpa only [unitsList] using h)
    · cases t <;> first
        | (simp only [unitsList] at h; exact ih2 us h)
        | (simp only [unitsList] at h; exact main h)
end

end

theorem left_toRepr {env : Env} (hk : KeepsPlain env) {c : PrepConfig} (hv : c.Valid) (hu : c.enOnly = ['U'])
    {bd : Option BpeData} (hd : ∀ d, bd = some d → PlainCache d) {A : Str → Prop} {ts : List Tok} (hts : EverywhereList (CleanOr A) ts)
    {out : List Str} {md : Meta} (h : toRepr env c ts bd = .ok (out, md)) :
    ∀ p ∈ out, Plain p ∨ ∃ s, A s ∧ (p = s ∨ p = s ++ "</t>".toList) := by
  obtain ⟨rc, hok, he⟩ := toRepr_eq (env := env) hv ts bd
  rw [he] at h
  cases hl : unitsList env.ucd rc false ts with
  | error e => rw [hl] at h; cases h
  | ok us =>
    rw [hl] at h
    have h1 := congrArg Prod.fst (Except.ok.inj h)
    simp only at h1
    subst h1
    have hp := left_unitsList hk (plainRc hk hd hu hok) false ts hts us hl
    split
    · intro p hp'
      obtain ⟨g, hg, hpg⟩ := List.mem_flatten.mp hp'
      obtain ⟨g', hg', rfl⟩ := List.mem_map.mp hg
      obtain ⟨x, hx, rfl⟩ := List.mem_map.mp hg'
      rcases hp x hx with h2 | ⟨s, hs, h2⟩
      · exact .inl (plain_markLast h2 p hpg)
      · rw [h2] at hpg
        simp [markLast] at hpg
        exact .inr ⟨s, hs, .inr hpg⟩
    · intro p hp'
      obtain ⟨g, hg, hpg⟩ := List.mem_flatten.mp hp'
      obtain ⟨x, hx, rfl⟩ := List.mem_map.mp hg
      rcases hp x hx with h2 | ⟨s, hs, h2⟩
      · exact .inl (h2 p hpg)
      · rw [h2] at hpg
        simp at hpg
        exact .inr ⟨s, hs, .inl hpg⟩

/-! ## Parsing -/

theorem everywhere_cleanOr {A : Str → Prop} {t : Tok} (h : Everywhere CleanTok t) (hc : ∀ ts n, t ≠ .oneLineComment ts ∧ t ≠ .multilineComment ts ∧ t ≠ .stringLiteral ts n) :
    Everywhere (CleanOr A) t := by
  cases t <;> first | exact .inl h | exact absurd rfl (hc _ 0).1 | exact absurd rfl (hc _ 0).2.1 | exact absurd rfl (hc _ _).2.2

theorem cleanOr_toParsed {env : Env} (hl : env.ucd.Laws) (hk : KeepsPlain env) {A : Str → Prop} {s : Str} {t : Tok}
    (hs : isWordText env.ucd s = true ∨ A s) (h : toParsedToken env.ucd s = .ok t) :
    Everywhere (CleanOr A) t := by
  by_cases hw : isWordText env.ucd s = true
  · have h1 := clean_toParsed hl hk (.inl hw) h
    refine everywhere_cleanOr h1 ?_
    intro ts n
    unfold toParsedToken at h
    split at h
    · cases h; exact ⟨nofun, nofun, nofun⟩
    split at h
    · cases h; exact ⟨nofun, nofun, nofun⟩
    split at h
    · cases h; exact ⟨nofun, nofun, nofun⟩
    unfold splitIdentifier at h
    cases hm : (identParts env.ucd s).mapM (partToSubtok env.ucd) with
    | error e => simp [hm, bind, Except.bind] at h
    | ok subs =>
      simp only [hm, bind, Except.bind, Except.ok.injEq] at h
      subst h
      split <;> exact ⟨nofun, nofun, nofun⟩
  · have hs := hs.resolve_left hw
    unfold toParsedToken at h
    split at h
    · cases h; exact .inl trivial
    split at h
    · cases h; exact .inl trivial
    split at h
    · next hn =>
      cases h
      exact .inl (hk.lower _ (plain_ascii (isNumber_ascii ((isNumber_iff s).mp hn)).2))
    · cases h
      exact .inr ⟨s, hs, .inr (.inr rfl)⟩

theorem textSplit_left {u : Ucd} {s : Str} {ps : List Str} (h : TextSplit u s ps) :
    ∀ p ∈ ps, isWordText u p = true ∨ p = [' ', ' ', ' ', ' '] ∨ ∃ c ∈ s, p = [c] ∧ u.reWord c = false := by
  induction h with
  | nil => simp
  | word h1 h2 _ _ ih =>
    intro p hp
    rcases List.mem_cons.mp hp with rfl | hp
    · exact .inl (isWordText_iff h1 h2)
    · rcases ih p hp with h | h | ⟨c, hc, h⟩
      · exact .inl h
      · exact .inr (.inl h)
      · exact .inr (.inr ⟨c, List.mem_append_right _ hc, h⟩)
  | char _ h2 _ ih =>
    intro p hp
    rcases List.mem_cons.mp hp with rfl | hp
    · exact .inr (.inr ⟨_, List.mem_cons_self, rfl, h2⟩)
    · rcases ih p hp with h | h | ⟨c, hc, h⟩
      · exact .inl h
      · exact .inr (.inl h)
      · exact .inr (.inr ⟨c, List.mem_cons_of_mem _ hc, h⟩)
  | fourSpaces _ ih =>
    intro p hp
    rcases List.mem_cons.mp hp with rfl | hp
    · exact .inr (.inl rfl)
    · rcases ih p hp with h | h | ⟨c, hc, h⟩
      · exact .inl h
      · exact .inr (.inl h)
      · exact .inr (.inr ⟨c, by simp [hc], h⟩)
  | space _ _ ih =>
    intro p hp
    rcases ih p hp with h | h | ⟨c, hc, h⟩
    · exact .inl h
    · exact .inr (.inl h)
    · exact .inr (.inr ⟨c, List.mem_cons_of_mem _ hc, h⟩)

theorem literalSplit_left {u : Ucd} {s : Str} {ps : List Str} (h : LiteralSplit u s ps) :
    ∀ p ∈ ps, isWordText u p = true ∨ (∃ n, p = List.replicate (n + 1) ' ') ∨ ∃ c ∈ s, p = [c] ∧ u.reWord c = false := by
  induction h with
  | nil => simp
  | word h1 h2 _ _ ih =>
    intro p hp
    rcases List.mem_cons.mp hp with rfl | hp
    · exact .inl (isWordText_iff h1 h2)
    · rcases ih p hp with h | h | ⟨c, hc, h⟩
      · exact .inl h
      · exact .inr (.inl h)
      · exact .inr (.inr ⟨c, List.mem_append_right _ hc, h⟩)
  | char _ h2 _ ih =>
    intro p hp
    rcases List.mem_cons.mp hp with rfl | hp
    · exact .inr (.inr ⟨_, List.mem_cons_self, rfl, h2⟩)
    · rcases ih p hp with h | h | ⟨c, hc, h⟩
      · exact .inl h
      · exact .inr (.inl h)
      · exact .inr (.inr ⟨c, List.mem_cons_of_mem _ hc, h⟩)
  | spaces _ _ ih =>
    intro p hp
    rcases List.mem_cons.mp hp with rfl | hp
    · exact .inr (.inl ⟨_, rfl⟩)
    · rcases ih p hp with h | h | ⟨c, hc, h⟩
      · exact .inl h
      · exact .inr (.inl h)
      · exact .inr (.inr ⟨c, List.mem_append_right _ hc, h⟩)

theorem cleanOr_words {env : Env} (hl : env.ucd.Laws) (hk : KeepsPlain env) {A : Str → Prop} {s : Str} {ts : List Tok}
    (hA : ∀ c ∈ s, env.ucd.reWord c = false → A [c]) (h : splitIntoWords env.ucd s = .ok ts) :
    ∀ t ∈ ts, Everywhere (CleanOr A) t := by
  intro t ht
  obtain ⟨p, hp, hpt⟩ := mapM_mem h t ht
  have := textSplit_left ((textSplit_iff hl s _).mpr rfl) p hp
  unfold wordPiece at hpt
  split at hpt
  · cases hpt; exact .inl trivial
  · next hne =>
    refine cleanOr_toParsed hl hk ?_ hpt
    rcases this with h1 | h1 | ⟨c, hc, rfl, h1⟩
    · exact .inl h1
    · exact absurd h1 hne
    · exact .inr (hA c hc h1)

theorem cleanOr_string {env : Env} (hl : env.ucd.Laws) (hk : KeepsPlain env) {A : Str → Prop} {s : Str} {ts : List Tok}
    (hA : ∀ c ∈ s, env.ucd.reWord c = false → A [c]) (h : splitString env.ucd s = .ok ts) :
    ∀ t ∈ ts, Everywhere (CleanOr A) t := by
  intro t ht
  obtain ⟨p, hp, hpt⟩ := mapM_mem h t ht
  have := literalSplit_left ((literalSplit_iff hl s _).mpr rfl) p hp
  unfold stringPiece at hpt
  split at hpt
  · cases hpt; exact .inl trivial
  · next hne =>
    refine cleanOr_toParsed hl hk ?_ hpt
    rcases this with h1 | ⟨n, rfl⟩ | ⟨c, hc, rfl, h1⟩
    · exact .inl h1
    · exact absurd (by simp [isSpaces, List.replicate_succ]) hne
    · exact .inr (hA c hc h1)

theorem cleanOr_convert {env : Env} (hl : env.ucd.Laws) (hk : KeepsPlain env) {A : Str → Prop} {e : TokType × Str} {ts : List Tok}
    (hn : kindOf e.1 = .number → ∀ c ∈ e.2, isAscii c = true) (hA : ∀ s, Leftover env.ucd e s → A s)
    (h : convert env.ucd e.1 e.2 = .ok ts) : ∀ t ∈ ts, Everywhere (CleanOr A) t := by
  by_cases h1 : e.2 = ['\n']
  · rw [h1, convert_newline] at h
    cases h
    intro t ht; simp at ht; subst ht; exact .inl trivial
  by_cases h2 : e.2 = ['\t']
  · rw [h2, convert_tab] at h
    cases h
    intro t ht; simp at ht; subst ht; exact .inl trivial
  cases hb : env.ucd.isBlank e.2 with
  | true =>
    rw [convert_blank _ _ _ hb h1 h2] at h
    cases h
    intro t ht
    obtain ⟨-, rfl⟩ := List.mem_replicate.mp ht
    exact .inl trivial
  | false =>
    rw [convert_kind _ _ _ hb h1 h2] at h
    cases hkd : kindOf e.1 with
    | operator =>
      rw [hkd] at h
      cases h
      intro t ht
      simp at ht
      subst ht
      unfold operatorToken
      repeat' split
      all_goals first | exact .inl trivial | exact .inr ⟨e.2, hA _ (.inl ⟨.inl hkd, rfl⟩), .inr (.inl rfl)⟩
    | number =>
      rw [hkd] at h
      cases h
      intro t ht
      simp at ht
      subst ht
      unfold numberToken
      repeat' split
      all_goals first | exact .inl trivial | exact .inl (hk.lower _ (plain_ascii (hn hkd)))
    | keyword =>
      rw [hkd] at h
      cases h
      intro t ht
      simp at ht
      subst ht
      exact .inr ⟨e.2, hA _ (.inl ⟨.inr hkd, rfl⟩), .inl rfl⟩
    | words =>
      rw [hkd] at h
      exact cleanOr_words hl hk (fun c hc hw => hA _ (.inr ⟨by rw [hkd]; decide, c, hc, rfl, hw⟩)) h
    | string =>
      rw [hkd] at h
      simp only [tokensOf] at h
      cases hs : splitString env.ucd e.2 with
      | error e => rw [hs] at h; cases h
      | ok ts' =>
        rw [hs] at h
        cases h
        intro t ht
        simp at ht
        subst ht
        exact ⟨.inl trivial, everywhereList_mem.mpr
          (cleanOr_string hl hk (fun c hc hw => hA _ (.inr ⟨by rw [hkd]; decide, c, hc, rfl, hw⟩)) hs)⟩
    | lineComment =>
      rw [hkd] at h
      simp only [tokensOf] at h
      cases hs : splitIntoWords env.ucd e.2 with
      | error e => rw [hs] at h; cases h
      | ok ts' =>
        rw [hs] at h
        cases h
        intro t ht
        simp at ht
        subst ht
        exact ⟨.inl trivial, everywhereList_mem.mpr
          (cleanOr_words hl hk (fun c hc hw => hA _ (.inr ⟨by rw [hkd]; decide, c, hc, rfl, hw⟩)) hs)⟩
    | blockComment =>
      rw [hkd] at h
      simp only [tokensOf] at h
      cases hs : splitIntoWords env.ucd e.2 with
      | error e => rw [hs] at h; cases h
      | ok ts' =>
        rw [hs] at h
        cases h
        intro t ht
        simp at ht
        subst ht
        exact ⟨.inl trivial, everywhereList_mem.mpr
          (cleanOr_words hl hk (fun c hc hw => hA _ (.inr ⟨by rw [hkd]; decide, c, hc, rfl, hw⟩)) hs)⟩

theorem cleanOr_convertText {env : Env} (hl : env.ucd.Laws) (hk : KeepsPlain env) {A : Str → Prop} {lexed : List (TokType × Str)} {ts : List Tok}
    (hn : ∀ e ∈ lexed, kindOf e.1 = .number → ∀ c ∈ e.2, isAscii c = true) (hA : ∀ e ∈ lexed, ∀ s, Leftover env.ucd e s → A s)
    (h : convertText env.ucd lexed = .ok ts) : ∀ t ∈ ts, Everywhere (CleanOr A) t := by
  induction lexed generalizing ts with
  | nil => cases h; simp
  | cons e r ih =>
    obtain ⟨ty, s⟩ := e
    unfold convertText at h
    cases h1 : convert env.ucd ty s with
    | error e => simp [h1, bind, Except.bind] at h
    | ok a =>
      cases h2 : convertText env.ucd r with
      | error e => simp [h1, h2, bind, Except.bind] at h
      | ok b =>
        simp only [h1, h2, bind, Except.bind, Except.ok.injEq] at h
        subst h
        intro t ht
        rcases List.mem_append.mp ht with ht | ht
        · exact cleanOr_convert hl hk (hn (ty, s) (by simp)) (hA (ty, s) (by simp)) h1 t ht
        · exact ih (fun e hh => hn e (by simp [hh])) (fun e hh => hA e (by simp [hh])) h2 t ht

theorem cleanOr_finish {A : Str → Prop} {ts : List Tok} (b : Bool) (h : ∀ t ∈ ts, Everywhere (CleanOr A) t) :
    ∀ t ∈ finishParsed ts b, Everywhere (CleanOr A) t := by
  have hr : ∀ t ∈ removeTrailingNewline ts, Everywhere (CleanOr A) t := by
    intro t ht
    unfold removeTrailingNewline at ht
    split at ht
    · split at ht
      · exact h t (List.dropLast_subset _ ht)
      · exact h t ht
    · exact h t ht
  intro t ht
  unfold finishParsed at ht
  simp only at ht
  split at ht
  · rcases List.mem_append.mp ht with ht | ht
    · exact hr t ht
    · simp at ht
      subst ht
      left
      show Plain Ph.ect
      decide
  · exact hr t ht

end Verif
