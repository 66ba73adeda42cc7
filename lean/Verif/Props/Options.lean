import Verif.Spec.Options
import Verif.Proofs.Congr
import Verif.Props.Preprocess
/-!
# Options that leave parts of the text out (C20)
-/
namespace Verif.Props
open Verif Spec

/-- The subtokens and the boundaries of a result. -/
def shown (r : Except PyErr (List Str × Meta)) : Except PyErr (List Str × List Nat) := r.map fun x => (x.1, x.2.bounds)

theorem unitsList_map (u : Ucd) (rc rc' : ReprConfig) (f : Tok → Tok) (ts : List Tok)
    (h : ∀ t ∈ ts, (t.units u rc).map (fun us => us.map (·.subs)) = ((f t).units u rc').map (fun us => us.map (·.subs))) :
    (unitsList u rc false ts).map (fun us => us.map (·.subs)) =
      (unitsList u rc' false (ts.map f)).map (fun us => us.map (·.subs)) := by
  induction ts with
  | nil => rfl
  | cons t r ih =>
    have h1 := h t (by simp)
    have h2 := ih fun t ht => h t (by simp [ht])
    simp only [unitsList, List.map_cons]
    cases ha : t.units u rc <;> cases ha' : (f t).units u rc' <;>
      cases hb : unitsList u rc false r <;> cases hb' : unitsList u rc' false (r.map f) <;>
      simp_all [Except.map, bind, Except.bind]

theorem shown_eq {env : Env} {c c' : PrepConfig} {bd : Option BpeData} {ts ts' : List Tok} (hv : c.Valid) (hv' : c'.Valid)
    (hs : c.split = c'.split)
    (h : ∀ rc rc', RcOk env c bd rc → RcOk env c' bd rc' → (unitsList env.ucd rc false ts).map (fun us => us.map (·.subs)) =
      (unitsList env.ucd rc' false ts').map (fun us => us.map (·.subs))) :
    shown (toRepr env c ts bd) = shown (toRepr env c' ts' bd) := by
  obtain ⟨rc, hok, heq⟩ := toRepr_eq (env := env) hv ts bd
  obtain ⟨rc', hok', heq'⟩ := toRepr_eq (env := env) hv' ts' bd
  have hb : c.isBpe = c'.isBpe := by simp [PrepConfig.isBpe, hs]
  have h := h rc rc' hok hok'
  rw [heq, heq', hb]
  cases h1 : unitsList env.ucd rc false ts <;> cases h2 : unitsList env.ucd rc' false ts' <;> simp [h1, h2, Except.map] at h
  · simp [shown, Except.map, h]
  · rename_i us us'
    have hb : (flatForm us).2.bounds = (flatForm us').2.bounds := by simp [flatForm, h]
    simp only [shown, Except.map, h, hb]

/-- The options `no_com` and `no_str` are switched on by replacing a part of the configuration. -/
def withCom (c : PrepConfig) (v : Str) : PrepConfig := { c with com := v }
def withStr (c : PrepConfig) (v : Str) : PrepConfig := { c with str := v }
def withTabs (c : PrepConfig) (v : Str) : PrepConfig := { c with tabsNewlines := v }

theorem withCom_valid {c : PrepConfig} (hv : c.Valid) {v : Str} (h : v ∈ [['0'], ['c']]) : (withCom c v).Valid :=
  { hv with com := h }

theorem withStr_valid {c : PrepConfig} (hv : c.Valid) {v : Str} (h : v ∈ possibleStrValues) : (withStr c v).Valid :=
  { hv with str := h }

theorem withTabs_valid {c : PrepConfig} (hv : c.Valid) {v : Str} (h : v ∈ [['s'], ['0']]) : (withTabs c v).Valid :=
  { hv with tabs := h }

/-- **C20** With `no_com` the result is the same as without it for the text in which every comment is replaced by one
`<comment>` token. -/
theorem C20_no_com (env : Env) (c : PrepConfig) (hv : c.Valid) (bd : Option BpeData) (ts : List Tok)
    (hn : ∀ t ∈ ts, IsComment t ∨ Everywhere (fun x => ¬ IsComment x) t) :
    shown (toRepr env (withCom c ['0']) ts bd) = shown (toRepr env (withCom c ['c']) (ts.map hideComment) bd) := by
  have hv0 := withCom_valid hv (v := ['0']) (by simp)
  have hv1 := withCom_valid hv (v := ['c']) (by simp)
  refine shown_eq hv0 hv1 rfl fun rc rc' hok hok' => ?_
  have hsame : SameRc [.oneLineComment, .multilineComment] rc rc' :=
    sameRc_of hok hok' rfl rfl rfl (.inr (by simp)) (.inl Iff.rfl) (.inl rfl) (by simp)
  have ho : Ty.oneLineComment ∈ rc.types := by rw [hok.types, typesToBeRepr_mem]; simp [withCom]
  have hm : Ty.multilineComment ∈ rc.types := by rw [hok.types, typesToBeRepr_mem]; simp [withCom]
  have hsp : Ty.specialToken ∉ rc'.types := by rw [hok'.types, typesToBeRepr_mem]; simp
  have hmax : rc.maxStrLength = rc'.maxStrLength := by
    have h1 := hok.maxLen
    have h2 := hok'.maxLen
    simp only [withCom] at h1 h2
    rw [h1] at h2
    exact Except.ok.inj h2
  refine unitsList_map _ _ _ _ _ fun t ht => ?_
  rcases hn t ht with (⟨ts', rfl⟩ | ⟨ts', rfl⟩) | hne
  · have e : (hideComment (.oneLineComment ts')).units env.ucd rc' = nonProcUnits rc' .specialToken Ph.comment := rfl
    rw [e, Tok.units, if_pos ho, nonProcUnits, if_neg hsp]
    rfl
  · have e : (hideComment (.multilineComment ts')).units env.ucd rc' = nonProcUnits rc' .specialToken Ph.comment := rfl
    rw [e, Tok.units, if_pos hm, nonProcUnits, if_neg hsp]
    rfl
  · have hh : hideComment t = t := by
      cases t <;> first | rfl | exact absurd (by simp [IsComment]) hne.1
    rw [hh, units_congr env.ucd hsame t (everywhere_imp (fun x hx => ⟨?_, fun _ _ _ => by rw [hmax]⟩) t hne)]
    cases x <;> simp_all [IsComment, Tok.ty]

/-- **C20** With `no_str` the result is the same as without it for the text in which every string literal is replaced by one
`<str-literal>` token. -/
theorem C20_no_str (env : Env) (c : PrepConfig) (hv : c.Valid) (bd : Option BpeData) (ts : List Tok) (v : Str)
    (hpv : v ∈ possibleStrValues)
    (hn : ∀ t ∈ ts, IsString t ∨ Everywhere (fun x => ¬ IsString x) t) :
    shown (toRepr env (withStr c ['0']) ts bd) = shown (toRepr env (withStr c v) (ts.map hideString) bd) := by
  have hv0 := withStr_valid hv (v := ['0']) (by decide +kernel)
  have hv1 := withStr_valid hv hpv
  refine shown_eq hv0 hv1 rfl fun rc rc' hok hok' => ?_
  have hsame : SameRc [.stringLiteral] rc rc' :=
    sameRc_of hok hok' rfl rfl rfl (.inl rfl) (.inr (by simp)) (.inl rfl) (by simp)
  have ho : Ty.stringLiteral ∈ rc.types := by rw [hok.types, typesToBeRepr_mem]; simp [withStr]
  have hsp : Ty.specialToken ∉ rc'.types := by rw [hok'.types, typesToBeRepr_mem]; simp
  refine unitsList_map _ _ _ _ _ fun t ht => ?_
  rcases hn t ht with ⟨ts', n, rfl⟩ | hne
  · have e : (hideString (.stringLiteral ts' n)).units env.ucd rc' = nonProcUnits rc' .specialToken Ph.stringLiteral := rfl
    rw [e, Tok.units, if_pos ho, nonProcUnits, if_neg hsp]
    rfl
  · have hh : hideString t = t := by
      cases t <;> first | rfl | exact absurd (by simp [IsString]) hne.1
    rw [hh, units_congr env.ucd hsame t (everywhere_imp (fun x hx => ⟨?_, fun a b e => absurd ⟨a, b, e⟩ hx⟩) t hne)]
    cases x <;> simp_all [IsString, Tok.ty]

/-! ### `no_spaces` -/

section
variable {rc rc' : ReprConfig} (u : Ucd) (h : SameRc [.newLine, .tab] rc rc') (hm : rc.maxStrLength = rc'.maxStrLength)
  (hnl : Ty.newLine ∈ rc.types) (htab : Ty.tab ∈ rc.types) (w : Bool) (hw : w = (rc.bpe || rc.fullStrings))
include h hm hnl htab hw

set_option linter.unusedSectionVars false

mutual
theorem units_dropSpaces : (t : Tok) → t ≠ .newLine → t ≠ .tab → t.units u rc = (dropSpaces w t).units u rc'
  | .number v, _, _ => numberUnits_congr h (by simp) v
  | .one, _, _ => numberUnits_congr h (by simp) _
  | .zero, _, _ => numberUnits_congr h (by simp) _
  | .newLine, h1, _ => absurd rfl h1
  | .tab, _, h1 => absurd rfl h1
  | .spaceInString n, _, _ => by simp only [dropSpaces, Tok.units, h.types _ (show Ty.spaceInString ∉ _ by simp)]
  | .keyWord s, _, _ => nonProcUnits_congr h (by simp) s
  | .operator s, _, _ => nonProcUnits_congr h (by simp) s
  | .semicolon, _, _ => nonProcUnits_congr h (by simp) _
  | .openingCurly, _, _ => nonProcUnits_congr h (by simp) _
  | .closingCurly, _, _ => nonProcUnits_congr h (by simp) _
  | .openingBracket, _, _ => nonProcUnits_congr h (by simp) _
  | .closingBracket, _, _ => nonProcUnits_congr h (by simp) _
  | .nonCodeChar s, _, _ => nonProcUnits_congr h (by simp) s
  | .specialToken s, _, _ => nonProcUnits_congr h (by simp) s
  | .split subs, _, _ => splitUnits_congr u h subs
  | .nonEng subs, _, _ => nonEngUnits_congr u h subs
  | .oneLineComment ts, _, _ => by
    simp only [dropSpaces, Tok.units, h.types _ (show Ty.oneLineComment ∉ _ by simp), unitsList_dropSpaces false ts]
  | .multilineComment ts, _, _ => by
    simp only [dropSpaces, Tok.units, h.types _ (show Ty.multilineComment ∉ _ by simp), unitsList_dropSpaces false ts]
  | .stringLiteral ts len, _, _ => by
    have ih := unitsList_dropSpaces true ts
    simp only [dropSpaces]
    cases hw' : w
    · rw [hw'] at hw
      have hw : rc.bpe = false ∧ rc.fullStrings = false := by simpa using hw.symm
      have e1 : rc'.bpe = false := by rw [← h.bpe]; exact hw.1
      have e2 : rc'.fullStrings = false := by rw [← h.full]; exact hw.2
      rw [hw'] at ih
      simp only [Bool.false_eq_true, if_false, Tok.units, h.types _ (show Ty.stringLiteral ∉ _ by simp), hm, hw.1, hw.2, e1, e2, ih]
    · simp only [if_true, Tok.units, h.types _ (show Ty.stringLiteral ∉ _ by simp), hm, h.bpe, h.full, replaceInString_congr h,
        splitWord_congr h]
      rw [hw', h.bpe, h.full] at hw
      cases e1 : rc'.bpe <;> cases e2 : rc'.fullStrings <;> simp_all

theorem unitsList_dropSpaces (skip : Bool) : (ts : List Tok) →
    unitsList u rc skip ts = unitsList u rc' skip (dropSpacesList w ts)
  | [] => rfl
  | .newLine :: r => by
    have ih := unitsList_dropSpaces skip r
    cases skip <;> simp only [unitsList, dropSpacesList, Tok.units, whitespaceUnits, if_pos hnl, bind, Except.bind, ih] <;>
      cases unitsList u rc' _ (dropSpacesList w r) <;> rfl
  | .tab :: r => by
    have ih := unitsList_dropSpaces skip r
    cases skip <;> simp only [unitsList, dropSpacesList, Tok.units, whitespaceUnits, if_pos htab, bind, Except.bind, ih] <;>
      cases unitsList u rc' _ (dropSpacesList w r) <;> rfl
  | t :: r => by
    have ih := unitsList_dropSpaces skip r
    by_cases h1 : t = .newLine
    · subst h1
      cases skip <;> simp only [unitsList, dropSpacesList, Tok.units, whitespaceUnits, if_pos hnl, bind, Except.bind, ih] <;>
        cases unitsList u rc' _ (dropSpacesList w r) <;> rfl
    by_cases h2 : t = .tab
    · subst h2
      cases skip <;> simp only [unitsList, dropSpacesList, Tok.units, whitespaceUnits, if_pos htab, bind, Except.bind, ih] <;>
        cases unitsList u rc' _ (dropSpacesList w r) <;> rfl
    have ht := units_dropSpaces t h1 h2
    by_cases hstr : ∃ ts n, t = .stringLiteral ts n
    · obtain ⟨ts, n, rfl⟩ := hstr
      obtain ⟨ts', e⟩ : ∃ ts', dropSpaces w (.stringLiteral ts n) = .stringLiteral ts' n := by
        rw [dropSpaces]
        cases w
        · exact ⟨_, if_neg (by simp)⟩
        · exact ⟨_, if_pos rfl⟩
      rw [e] at ht
      rw [show dropSpacesList w (.stringLiteral ts n :: r) = .stringLiteral ts' n :: dropSpacesList w r by
        rw [← e]; rfl]
      cases skip <;> simp only [unitsList, ht, ih]
    cases t <;> cases skip <;> first
      | exact absurd rfl h1
      | exact absurd rfl h2
      | exact absurd ⟨_, _, rfl⟩ hstr
      | simp only [dropSpacesList, unitsList, ht, ih, dropSpaces]
end
end

/-- **C20** With `no_spaces` the result (with all metadata) is the one without it for the text without newline and tab
tokens.  Literals that are treated as a whole (BPE, chars and full-strings mode) are not changed inside. -/
theorem C20_no_spaces (env : Env) (c : PrepConfig) (hv : c.Valid) (bd : Option BpeData) (hbd : c.isBpe = true → bd.isSome)
    (ts : List Tok) :
    toRepr env (withTabs c ['0']) ts bd =
      toRepr env (withTabs c ['s']) (dropSpacesList (c.isBpe || c.split == ['F']) ts) bd := by
  have hv0 := withTabs_valid hv (v := ['0']) (by simp)
  have hv1 := withTabs_valid hv (v := ['s']) (by simp)
  obtain ⟨rc, hok, heq⟩ := toRepr_eq (env := env) hv0 ts bd
  obtain ⟨rc', hok', heq'⟩ := toRepr_eq (env := env) hv1 (dropSpacesList (c.isBpe || c.split == ['F']) ts) bd
  have hsame : SameRc [.newLine, .tab] rc rc' :=
    sameRc_of hok hok' rfl rfl rfl (.inl rfl) (.inl Iff.rfl) (.inr (by simp)) (by simp)
  have hmax : rc.maxStrLength = rc'.maxStrLength := by
    have h1 := hok.maxLen
    have h2 := hok'.maxLen
    simp only [withTabs] at h1 h2
    rw [h1] at h2
    exact Except.ok.inj h2
  rw [heq, heq', ← unitsList_dropSpaces env.ucd hsame hmax (by rw [hok.types, typesToBeRepr_mem]; simp [withTabs])
    (by rw [hok.types, typesToBeRepr_mem]; simp [withTabs]) _ ?_ false ts]
  · rfl
  · rw [hok.bpe, hok.fullStrings]
    have e : (withTabs c ['0']).isBpe = c.isBpe := rfl
    have e2 : (withTabs c ['0']).split = c.split := rfl
    rw [e, e2]
    cases hb : c.isBpe
    · simp only [Bool.false_or, Bool.false_and]
      by_cases hf : c.split = ['F'] <;> simp [hf]
    · simp [hbd hb]

/-- Consequence: no newline or tab token remains at the top level. -/
theorem C20_no_newline_left (w : Bool) (ts : List Tok) : Tok.newLine ∉ dropSpacesList w ts ∧ Tok.tab ∉ dropSpacesList w ts := by
  induction ts with
  | nil => simp [dropSpacesList]
  | cons t r ih =>
    cases t <;> simp [dropSpacesList, dropSpaces, ih]
    all_goals cases w <;> simp

/-- A newline inside a literal remains with `no_spaces` in BPE, chars and full-strings mode. -/
theorem C20_newline_in_literal_kept :
    (toRepr demoEnv (demoConfig "uc1F0u") [.stringLiteral [.nonCodeChar "\"".toList, .newLine, .nonCodeChar "\"".toList] 3]
      none).map (·.1) = .ok ["\"\n\"".toList] ∧
    (toRepr demoEnv (demoConfig "uc100u") [.stringLiteral [.nonCodeChar "\"".toList, .newLine, .nonCodeChar "\"".toList] 3]
      none).map (·.1) = .ok ["\"".toList, "\"".toList] := by
  decide +kernel

/-- Non-vacuity of C20. -/
example : (∀ t ∈ demoTokens, IsComment t ∨ Everywhere (fun x => ¬ IsComment x) t) ∧
    (∀ t ∈ demoTokens, IsString t ∨ Everywhere (fun x => ¬ IsString x) t) ∧
    (toRepr demoEnv (withCom (demoConfig "uc11su") ['0']) demoTokens none).map (·.1) =
      .ok ["<w>".toList, "foo".toList, "_".toList, "Bar".toList, "</w>".toList, "=".toList, "10l".toList, "\t".toList,
        "<comment>".toList, "\"".toList, "a".toList, "7".toList, "\"".toList] ∧
    (toRepr demoEnv (withStr (demoConfig "uc110u") ['0']) demoTokens none).map (·.1) =
      .ok ["<w>".toList, "foo".toList, "_".toList, "Bar".toList, "</w>".toList, "=".toList, "10l".toList,
        "/".toList, "/".toList, "x".toList, "<EOL>".toList, "<str-literal>".toList] := by
  refine ⟨?_, ?_, by decide +kernel, by decide +kernel⟩
  · simp [demoTokens, IsComment, Everywhere, EverywhereList]
  · simp [demoTokens, IsString, Everywhere, EverywhereList]

end Verif.Props
