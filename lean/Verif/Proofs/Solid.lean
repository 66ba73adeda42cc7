import Verif.Spec.Solid
import Verif.Proofs.NoUnicode
import Verif.Proofs.BpeEncode
/-!
# Tokens without spaces
-/
set_option linter.unusedSectionVars false

namespace Verif
open Spec

/-! ## Texts -/

theorem noSpace_append {a b : Str} (ha : ' ' ∉ a) (hb : ' ' ∉ b) : ' ' ∉ a ++ b := by
  simp [ha, hb]

theorem Spec.Solid.append {a b : Str} (ha : Solid a) (hb : ' ' ∉ b) : Solid (a ++ b) :=
  ⟨by simp [ha.1], noSpace_append ha.2 hb⟩

theorem noSpace_concat {l : List Str} (h : ∀ p ∈ l, ' ' ∉ p) : ' ' ∉ concat l := by
  induction l with
  | nil => simp [concat]
  | cons p r ih => exact noSpace_append (h p (by simp)) (ih fun x hx => h x (by simp [hx]))

theorem solid_concat {l : List Str} (hne : l ≠ []) (h : ∀ p ∈ l, Solid p) : Solid (concat l) := by
  cases l with
  | nil => exact absurd rfl hne
  | cons p r => exact (h p (by simp)).append (noSpace_concat fun q hq => (h q (by simp [hq])).2)

/-! ## Replacing sequences -/

theorem noSpace_replaceLoop {ph : Str} (hp : ' ' ∉ ph) (b : Bool) (acc w : Str) (ha : ' ' ∉ acc) (hw : ' ' ∉ w) :
    ' ' ∉ replaceLoop ph b acc w := by
  induction w generalizing b acc with
  | nil =>
    unfold replaceLoop
    split
    · exact noSpace_append ha hp
    · exact ha
  | cons c r ih =>
    have hc : ' ' ≠ c := fun e => hw (List.mem_cons.mpr (.inl e))
    have hr : ' ' ∉ r := fun e => hw (by simp [e])
    unfold replaceLoop
    split
    · refine ih _ _ (noSpace_append ?_ (by simpa using hc)) hr
      split
      · exact noSpace_append ha hp
      · exact ha
    · exact ih _ _ ha hr

theorem solid_replace {w t : Str} (hw : Solid w) (h : replaceNonAsciiSeqs w Ph.nonAsciiSeq = .ok t) : Solid t := by
  unfold replaceNonAsciiSeqs at h
  split at h
  · cases h
  · simp only [Except.ok.injEq] at h
    subst h
    exact ⟨replaceLoop_ne_nil _ (by simp [Ph.nonAsciiSeq]) _ _ _ (.inr (.inr hw.1)),
      noSpace_replaceLoop (by decide) _ _ _ (by simp) hw.2⟩

theorem noSpace_pySplit {sep : Char} {s : Str} (h : ' ' ∉ s) : ∀ p ∈ pySplit sep s, ' ' ∉ p := by
  induction s with
  | nil => intro p hp; simp [pySplit] at hp; subst hp; simp
  | cons c r ih =>
    have hc : ' ' ≠ c := fun e => h (List.mem_cons.mpr (.inl e))
    have hr : ' ' ∉ r := fun e => h (by simp [e])
    intro p hp
    unfold pySplit at hp
    split at hp
    · rcases List.mem_cons.mp hp with rfl | hp
      · simp
      · exact ih hr p hp
    · split at hp
      · simp at hp; subst hp; simpa using hc
      · next q qs hq =>
        rcases List.mem_cons.mp hp with rfl | hp
        · have := ih hr q (by rw [hq]; simp)
          simp [this, hc]
        · exact ih hr p (by rw [hq]; simp [hp])

theorem noSpace_pyJoin {sep : Str} {l : List Str} (hs : ' ' ∉ sep) (h : ∀ p ∈ l, ' ' ∉ p) : ' ' ∉ pyJoin sep l := by
  induction l with
  | nil => simp [pyJoin]
  | cons p r ih =>
    cases r with
    | nil => exact h p (by simp)
    | cons q r =>
      unfold pyJoin
      exact noSpace_append (noSpace_append (h p (by simp)) hs) (ih fun x hx => h x (by simp [hx]))

theorem solid_replaceInString {rc : ReprConfig} {s t : Str} (hs : Solid s) (h : replaceInString rc s = .ok t) : Solid t := by
  unfold replaceInString at h
  split at h
  · rw [mapM_replace_ok] at h
    simp only [bind, Except.bind, Except.ok.injEq] at h
    subst h
    constructor
    · generalize hps : pySplit '\u00a0' s = ps
      cases ps with
      | nil =>
        exfalso
        cases s with
        | nil => cases hps
        | cons c r =>
          unfold pySplit at hps
          split at hps
          · cases hps
          · split at hps <;> cases hps
      | cons p r =>
        cases r with
        | cons q r => simp [pyJoin, Ph.spaceInStr]
        | nil =>
          have hp : p ≠ [] := by
            rintro rfl
            cases s with
            | nil => exact hs.1 rfl
            | cons c r =>
              unfold pySplit at hps
              split at hps
              · rename_i hc
                have : pySplit '\u00a0' r = [] := by simpa using hps
                cases r with
                | nil => cases this
                | cons d r =>
                  unfold pySplit at this
                  split at this
                  · cases this
                  · split at this <;> cases this
              · split at hps <;> cases hps
          exact replaceLoop_ne_nil _ (by simp [Ph.nonAsciiSeq]) _ _ _ (.inr (.inr hp))
    · refine noSpace_pyJoin (by decide) ?_
      intro p hp
      obtain ⟨q, hq, rfl⟩ := List.mem_map.mp hp
      exact noSpace_replaceLoop (by decide) _ _ _ (by simp) (noSpace_pySplit hs.2 q hq)
  · cases h
    exact hs

/-! ## Words -/

section
variable {env : Env} (hu : env.ucd.Laws) (hk : KeepsSolid env)

/-- The text of a part of a word. -/
def SubSolid : Subtok → Prop
  | .underscore => True
  | .word c _ => Solid c

theorem solid_mkWord {u : Ucd} {c : Str} {cap : Cap} {w : Subtok} (hc : Solid c) (h : mkWord u c cap = .ok w) : SubSolid w := by
  unfold mkWord at h
  split at h
  · split at h
    · cases h
    · cases h; exact hc
  · split at h
    · cases h
    · cases h; exact hc

include hu hk

theorem solid_lower {s : Str} (hs : Solid s) : Solid (env.ucd.toLower s) := ⟨hu.toLower_ne_nil s hs.1, hk.lower s hs⟩

theorem solid_wordFrom {s : Str} {w : Subtok} (hs : Solid s) (h : wordFrom env.ucd s = .ok w) : SubSolid w := by
  unfold wordFrom at h
  split at h
  · cases h
  · next c r =>
    split at h
    · exact solid_mkWord hs h
    · split at h
      · exact solid_mkWord (solid_lower hu hk hs) h
      · split at h
        · have hc : Solid [c] := ⟨by simp, fun e => hs.2 (List.mem_cons.mpr (.inl (by simpa using e)))⟩
          exact solid_mkWord ((solid_lower hu hk hc).append fun e => hs.2 (by simp [e])) h
        · exact solid_mkWord hs h

theorem solid_preserved {c : Str} (cap : Cap) (hc : Solid c) : Solid (withPreservedCase env.ucd c cap) := by
  cases cap
  · exact hc
  · exact hc
  · exact ⟨hu.capitalize_ne_nil _ hc.1, hk.capitalize _ hc⟩
  · exact ⟨hu.toUpper_ne_nil _ hc.1, hk.upper _ hc⟩

theorem solid_subStr {s : Subtok} (hs : SubSolid s) : Solid (s.str env.ucd) := by
  cases s with
  | underscore => show Solid ['_']; decide
  | word c cap => exact solid_preserved hu hk cap hs

theorem solid_splitStr {subs : List Subtok} (hne : subs ≠ []) (h : ∀ s ∈ subs, SubSolid s) :
    Solid (splitStr env.ucd subs) := by
  refine solid_concat (by simpa using hne) ?_
  intro p hp
  obtain ⟨s, hs, rfl⟩ := List.mem_map.mp hp
  exact solid_subStr hu hk (h s hs)

end

/-! ## Representation -/

/-- The pieces of a full token: no spaces, and none is empty, except that the last one may be empty if marks are added. -/
def SolidPieces (bpe : Bool) (l : List Str) : Prop :=
  (∀ p ∈ l, ' ' ∉ p) ∧ (∀ p ∈ l.dropLast, p ≠ []) ∧ (bpe = false → ∀ p ∈ l, p ≠ [])

theorem solidPieces_all {bpe : Bool} {l : List Str} (h : ∀ p ∈ l, Solid p) : SolidPieces bpe l :=
  ⟨fun p hp => (h p hp).2, fun p hp => (h p (List.dropLast_subset _ hp)).1, fun _ p hp => (h p hp).1⟩

theorem SolidPieces.all {l : List Str} (h : SolidPieces false l) : ∀ p ∈ l, Solid p :=
  fun p hp => ⟨h.2.2 rfl p hp, h.1 p hp⟩

/-- The splitters deliver such pieces. -/
structure SolidRc (rc : ReprConfig) : Prop where
  number : ∀ v l, Solid v → rc.numberSplitter v = .ok l → SolidPieces rc.bpe l
  word : ∀ v l, Solid v → rc.splitWord v = .ok l → SolidPieces rc.bpe l
  join : Ty.splitContainer ∉ rc.types → Ty.word ∉ rc.types
  underscore : Ty.underscore ∉ rc.types

/-- Tokens with such texts, except for keywords and operators in `W`. -/
def SolidTok (u : Ucd) (W : Str → Prop) : Tok → Prop
  | .number v => Solid v
  | .keyWord s => Solid s ∨ W s
  | .operator s => Solid s ∨ W s
  | .nonCodeChar s => Solid s
  | .specialToken s => Solid s
  | .spaceInString n => n ≠ 0
  | .split subs => subs ≠ [] ∧ ∀ s ∈ subs, SubSolid s
  | .nonEng subs => subs ≠ [] ∧ ∀ s ∈ subs, SubSolid s
  | .stringLiteral ts _ => ts ≠ [] ∧ ∀ t ∈ ts, ∃ p, Tok.plain u t = [p] ∧ Solid p
  | _ => True

/-- The pieces of every full token are of this kind, or the full token is a text of `W`. -/
def SolidUnits (bpe : Bool) (W : Str → Prop) (us : List FullTok) : Prop :=
  ∀ x ∈ us, SolidPieces bpe x.subs ∨ ∃ s, W s ∧ x.subs = [s]

section
variable {env : Env} (hu : env.ucd.Laws) (hk : KeepsSolid env) {rc : ReprConfig} (hrc : SolidRc rc) {W : Str → Prop}

theorem solidUnits_one {bpe : Bool} {ty : Ty} {subs np : List Str} (h : SolidPieces bpe subs) : SolidUnits bpe W [⟨ty, subs, np⟩] := by
  intro x hx
  simp at hx
  subst hx
  exact .inl h

theorem solidUnits_text {bpe : Bool} {ty : Ty} {s : Str} {np : List Str} (h : Solid s) : SolidUnits bpe W [⟨ty, [s], np⟩] :=
  solidUnits_one (solidPieces_all (by simpa using h))

theorem solidUnits_append {bpe : Bool} {us vs : List FullTok} (h1 : SolidUnits bpe W us) (h2 : SolidUnits bpe W vs) :
    SolidUnits bpe W (us ++ vs) := by
  intro x hx
  rcases List.mem_append.mp hx with hx | hx
  · exact h1 x hx
  · exact h2 x hx

theorem solidUnits_retype {bpe : Bool} {ty : Ty} {us : List FullTok} (h : SolidUnits bpe W us) : SolidUnits bpe W (retype ty us) := by
  intro x hx
  obtain ⟨y, hy, rfl⟩ := List.mem_map.mp hx
  exact h y hy

theorem solid_nonProcUnits {bpe : Bool} {ty : Ty} {s : Str} {us : List FullTok} (hs : Solid s ∨ W s) (h : nonProcUnits rc ty s = .ok us) :
    SolidUnits bpe W us := by
  unfold nonProcUnits at h
  split at h
  · cases h
  · cases h
    rcases hs with hs | hs
    · exact solidUnits_text hs
    · intro x hx
      simp at hx
      subst hx
      exact .inr ⟨s, hs, rfl⟩

theorem solid_whitespaceUnits {bpe : Bool} {ty : Ty} {s : Str} (hs : Solid s) : SolidUnits bpe W (whitespaceUnits rc ty s) := by
  unfold whitespaceUnits
  split
  · intro x hx; cases hx
  · exact solidUnits_text hs

theorem wrapped {a b : Str} {l : List Str} (ha : Solid a) (hb : Solid b) (hl : ∀ p ∈ l, Solid p) : ∀ p ∈ [a] ++ l ++ [b], Solid p := by
  intro p hp
  simp only [List.cons_append, List.nil_append, List.mem_cons, List.mem_append, List.not_mem_nil, or_false] at hp
  rcases hp with rfl | hp | rfl
  · exact ha
  · exact hl p hp
  · exact hb

include hrc in
theorem solid_numberUnits {ty : Ty} {v : Str} {us : List FullTok} (hv : Solid v) (h : numberUnits rc ty v = .ok us) :
    SolidUnits rc.bpe W us := by
  unfold numberUnits at h
  split at h
  · cases hs : rc.numberSplitter v with
    | error e => simp [hs, bind, Except.bind] at h
    | ok l =>
      simp only [hs, bind, Except.bind, Except.ok.injEq] at h
      subst h
      have := hrc.number v l hv hs
      refine solidUnits_one ?_
      split
      · next hb =>
        simp only [Bool.and_eq_true, Bool.not_eq_true'] at hb
        rw [hb.2] at this ⊢
        exact solidPieces_all (wrapped (by decide) (by decide) this.all)
      · exact this
  · cases h
    exact solidUnits_text hv

include hu hk hrc

theorem solid_subRepr (hb : rc.bpe = false) {s : Subtok} {l : List Str} (hs : SubSolid s) (h : s.repr env.ucd rc = .ok l) :
    ∀ p ∈ l, Solid p := by
  have hw : ∀ v l, Solid v → rc.splitWord v = .ok l → ∀ p ∈ l, Solid p := by
    intro v l hv hl
    have := hrc.word v l hv hl
    rw [hb] at this
    exact this.all
  cases s with
  | underscore =>
    unfold Subtok.repr at h
    simp only at h
    split at h
    · cases h
    · cases h
      intro p hp
      simp at hp
      subst hp
      decide
  | word c cap =>
    unfold Subtok.repr at h
    simp only at h
    split at h
    · split at h
      · cases hs' : rc.splitWord c with
        | error e => simp [hs', bind, Except.bind] at h
        | ok ws =>
          simp only [hs', bind, Except.bind, Except.ok.injEq] at h
          subst h
          have := hw c ws hs hs'
          intro p hp
          cases cap
          · exact this p hp
          · exact this p hp
          · rcases List.mem_cons.mp hp with rfl | hp
            · decide
            · exact this p hp
          · rcases List.mem_cons.mp hp with rfl | hp
            · decide
            · exact this p hp
      · exact hw _ _ (solid_preserved hu hk cap hs) h
    · cases h
      intro p hp
      simp at hp
      subst hp
      exact solid_preserved hu hk cap hs

theorem solid_subtoksRepr (hb : rc.bpe = false) {subs : List Subtok} (acc l : List Str) (hs : ∀ s ∈ subs, SubSolid s)
    (ha : ∀ p ∈ acc, Solid p) (h : subtoksRepr env.ucd rc acc subs = .ok l) : ∀ p ∈ l, Solid p := by
  induction subs generalizing acc with
  | nil => cases h; exact ha
  | cons s r ih =>
    unfold subtoksRepr at h
    cases hx : s.repr env.ucd rc with
    | error e => simp [hx, bind, Except.bind] at h
    | ok x =>
      simp only [hx, bind, Except.bind] at h
      refine ih _ (fun s hs' => hs s (by simp [hs'])) ?_ h
      intro p hp
      rcases List.mem_append.mp hp with hp | hp
      · exact ha p hp
      · exact solid_subRepr hu hk hrc hb (hs s (by simp)) hx p hp

theorem solid_splitUnits {subs : List Subtok} {us : List FullTok} (hne : subs ≠ []) (hs : ∀ s ∈ subs, SubSolid s)
    (h : splitUnits env.ucd rc subs = .ok us) : SolidUnits rc.bpe W us := by
  unfold splitUnits at h
  split at h
  · split at h
    · cases hw : rc.splitWord (splitStr env.ucd subs) with
      | error e => simp [hw, bind, Except.bind] at h
      | ok ws =>
        simp only [hw, bind, Except.bind, Except.ok.injEq] at h
        subst h
        exact solidUnits_one (hrc.word _ _ (solid_splitStr hu hk hne hs) hw)
    · next hb =>
      cases hw : subtoksRepr env.ucd rc [] subs with
      | error e => simp [hw, bind, Except.bind] at h
      | ok ws =>
        simp only [hw, bind, Except.bind, Except.ok.injEq] at h
        subst h
        have := solid_subtoksRepr hu hk hrc (by simpa using hb) [] ws hs (by simp) hw
        refine solidUnits_one (solidPieces_all ?_)
        have wrap : wrapInWordBoundaries ws = ws ∨ wrapInWordBoundaries ws = [Ph.wordStart] ++ ws ++ [Ph.wordEnd] := by
          unfold wrapInWordBoundaries
          generalize (_ || _ : Bool) = b
          cases b <;> simp
        rcases wrap with hb | hb
        · rw [hb]; exact this
        · rw [hb]; exact wrapped (by decide) (by decide) this
  · next hsc =>
    rw [subtoksJoin_ok env.ucd (hrc.join hsc) hrc.underscore] at h
    cases h
    exact solidUnits_text (solid_splitStr hu hk hne hs)

theorem solid_nonEngUnits {subs : List Subtok} {us : List FullTok} (hne : subs ≠ []) (hs : ∀ s ∈ subs, SubSolid s)
    (h : nonEngUnits env.ucd rc subs = .ok us) : SolidUnits rc.bpe W us := by
  unfold nonEngUnits at h
  split at h
  · split at h
    · cases hr : replaceNonAsciiSeqs (splitStr env.ucd subs) Ph.nonAsciiSeq with
      | error e => simp [hr, bind, Except.bind] at h
      | ok t =>
        simp only [hr, bind, Except.bind] at h
        cases hf : wordFrom env.ucd t with
        | error e => simp [hf] at h
        | ok w =>
          simp only [hf] at h
          refine solid_splitUnits hu hk hrc (by simp) ?_ h
          intro s hs'
          simp at hs'
          subst hs'
          exact solid_wordFrom hu hk (solid_replace (solid_splitStr hu hk hne hs) hr) hf
    · cases h
      exact solidUnits_text (by decide)
  · exact solid_splitUnits hu hk hrc hne hs h

omit hu hk hrc in
theorem solid_strList {u : Ucd} {ts : List Tok} (hne : ts ≠ []) (h : ∀ t ∈ ts, ∃ p, Tok.plain u t = [p] ∧ Solid p) :
    Solid (strList u ts) := by
  have hall : ∀ ts : List Tok, (∀ t ∈ ts, ∃ p, Tok.plain u t = [p] ∧ Solid p) → ' ' ∉ strList u ts := by
    intro ts h
    induction ts with
    | nil => simp [strList]
    | cons t r ih =>
      obtain ⟨p, hp, hs⟩ := h t (by simp)
      unfold strList
      rw [hp]
      exact noSpace_append hs.2 (ih fun x hx => h x (by simp [hx]))
  cases ts with
  | nil => exact absurd rfl hne
  | cons t r =>
    obtain ⟨p, hp, hs⟩ := h t (by simp)
    unfold strList
    rw [hp]
    exact hs.append (hall r fun x hx => h x (by simp [hx]))

omit hu hk hrc in
theorem solid_spaces {n : Nat} (h : n ≠ 0) : Solid (List.replicate n Ph.spaceInStr).flatten := by
  constructor
  · cases n with
    | zero => exact absurd rfl h
    | succ n => simp [List.replicate_succ, Ph.spaceInStr]
  · intro hc
    obtain ⟨l, hl, hcl⟩ := List.mem_flatten.mp hc
    have := List.eq_of_mem_replicate hl
    subst this
    simp [Ph.spaceInStr] at hcl

mutual
theorem solid_units : (t : Tok) → Everywhere (SolidTok env.ucd W) t →
    ∀ us, t.units env.ucd rc = .ok us → SolidUnits rc.bpe W us
  | .number v, hv, _, h => solid_numberUnits hrc hv h
  | .one, _, _, h => solid_numberUnits hrc (by decide) h
  | .zero, _, _, h => solid_numberUnits hrc (by decide) h
  | .newLine, _, us, h => by cases h; exact solid_whitespaceUnits (by decide)
  | .tab, _, us, h => by cases h; exact solid_whitespaceUnits (by decide)
  | .spaceInString n, hn, us, h => by
    unfold Tok.units at h
    split at h
    · cases h
    · cases h
      exact solidUnits_text (solid_spaces hn)
  | .keyWord s, hs, _, h => solid_nonProcUnits hs h
  | .operator s, hs, _, h => solid_nonProcUnits hs h
  | .semicolon, _, _, h => solid_nonProcUnits (.inl (by decide)) h
  | .openingCurly, _, _, h => solid_nonProcUnits (.inl (by decide)) h
  | .closingCurly, _, _, h => solid_nonProcUnits (.inl (by decide)) h
  | .openingBracket, _, _, h => solid_nonProcUnits (.inl (by decide)) h
  | .closingBracket, _, _, h => solid_nonProcUnits (.inl (by decide)) h
  | .nonCodeChar s, hs, _, h => solid_nonProcUnits (.inl hs) h
  | .specialToken s, hs, _, h => solid_nonProcUnits (.inl hs) h
  | .split subs, hs, _, h => solid_splitUnits hu hk hrc hs.1 hs.2 h
  | .nonEng subs, hs, _, h => solid_nonEngUnits hu hk hrc hs.1 hs.2 h
  | .oneLineComment ts, hv, us, h => by
    have ih := solid_unitsList false ts hv.2
    unfold Tok.units at h
    split at h
    · cases h
      exact solidUnits_text (by decide)
    · cases hl : unitsList env.ucd rc false ts with
      | error e => simp [hl, bind, Except.bind] at h
      | ok vs =>
        simp only [hl, bind, Except.bind, Except.ok.injEq] at h
        subst h
        exact solidUnits_append (solidUnits_retype (ih vs hl)) (solidUnits_text (by decide))
  | .multilineComment ts, hv, us, h => by
    have ih := solid_unitsList false ts hv.2
    unfold Tok.units at h
    split at h
    · cases h
      exact solidUnits_text (by decide)
    · cases hl : unitsList env.ucd rc false ts with
      | error e => simp [hl, bind, Except.bind] at h
      | ok vs =>
        simp only [hl, bind, Except.bind, Except.ok.injEq] at h
        subst h
        exact solidUnits_retype (ih vs hl)
  | .stringLiteral ts len, hv, us, h => by
    have ih := solid_unitsList true ts hv.2
    have hstr : Solid (strList env.ucd ts) := solid_strList hv.1.1 hv.1.2
    unfold Tok.units at h
    split at h
    · cases h
      exact solidUnits_text (by decide)
    · split at h
      · cases h
      · split at h
        · split at h
          · cases h; exact solidUnits_text (by decide)
          · cases h; exact solidUnits_one (solidPieces_all (by decide))
        · split at h
          · cases hr : replaceInString rc (strList env.ucd ts) with
            | error e => simp [hr, bind, Except.bind] at h
            | ok s =>
              simp only [hr, bind, Except.bind] at h
              cases hs : rc.splitWord s with
              | error e => simp [hs] at h
              | ok l =>
                simp only [hs, Except.ok.injEq] at h
                subst h
                exact solidUnits_one (hrc.word _ _ (solid_replaceInString hstr hr) hs)
          · split at h
            · cases hr : replaceInString rc (strList env.ucd ts) with
              | error e => simp [hr, bind, Except.bind] at h
              | ok s =>
                simp only [hr, bind, Except.bind, Except.ok.injEq] at h
                subst h
                exact solidUnits_text (solid_replaceInString hstr hr)
            · cases hl : unitsList env.ucd rc true ts with
              | error e => simp [hl, bind, Except.bind] at h
              | ok vs =>
                simp only [hl, bind, Except.bind, Except.ok.injEq] at h
                subst h
                exact solidUnits_retype (ih vs hl)

theorem solid_unitsList (skip : Bool) : (ts : List Tok) → EverywhereList (SolidTok env.ucd W) ts →
    ∀ us, unitsList env.ucd rc skip ts = .ok us → SolidUnits rc.bpe W us
  | [], _, us, h => by simp [unitsList] at h; subst h; intro x hx; cases hx
  | t :: r, hv, us, h => by
    have ih1 := solid_units t hv.1
    have ih2 := solid_unitsList skip r hv.2
    have main : (do
        let a ← Tok.units env.ucd rc t
        let b ← unitsList env.ucd rc skip r
        Except.ok (a ++ b) : Except PyErr _) = .ok us → SolidUnits rc.bpe W us := by
      intro h
      cases ha : Tok.units env.ucd rc t with
      | error e => simp [ha, bind, Except.bind] at h
      | ok a =>
        cases hb : unitsList env.ucd rc skip r with
        | error e => simp [ha, hb, bind, Except.bind] at h
        | ok b =>
          simp only [ha, hb, bind, Except.bind, Except.ok.injEq] at h
          subst h
          exact solidUnits_append (ih1 a ha) (ih2 b hb)
    cases skip
    · exact main (by simpa only [unitsList] using h)
    · cases t <;> first
        | (simp only [unitsList] at h; exact ih2 us h)
        | (simp only [unitsList] at h; exact main h)
end

end

/-! ## Configurations -/

theorem solid_undouble {s : Str} (h : Solid s) : Solid (undoubleEsc s) := by
  constructor
  · cases s with
    | nil => exact absurd rfl h.1
    | cons c r =>
      cases r with
      | nil => simp [undoubleEsc]
      | cons d r =>
        unfold undoubleEsc
        split <;> simp
  · exact noSpace_undouble h.2
where
  noSpace_undouble {s : Str} (h : ' ' ∉ s) : ' ' ∉ undoubleEsc s := by
    induction s using undoubleEsc.induct with
    | case1 => simp [undoubleEsc]
    | case2 c => exact h
    | case3 c d r hcd ih =>
      unfold undoubleEsc
      rw [if_pos hcd]
      simp only [List.mem_cons, not_or] at h ⊢
      exact ⟨by decide, ih h.2.2⟩
    | case4 c d r hcd ih =>
      unfold undoubleEsc
      rw [if_neg hcd]
      simp only [List.mem_cons, not_or] at h ih ⊢
      exact ⟨h.1, ih h.2⟩

theorem solid_unescape {l : List Str} {r : List Str × List Str} (hl : ∀ p ∈ l, Solid p) (h : unescape l = .ok r) :
    SolidPieces true r.1 := by
  unfold unescape at h
  split at h
  · cases h
  · next x hx =>
    split at h
    · cases h
    · split at h
      · cases h
      · simp only [Except.ok.injEq] at h
        subst h
        have hinit : ∀ p ∈ l.dropLast.map undoubleEsc, Solid p := by
          intro p hp
          obtain ⟨q, hq, rfl⟩ := List.mem_map.mp hp
          exact solid_undouble (hl q (List.dropLast_subset _ hq))
        simp only [List.map_append, List.map_cons, List.map_nil]
        refine ⟨?_, ?_, nofun⟩
        · intro p hp
          rcases List.mem_append.mp hp with hp | hp
          · exact (hinit p hp).2
          · simp at hp
            subst hp
            exact solid_undouble.noSpace_undouble fun hm => (hl x (List.mem_of_getLast? hx)).2 (List.dropLast_subset _ hm)
        · intro p hp
          rw [List.dropLast_concat] at hp
          exact (hinit p hp).1

theorem solid_bpe {w : Str} {d : BpeData} {l : List Str} (hd : SolidCache d) (hw : Solid w) (h : getBpeSubwords w d = .ok l) :
    SolidPieces true l := by
  cases hc : d.cache.get? (escape w true) with
  | some r =>
    unfold getBpeSubwords getBpeSubwordsSt at h
    simp only [hc] at h
    cases hu : unescape r with
    | error e => simp [hu, bind, Except.bind, Except.map] at h
    | ok x =>
      simp only [hu, bind, Except.bind, Except.map, Except.ok.injEq] at h
      subst h
      exact solid_unescape (hd _ _ hc) hu
  | none =>
    obtain ⟨v, r, -, -, hv, hf, hne, -, -⟩ := getBpeSubwords_miss w d hw.2 hc
    unfold getBpeSubwords at h
    rw [hv] at h
    cases h
    refine ⟨fun p hp hm => hw.2 ?_, hne, nofun⟩
    rw [← hf]
    exact List.mem_flatten.mpr ⟨p, hp, hm⟩

theorem solid_stem {env : Env} (hu : env.ucd.Laws) (hk : KeepsSolid env) {w : Str} (hw : Solid w) : Solid (stem env w) := by
  have hp := hk.porter _ hw
  unfold stem
  split
  · exact hw
  · simp only
    split
    · exact ⟨hu.toUpper_ne_nil _ hp.1, hk.upper _ hp⟩
    · split
      · exact ⟨hu.capitalize_ne_nil _ hp.1, hk.capitalize _ hp⟩
      · exact hp

theorem solid_chars {v : Str} (hv : Solid v) : ∀ p ∈ v.map fun ch => [ch], Solid p := by
  intro p hp
  obtain ⟨c, hc, rfl⟩ := List.mem_map.mp hp
  exact ⟨by simp, fun e => hv.2 (by simp at e; rw [e]; exact hc)⟩

theorem solidRc {env : Env} (hu : env.ucd.Laws) (hk : KeepsSolid env) {c : PrepConfig} {bd : Option BpeData} {rc : ReprConfig}
    (hd : ∀ d, bd = some d → SolidCache d) (hok : RcOk env c bd rc) : SolidRc rc where
  join := by
    rw [hok.types, typesToBeRepr_mem, typesToBeRepr_mem]
    simp
  underscore := by
    rw [hok.types, typesToBeRepr_mem]
    simp
  number := by
    intro v l hv hl
    have hn := hok.number
    unfold PrepConfig.numberSplitter at hn
    split at hn
    · have := Except.ok.inj ((congrFun (Except.ok.inj hn) v).trans hl)
      subst this
      exact solidPieces_all (by simpa using hv)
    · split at hn
      · have := Except.ok.inj ((congrFun (Except.ok.inj hn) v).trans hl)
        subst this
        exact solidPieces_all (solid_chars hv)
      · split at hn
        · have h := (congrFun (Except.ok.inj hn) v).trans hl
          unfold bpeSplitter at h
          split at h
          · cases h
          · next d he =>
            split at he
            · next hbp =>
              rw [hok.bpe, hbp, he]
              exact solid_bpe (hd d he) hv h
            · cases he
        · cases hn
  word := by
    intro v l hv hl
    have hn := hok.word
    unfold PrepConfig.wordSplitter at hn
    unfold ReprConfig.splitWord at hl
    split at hn
    · rw [← Except.ok.inj hn] at hl
      have h := hl
      simp only at h
      unfold bpeSplitter at h
      split at h
      · cases h
      · next d he =>
        split at he
        · next hbp =>
          rw [hok.bpe, hbp, he]
          exact solid_bpe (hd d he) hv h
        · cases he
    · split at hn
      · rw [← Except.ok.inj hn] at hl
        have := Except.ok.inj hl
        subst this
        exact solidPieces_all (by simpa using hv)
      · split at hn
        · rw [← Except.ok.inj hn] at hl
          have := Except.ok.inj hl
          subst this
          exact solidPieces_all (hk.ronin v hv)
        · split at hn
          · rw [← Except.ok.inj hn] at hl
            have := Except.ok.inj hl
            subst this
            refine solidPieces_all ?_
            intro p hp
            obtain ⟨q, hq, rfl⟩ := List.mem_map.mp hp
            exact solid_stem hu hk (hk.ronin v hv q hq)
          · split at hn
            · rw [← Except.ok.inj hn] at hl
              cases hl
            · cases hn

theorem solid_markLast {l : List Str} (h : SolidPieces true l) : ∀ p ∈ markLast l, Solid p := by
  obtain ⟨h1, h2, -⟩ := h
  rcases List.eq_nil_or_concat l with rfl | ⟨a, x, rfl⟩
  · intro p hp; cases hp
  · rw [List.concat_eq_append] at h1 h2 ⊢
    rw [markLast_append]
    rw [List.dropLast_concat] at h2
    intro p hp
    rcases List.mem_append.mp hp with hp | hp
    · exact ⟨h2 p hp, h1 p (List.mem_append_left _ hp)⟩
    · simp at hp
      subst hp
      exact ⟨by simp [Ph.compoundWordEnd], noSpace_append (h1 x (by simp)) (by decide)⟩

/-- The tokens of the output are solid, or texts of `W` (with a mark if BPE is used). -/
theorem solid_toRepr {env : Env} (hu : env.ucd.Laws) (hk : KeepsSolid env) {c : PrepConfig} (hv : c.Valid) {bd : Option BpeData}
    (hb : c.isBpe = bd.isSome) (hd : ∀ d, bd = some d → SolidCache d) {W : Str → Prop} {ts : List Tok}
    (hts : EverywhereList (SolidTok env.ucd W) ts) {out : List Str} {md : Meta} (h : toRepr env c ts bd = .ok (out, md)) :
    ∀ p ∈ out, Solid p ∨ ∃ s, W s ∧ p = if c.isBpe then s ++ Ph.compoundWordEnd else s := by
  obtain ⟨rc, hok, he⟩ := toRepr_eq (env := env) hv ts bd
  rw [he] at h
  cases hl : unitsList env.ucd rc false ts with
  | error e => rw [hl] at h; cases h
  | ok us =>
    rw [hl] at h
    have h1 := congrArg Prod.fst (Except.ok.inj h)
    simp only at h1
    subst h1
    have hp := solid_unitsList hu hk (solidRc hu hk hd hok) false ts hts us hl
    have hbpe : rc.bpe = c.isBpe := by rw [hok.bpe, hb]; simp
    rw [hbpe] at hp
    split
    · next hbt =>
      rw [hbt] at hp
      intro p hp'
      obtain ⟨g, hg, hpg⟩ := List.mem_flatten.mp hp'
      obtain ⟨g', hg', rfl⟩ := List.mem_map.mp hg
      obtain ⟨x, hx, rfl⟩ := List.mem_map.mp hg'
      rcases hp x hx with hx | ⟨s, hs, hx⟩
      · exact .inl (solid_markLast hx p hpg)
      · rw [hx] at hpg
        simp [markLast] at hpg
        exact .inr ⟨s, hs, hpg⟩
    · next hbt =>
      rw [show c.isBpe = false by simpa using hbt] at hp
      intro p hp'
      obtain ⟨g, hg, hpg⟩ := List.mem_flatten.mp hp'
      obtain ⟨x, hx, rfl⟩ := List.mem_map.mp hg
      rcases hp x hx with hx | ⟨s, hs, hx⟩
      · exact .inl (hx.all p hpg)
      · rw [hx] at hpg
        simp at hpg
        exact .inr ⟨s, hs, hpg⟩

/-! ## Parsing -/

theorem identSplit_solid {u : Ucd} {s : Str} {ps : List Str} (h : IdentSplit u s ps) : ' ' ∉ s →
    (∀ p ∈ ps, Solid p) ∧ (s ≠ [] → ps ≠ []) := by
  have key : ∀ {s : Str} {ps : List Str}, IdentSplit u s ps → (∀ p ∈ ps, p ≠ []) ∧ (' ' ∉ s → s ≠ [] → ps ≠ []) := by
    intro s ps h
    induction h with
    | nil => simp
    | space _ ih => exact ⟨ih.1, fun hs => absurd (by simp) hs⟩
    | digits h1 _ _ _ ih => exact ⟨by simpa using ⟨h1, ih.1⟩, by simp⟩
    | lower h1 _ _ _ ih => exact ⟨by simpa using ⟨h1, ih.1⟩, by simp⟩
    | capitals h1 _ _ _ _ ih => exact ⟨by simpa using ⟨h1, ih.1⟩, by simp⟩
    | _ => rename_i ih; exact ⟨by simpa using ih.1, by simp⟩
  intro hs
  exact ⟨fun p hp => ⟨(key h).1 p hp, fun hm => hs (identSplit_sub h p hp _ hm)⟩, (key h).2 hs⟩

theorem mapM_ne_nil {α β : Type} {f : α → Except PyErr β} {l : List α} {bs : List β} (h : l.mapM f = .ok bs) (hl : l ≠ []) : bs ≠ [] := by
  cases l with
  | nil => exact absurd rfl hl
  | cons a r =>
    rw [List.mapM_cons] at h
    cases hf : f a with
    | error e => simp [hf, bind, Except.bind] at h
    | ok b =>
      cases hr : r.mapM f with
      | error e => simp [hf, hr, bind, Except.bind] at h
      | ok t =>
        simp [hf, hr, bind, Except.bind, pure, Except.pure] at h
        subst h
        simp

/-- What the tokens inside of comments and literals are. -/
def SolidSimple (u : Ucd) (t : Tok) : Prop := (∀ W, Everywhere (SolidTok u W) t) ∧ ∃ p, Tok.plain u t = [p] ∧ Solid p

section
variable {env : Env} (hu : env.ucd.Laws) (hk : KeepsSolid env)
include hu hk

theorem solid_splitIdentifier {s : Str} {t : Tok} (hs : Solid s) (h : splitIdentifier env.ucd s = .ok t) : SolidSimple env.ucd t := by
  unfold splitIdentifier at h
  cases hm : (identParts env.ucd s).mapM (partToSubtok env.ucd) with
  | error e => simp [hm, bind, Except.bind] at h
  | ok subs =>
    simp only [hm, bind, Except.bind, Except.ok.injEq] at h
    obtain ⟨hps, hpne⟩ := identSplit_solid ((identSplit_iff hu s _).mpr rfl) hs.2
    have hne : subs ≠ [] := mapM_ne_nil hm (hpne hs.1)
    have hsub : ∀ x ∈ subs, SubSolid x := by
      intro x hx
      obtain ⟨p, hp, hpx⟩ := mapM_mem hm x hx
      unfold partToSubtok at hpx
      split at hpx
      · exact solid_wordFrom hu hk (hps p hp) hpx
      · cases hpx; trivial
    have hst := solid_splitStr hu hk hne hsub
    subst h
    split
    · exact ⟨fun W => ⟨hne, hsub⟩, _, rfl, hst⟩
    · exact ⟨fun W => ⟨hne, hsub⟩, _, rfl, hst⟩

theorem solid_toParsed {s : Str} {t : Tok} (hs : Solid s) (h : toParsedToken env.ucd s = .ok t) : SolidSimple env.ucd t := by
  unfold toParsedToken at h
  split at h
  · cases h; exact ⟨fun W => trivial, _, rfl, by decide⟩
  split at h
  · cases h; exact ⟨fun W => trivial, _, rfl, by decide⟩
  split at h
  · cases h
    exact ⟨fun W => solid_lower hu hk hs, _, rfl, solid_lower hu hk hs⟩
  split at h
  · exact solid_splitIdentifier hu hk hs h
  · cases h
    exact ⟨fun W => hs, _, rfl, hs⟩

omit hk in
theorem solid_wordText {w : Str} (h1 : w ≠ []) (h2 : ∀ c ∈ w, env.ucd.reWord c = true) : Solid w := by
  refine ⟨h1, fun hm => ?_⟩
  have h := h2 ' ' hm
  rw [hu.reWord_ascii ' ' (by decide)] at h
  revert h
  decide

omit hk in
theorem textSplit_solid {s : Str} {ps : List Str} (h : TextSplit env.ucd s ps) : ∀ p ∈ ps, Solid p ∨ p = [' ', ' ', ' ', ' '] := by
  induction h with
  | nil => simp
  | word h1 h2 _ _ ih =>
    intro p hp
    rcases List.mem_cons.mp hp with rfl | hp
    · exact .inl (solid_wordText hu h1 h2)
    · exact ih p hp
  | char h1 _ _ ih =>
    intro p hp
    rcases List.mem_cons.mp hp with rfl | hp
    · exact .inl ⟨by simp, by simpa using fun e => h1 e.symm⟩
    · exact ih p hp
  | fourSpaces _ ih =>
    intro p hp
    rcases List.mem_cons.mp hp with rfl | hp
    · exact .inr rfl
    · exact ih p hp
  | space _ _ ih => exact ih

omit hk in
theorem literalSplit_solid {s : Str} {ps : List Str} (h : LiteralSplit env.ucd s ps) :
    (∀ p ∈ ps, Solid p ∨ ∃ n, p = List.replicate (n + 1) ' ') ∧ (s ≠ [] → ps ≠ []) := by
  refine ⟨?_, by cases h <;> simp⟩
  induction h with
  | nil => simp
  | word h1 h2 _ _ ih =>
    intro p hp
    rcases List.mem_cons.mp hp with rfl | hp
    · exact .inl (solid_wordText hu h1 h2)
    · exact ih p hp
  | char h1 _ _ ih =>
    intro p hp
    rcases List.mem_cons.mp hp with rfl | hp
    · exact .inl ⟨by simp, by simpa using fun e => h1 e.symm⟩
    · exact ih p hp
  | @spaces n _ _ _ _ ih =>
    intro p hp
    rcases List.mem_cons.mp hp with rfl | hp
    · exact .inr ⟨n, rfl⟩
    · exact ih p hp

theorem solid_words {s : Str} {ts : List Tok} (h : splitIntoWords env.ucd s = .ok ts) : ∀ t ∈ ts, SolidSimple env.ucd t := by
  intro t ht
  obtain ⟨p, hp, hpt⟩ := mapM_mem h t ht
  have := textSplit_solid hu ((textSplit_iff hu s _).mpr rfl) p hp
  unfold wordPiece at hpt
  split at hpt
  · cases hpt; exact ⟨fun W => trivial, _, rfl, by decide⟩
  · next hne =>
    rcases this with hs | hs
    · exact solid_toParsed hu hk hs hpt
    · exact absurd hs hne

theorem solid_string {s : Str} {ts : List Tok} (hs : s ≠ []) (h : splitString env.ucd s = .ok ts) :
    ts ≠ [] ∧ ∀ t ∈ ts, SolidSimple env.ucd t := by
  obtain ⟨hps, hne⟩ := literalSplit_solid hu ((literalSplit_iff hu s _).mpr rfl)
  refine ⟨mapM_ne_nil h (hne hs), ?_⟩
  intro t ht
  obtain ⟨p, hp, hpt⟩ := mapM_mem h t ht
  unfold stringPiece at hpt
  split at hpt
  · next hsp =>
    cases hpt
    have : p.length ≠ 0 := by
      intro h0
      rw [List.length_eq_zero_iff] at h0
      subst h0
      cases hsp
    exact ⟨fun W => this, _, rfl, solid_spaces this⟩
  · next hsp =>
    rcases hps p hp with hs | ⟨n, rfl⟩
    · exact solid_toParsed hu hk hs hpt
    · exact absurd (by simp [isSpaces, List.replicate_succ]) hsp

theorem solid_convert {e : TokType × Str} {W : Str → Prop} {ts : List Tok} (hn : SolidNumber e) (hw : Verbatim e → env.ucd.isBlank e.2 = false → ' ' ∈ e.2 → W e.2)
    (h : convert env.ucd e.1 e.2 = .ok ts) : ∀ t ∈ ts, Everywhere (SolidTok env.ucd W) t := by
  by_cases h1 : e.2 = ['\n']
  · rw [h1, convert_newline] at h
    cases h
    intro t ht; simp at ht; subst ht; trivial
  by_cases h2 : e.2 = ['\t']
  · rw [h2, convert_tab] at h
    cases h
    intro t ht; simp at ht; subst ht; trivial
  cases hb : env.ucd.isBlank e.2 with
  | true =>
    rw [convert_blank _ _ _ hb h1 h2] at h
    cases h
    intro t ht
    obtain ⟨-, rfl⟩ := List.mem_replicate.mp ht
    trivial
  | false =>
    have hne : e.2 ≠ [] := by intro h0; rw [h0] at hb; cases hb
    have hw : Verbatim e → Solid e.2 ∨ W e.2 := by
      intro hv
      by_cases hsp : ' ' ∈ e.2
      · exact .inr (hw hv hb hsp)
      · exact .inl ⟨hne, hsp⟩
    rw [convert_kind _ _ _ hb h1 h2] at h
    cases hkd : kindOf e.1 with
    | operator =>
      rw [hkd] at h
      cases h
      intro t ht
      simp at ht
      subst ht
      unfold operatorToken
      repeat' split
      all_goals first | trivial | exact hw (.inr hkd)
    | number =>
      rw [hkd] at h
      cases h
      intro t ht
      simp at ht
      subst ht
      unfold numberToken
      repeat' split
      all_goals first | trivial | exact solid_lower hu hk ⟨hne, hn hkd⟩
    | keyword =>
      rw [hkd] at h
      cases h
      intro t ht
      simp at ht
      subst ht
      exact hw (.inl hkd)
    | words =>
      rw [hkd] at h
      exact fun t ht => (solid_words hu hk h t ht).1 W
    | string =>
      rw [hkd] at h
      simp only [tokensOf] at h
      cases hs : splitString env.ucd e.2 with
      | error e => rw [hs] at h; cases h
      | ok ts' =>
        rw [hs] at h
        cases h
        obtain ⟨hne', hall⟩ := solid_string hu hk hne hs
        intro t ht
        simp at ht
        subst ht
        exact ⟨⟨hne', fun t ht => (hall t ht).2⟩, everywhereList_mem.mpr fun t ht => (hall t ht).1 W⟩
    | lineComment =>
      rw [hkd] at h
      simp only [tokensOf] at h
      cases hs : splitIntoWords env.ucd e.2 with
      | error e => rw [hs] at h; cases h
      | ok ts' =>
        rw [hs] at h
        cases h
        intro t ht
        simp at ht
        subst ht
        exact ⟨trivial, everywhereList_mem.mpr fun t ht => (solid_words hu hk hs t ht).1 W⟩
    | blockComment =>
      rw [hkd] at h
      simp only [tokensOf] at h
      cases hs : splitIntoWords env.ucd e.2 with
      | error e => rw [hs] at h; cases h
      | ok ts' =>
        rw [hs] at h
        cases h
        intro t ht
        simp at ht
        subst ht
        exact ⟨trivial, everywhereList_mem.mpr fun t ht => (solid_words hu hk hs t ht).1 W⟩

theorem solid_convertText {lexed : List (TokType × Str)} {W : Str → Prop} {ts : List Tok} (hn : ∀ e ∈ lexed, SolidNumber e)
    (hw : ∀ e ∈ lexed, Verbatim e → env.ucd.isBlank e.2 = false → ' ' ∈ e.2 → W e.2) (h : convertText env.ucd lexed = .ok ts) :
    ∀ t ∈ ts, Everywhere (SolidTok env.ucd W) t := by
  induction lexed generalizing ts with
  | nil => cases h; simp
  | cons e r ih =>
    obtain ⟨ty, s⟩ := e
    unfold convertText at h
    cases h1 : convert env.ucd ty s with
    | error e => simp [h1, bind, Except.bind] at h
    | ok a =>
      cases h2 : convertText env.ucd r with
      | error e => simp [h1, h2, bind, Except.bind] at h
      | ok b =>
        simp only [h1, h2, bind, Except.bind, Except.ok.injEq] at h
        subst h
        intro t ht
        rcases List.mem_append.mp ht with ht | ht
        · exact solid_convert hu hk (hn (ty, s) (by simp)) (hw (ty, s) (by simp)) h1 t ht
        · exact ih (fun e hh => hn e (by simp [hh])) (fun e hh => hw e (by simp [hh])) h2 t ht

end

theorem solid_finish {u : Ucd} {W : Str → Prop} {ts : List Tok} (b : Bool) (h : ∀ t ∈ ts, Everywhere (SolidTok u W) t) :
    ∀ t ∈ finishParsed ts b, Everywhere (SolidTok u W) t := by
  have hr : ∀ t ∈ removeTrailingNewline ts, Everywhere (SolidTok u W) t := by
    intro t ht
    unfold removeTrailingNewline at ht
    split at ht
    · split at ht
      · exact h t (List.dropLast_subset _ ht)
      · exact h t ht
    · exact h t ht
  intro t ht
  unfold finishParsed at ht
  simp only at ht
  split at ht
  · rcases List.mem_append.mp ht with ht | ht
    · exact hr t ht
    · simp at ht
      subst ht
      show Solid Ph.ect
      decide
  · exact hr t ht

/-! ## Keywords and operators are shown as they are -/

theorem verbatim_parsed {u : Ucd} {lexed : List (TokType × Str)} {ts : List Tok} (h : convertText u lexed = .ok ts) {e : TokType × Str}
    (he : e ∈ lexed) (hv : Verbatim e) (hb : u.isBlank e.2 = false) (hs : ' ' ∈ e.2) : .keyWord e.2 ∈ ts ∨ .operator e.2 ∈ ts := by
  induction lexed generalizing ts with
  | nil => cases he
  | cons e' r ih =>
    obtain ⟨ty, s⟩ := e'
    unfold convertText at h
    cases h1 : convert u ty s with
    | error e => simp [h1, bind, Except.bind] at h
    | ok a =>
      cases h2 : convertText u r with
      | error e => simp [h1, h2, bind, Except.bind] at h
      | ok b =>
        simp only [h1, h2, bind, Except.bind, Except.ok.injEq] at h
        subst h
        rcases List.mem_cons.mp he with rfl | he
        · have hn : s ≠ ['\n'] := by rintro rfl; simp at hs
          have ht : s ≠ ['\t'] := by rintro rfl; simp at hs
          rw [convert_kind _ _ _ hb hn ht] at h1
          rcases hv with hv | hv <;> simp only [hv, tokensOf, Except.ok.injEq] at h1 <;> subst h1
          · exact .inl (by simp)
          · right
            have hs : ' ' ∈ s := hs
            have : operatorToken s = .operator s := by
              have ne : ∀ {v : Str}, ' ' ∈ s → (' ' ∉ v) → s ≠ v := fun h1 h2 e => h2 (e ▸ h1)
              unfold operatorToken
              rw [if_neg (ne hs (by decide)), if_neg (ne hs (by decide)),
                if_neg (ne hs (by decide)), if_neg (ne hs (by decide)),
                if_neg (ne hs (by decide))]
            rw [this]
            simp
        · rcases ih h2 he with h | h
          · exact .inl (List.mem_append_right _ h)
          · exact .inr (List.mem_append_right _ h)

theorem unitsList_mem {u : Ucd} {rc : ReprConfig} {ts : List Tok} {us : List FullTok} (h : unitsList u rc false ts = .ok us) {t : Tok}
    (ht : t ∈ ts) : ∃ vs, t.units u rc = .ok vs ∧ ∀ x ∈ vs, x ∈ us := by
  induction ts generalizing us with
  | nil => cases ht
  | cons t' r ih =>
    simp only [unitsList] at h
    cases ha : Tok.units u rc t' with
    | error e => simp [ha, bind, Except.bind] at h
    | ok a =>
      cases hb : unitsList u rc false r with
      | error e => simp [ha, hb, bind, Except.bind] at h
      | ok b =>
        simp only [ha, hb, bind, Except.bind, Except.ok.injEq] at h
        subst h
        rcases List.mem_cons.mp ht with rfl | ht
        · exact ⟨a, ha, fun x hx => List.mem_append_left _ hx⟩
        · obtain ⟨vs, h1, h2⟩ := ih hb ht
          exact ⟨vs, h1, fun x hx => List.mem_append_right _ (h2 x hx)⟩

theorem verbatim_shown {env : Env} {c : PrepConfig} (hv : c.Valid) {bd : Option BpeData} {ts : List Tok} {s : Str}
    (hs : .keyWord s ∈ ts ∨ .operator s ∈ ts ∨ .specialToken s ∈ ts) {out : List Str} {md : Meta} (h : toRepr env c ts bd = .ok (out, md)) :
    (if c.isBpe then s ++ Ph.compoundWordEnd else s) ∈ out := by
  obtain ⟨rc, hok, he⟩ := toRepr_eq (env := env) hv ts bd
  rw [he] at h
  cases hl : unitsList env.ucd rc false ts with
  | error e => rw [hl] at h; cases h
  | ok us =>
    rw [hl] at h
    have h1 := congrArg Prod.fst (Except.ok.inj h)
    simp only at h1
    subst h1
    have hx : ∃ x ∈ us, x.subs = [s] := by
      have key : ∀ {t : Tok} {ty : Ty}, t ∈ ts → (∀ vs, t.units env.ucd rc = .ok vs → nonProcUnits rc ty s = .ok vs) → ∃ x ∈ us, x.subs = [s] := by
        intro t ty ht hty
        obtain ⟨vs, h1, h2⟩ := unitsList_mem hl ht
        have h3 := hty vs h1
        unfold nonProcUnits at h3
        split at h3
        · cases h3
        · cases h3
          exact ⟨_, h2 _ (List.mem_singleton.mpr rfl), rfl⟩
      rcases hs with hs | hs | hs
      · exact key hs fun vs h => h
      · exact key hs fun vs h => h
      · exact key hs fun vs h => h
    obtain ⟨x, hx, hxs⟩ := hx
    split
    · refine List.mem_flatten.mpr ⟨markLast x.subs, List.mem_map_of_mem (List.mem_map_of_mem hx), ?_⟩
      rw [hxs]
      simp [markLast]
    · exact List.mem_flatten.mpr ⟨x.subs, List.mem_map_of_mem hx, by simp [hxs]⟩

end Verif
