import Verif.Proofs.Units
/-!
# Representation configurations that agree on a token give the same full tokens
-/
set_option linter.unusedSectionVars false

namespace Verif
open Spec

/-- The configurations differ at most in the treatment of the types in `D` and in the maximal string length. -/
structure SameRc (D : List Ty) (rc rc' : ReprConfig) : Prop where
  bpe : rc.bpe = rc'.bpe
  lowercase : rc.lowercase = rc'.lowercase
  number : rc.numberSplitter = rc'.numberSplitter
  word : rc.wordSplitter = rc'.wordSplitter
  full : rc.fullStrings = rc'.fullStrings
  types : ∀ ty, ty ∉ D → (ty ∈ rc.types ↔ ty ∈ rc'.types)
  disj : ∀ ty ∈ [Ty.splitContainer, .word, .underscore, .nonEng], ty ∉ D

/-- The token is not of a type in `D`; string literals are on the same side of both length limits. -/
def AgreeOn (D : List Ty) (rc rc' : ReprConfig) (t : Tok) : Prop :=
  t.ty ∉ D ∧ ∀ ts len, t = .stringLiteral ts len →
    rc.maxStrLength.map (fun n => decide (len > n)) = rc'.maxStrLength.map (fun n => decide (len > n))

section
variable {D : List Ty} {rc rc' : ReprConfig} (u : Ucd) (h : SameRc D rc rc')
include h

theorem splitWord_congr (s : Str) : rc.splitWord s = rc'.splitWord s := by
  unfold ReprConfig.splitWord; rw [h.word]

theorem subtokRepr_congr (s : Subtok) : s.repr u rc = s.repr u rc' := by
  have hu := h.types .underscore (h.disj _ (by simp))
  have hw := h.types .word (h.disj _ (by simp))
  cases s <;> simp only [Subtok.repr, hu, hw, h.lowercase, splitWord_congr h]

theorem subtoksRepr_congr (acc : List Str) (subs : List Subtok) : subtoksRepr u rc acc subs = subtoksRepr u rc' acc subs := by
  induction subs generalizing acc with
  | nil => rfl
  | cons s r ih => simp only [subtoksRepr, subtokRepr_congr u h, ih]

theorem subtoksJoin_congr (subs : List Subtok) : subtoksJoin u rc subs = subtoksJoin u rc' subs := by
  induction subs with
  | nil => rfl
  | cons s r ih => simp only [subtoksJoin, subtokRepr_congr u h, ih]

theorem splitUnits_congr (subs : List Subtok) : splitUnits u rc subs = splitUnits u rc' subs := by
  have hs := h.types .splitContainer (h.disj _ (by simp))
  simp only [splitUnits, hs, h.bpe, splitWord_congr h, subtoksRepr_congr u h, subtoksJoin_congr u h]

theorem nonEngUnits_congr (subs : List Subtok) : nonEngUnits u rc subs = nonEngUnits u rc' subs := by
  have hs := h.types .nonEng (h.disj _ (by simp))
  simp only [nonEngUnits, hs, h.bpe, splitUnits_congr u h]

theorem numberUnits_congr {ty : Ty} (ht : ty ∉ D) (v : Str) : numberUnits rc ty v = numberUnits rc' ty v := by
  simp only [numberUnits, h.types ty ht, h.number, h.bpe]

theorem whitespaceUnits_congr {ty : Ty} (ht : ty ∉ D) (v : Str) : whitespaceUnits rc ty v = whitespaceUnits rc' ty v := by
  simp only [whitespaceUnits, h.types ty ht]

theorem nonProcUnits_congr {ty : Ty} (ht : ty ∉ D) (v : Str) : nonProcUnits rc ty v = nonProcUnits rc' ty v := by
  simp only [nonProcUnits, h.types ty ht]

theorem replaceInString_congr (s : Str) : replaceInString rc s = replaceInString rc' s := by
  have hs := h.types .nonEng (h.disj _ (by simp))
  simp only [replaceInString, hs]

mutual
theorem units_congr : (t : Tok) → Everywhere (AgreeOn D rc rc') t → t.units u rc = t.units u rc'
  | .number v, ht => numberUnits_congr h ht.1 v
  | .one, ht => numberUnits_congr h ht.1 _
  | .zero, ht => numberUnits_congr h ht.1 _
  | .newLine, ht => by simp only [Tok.units, whitespaceUnits_congr h (show Ty.newLine ∉ D from ht.1)]
  | .tab, ht => by simp only [Tok.units, whitespaceUnits_congr h (show Ty.tab ∉ D from ht.1)]
  | .spaceInString n, ht => by simp only [Tok.units, h.types _ (show Ty.spaceInString ∉ D from ht.1)]
  | .keyWord s, ht => nonProcUnits_congr h ht.1 s
  | .operator s, ht => nonProcUnits_congr h ht.1 s
  | .semicolon, ht => nonProcUnits_congr h ht.1 _
  | .openingCurly, ht => nonProcUnits_congr h ht.1 _
  | .closingCurly, ht => nonProcUnits_congr h ht.1 _
  | .openingBracket, ht => nonProcUnits_congr h ht.1 _
  | .closingBracket, ht => nonProcUnits_congr h ht.1 _
  | .nonCodeChar s, ht => nonProcUnits_congr h ht.1 s
  | .specialToken s, ht => nonProcUnits_congr h ht.1 s
  | .split subs, _ => splitUnits_congr u h subs
  | .nonEng subs, _ => nonEngUnits_congr u h subs
  | .oneLineComment ts, ht => by
    simp only [Tok.units, h.types _ (show Ty.oneLineComment ∉ D from ht.1.1), unitsList_congr false ts ht.2]
  | .multilineComment ts, ht => by
    simp only [Tok.units, h.types _ (show Ty.multilineComment ∉ D from ht.1.1), unitsList_congr false ts ht.2]
  | .stringLiteral ts len, ht => by
    have hl := ht.1.2 ts len rfl
    simp only [Tok.units, h.types _ (show Ty.stringLiteral ∉ D from ht.1.1), unitsList_congr true ts ht.2, h.bpe, h.full,
      replaceInString_congr h, splitWord_congr h]
    cases h1 : rc.maxStrLength with
    | none =>
      cases h2 : rc'.maxStrLength with
      | none => rfl
      | some m => simp [h1, h2] at hl
    | some n =>
      cases h2 : rc'.maxStrLength with
      | none => simp [h1, h2] at hl
      | some m =>
        simp only [h1, h2, Option.map_some, Option.some.injEq, decide_eq_decide] at hl
        simp only [hl]

theorem unitsList_congr (skip : Bool) : (ts : List Tok) → EverywhereList (AgreeOn D rc rc') ts →
    unitsList u rc skip ts = unitsList u rc' skip ts
  | [], _ => rfl
  | t :: r, ht => by
    have h1 := units_congr t ht.1
    have h2 := unitsList_congr skip r ht.2
    cases skip
    · simp only [unitsList, h1, h2]
    · cases t <;> simp only [unitsList, h1, h2]
end
end

mutual
theorem everywhere_imp {p q : Tok → Prop} (h : ∀ t, p t → q t) : (t : Tok) → Everywhere p t → Everywhere q t
  | .number _, ht => h _ ht
  | .one, ht => h _ ht
  | .zero, ht => h _ ht
  | .newLine, ht => h _ ht
  | .tab, ht => h _ ht
  | .spaceInString _, ht => h _ ht
  | .keyWord _, ht => h _ ht
  | .operator _, ht => h _ ht
  | .semicolon, ht => h _ ht
  | .openingCurly, ht => h _ ht
  | .closingCurly, ht => h _ ht
  | .openingBracket, ht => h _ ht
  | .closingBracket, ht => h _ ht
  | .nonCodeChar _, ht => h _ ht
  | .specialToken _, ht => h _ ht
  | .split _, ht => h _ ht
  | .nonEng _, ht => h _ ht
  | .oneLineComment ts, ht => ⟨h _ ht.1, everywhereList_imp h ts ht.2⟩
  | .multilineComment ts, ht => ⟨h _ ht.1, everywhereList_imp h ts ht.2⟩
  | .stringLiteral ts _, ht => ⟨h _ ht.1, everywhereList_imp h ts ht.2⟩

theorem everywhereList_imp {p q : Tok → Prop} (h : ∀ t, p t → q t) : (ts : List Tok) → EverywhereList p ts → EverywhereList q ts
  | [], _ => trivial
  | t :: r, ht => ⟨everywhere_imp h t ht.1, everywhereList_imp h r ht.2⟩
end

/-- Two valid configurations whose splitting mode, case and treatment of Unicode are the same. -/
theorem sameRc_of {env : Env} {c c' : PrepConfig} {bd : Option BpeData} {rc rc' : ReprConfig}
    (h : RcOk env c bd rc) (h' : RcOk env c' bd rc') (hs : c.split = c'.split) (hc : c.case = c'.case)
    (he : c.enOnly = c'.enOnly) {D : List Ty}
    (hcom : c.com = c'.com ∨ Ty.oneLineComment ∈ D ∧ Ty.multilineComment ∈ D)
    (hstr : (c.str = ['0'] ↔ c'.str = ['0']) ∨ Ty.stringLiteral ∈ D)
    (htabs : c.tabsNewlines = c'.tabsNewlines ∨ Ty.newLine ∈ D ∧ Ty.tab ∈ D)
    (hd : ∀ ty ∈ [Ty.splitContainer, .word, .underscore, .nonEng], ty ∉ D) : SameRc D rc rc' := by
  have hb : c.isBpe = c'.isBpe := by simp [PrepConfig.isBpe, hs]
  refine ⟨?_, ?_, ?_, ?_, ?_, ?_, hd⟩
  · rw [h.bpe, h'.bpe, hb]
  · rw [h.lowercase, h'.lowercase, hc]
  · have h1 := h.number
    have h2 := h'.number
    unfold PrepConfig.numberSplitter at h1 h2
    rw [hs, hb, h2] at h1
    exact (Except.ok.inj h1).symm
  · have h1 := h.word
    have h2 := h'.word
    unfold PrepConfig.wordSplitter at h1 h2
    rw [hs, hb, h2] at h1
    exact (Except.ok.inj h1).symm
  · rw [h.fullStrings, h'.fullStrings, hs]
  · intro ty hty
    rw [h.types, h'.types, typesToBeRepr_mem, typesToBeRepr_mem, hs, he]
    have e1 : (ty ∈ [Ty.oneLineComment, .multilineComment] ∧ c.com = ['0']) ↔
        (ty ∈ [Ty.oneLineComment, .multilineComment] ∧ c'.com = ['0']) := by
      rcases hcom with e | ⟨e1, e2⟩
      · rw [e]
      · have : ty ∉ [Ty.oneLineComment, .multilineComment] := by
          intro hm
          simp at hm
          rcases hm with rfl | rfl <;> exact hty (by assumption)
        simp only [this, false_and]
    have e2 : (ty = .stringLiteral ∧ c.str = ['0']) ↔ (ty = .stringLiteral ∧ c'.str = ['0']) := by
      rcases hstr with e | e
      · rw [e]
      · have : ty ≠ .stringLiteral := by rintro rfl; exact hty e
        simp only [this, false_and]
    have e3 : (ty ∈ [Ty.newLine, .tab] ∧ c.tabsNewlines = ['0']) ↔ (ty ∈ [Ty.newLine, .tab] ∧ c'.tabsNewlines = ['0']) := by
      rcases htabs with e | ⟨e1, e2⟩
      · rw [e]
      · have : ty ∉ [Ty.newLine, .tab] := by
          intro hm
          simp at hm
          rcases hm with rfl | rfl <;> exact hty (by assumption)
        simp only [this, false_and]
    rw [e1, e2, e3]

end Verif
