import Verif.Spec.Tokens
import Verif.Proofs.ReprTotal
/-!
# Full tokens: existence, non-emptiness
-/
namespace Verif
open Spec

theorem subtoksRepr_ok_acc (u : Ucd) (rc : ReprConfig) (subs : List Subtok) (acc : List Str)
    (h : ∀ s ∈ subs, ∃ l, s.repr u rc = .ok l) : ∃ l, subtoksRepr u rc acc subs = .ok l := by
  induction subs generalizing acc with
  | nil => exact ⟨acc, rfl⟩
  | cons s r ih =>
    obtain ⟨l, hl⟩ := h s (by simp)
    simp only [subtoksRepr, hl, bind, Except.bind]
    exact ih _ fun x hx => h x (by simp [hx])

/-- A representation configuration with which nothing can fail. -/
structure TotalRc (rc : ReprConfig) : Prop where
  number : ∀ v, ∃ l, rc.numberSplitter v = .ok l
  word : Ty.splitContainer ∈ rc.types → ∀ s, ∃ l, rc.splitWord s = .ok l
  join : Ty.splitContainer ∉ rc.types → Ty.word ∉ rc.types
  bpe : rc.bpe = true → Ty.splitContainer ∈ rc.types
  processable : ∀ t ∈ rc.types, t ∉ [Ty.underscore, .spaceInString, .keyWord, .operator, .semicolon, .openingCurly,
    .closingCurly, .openingBracket, .closingBracket, .nonCodeChar, .specialToken]
  maxLen : rc.maxStrLength = none → Ty.stringLiteral ∈ rc.types

theorem subtok_repr_ok (u : Ucd) {rc : ReprConfig} (h : TotalRc rc) (hs : Ty.splitContainer ∈ rc.types) (s : Subtok) :
    ∃ l, s.repr u rc = .ok l := by
  cases s with
  | underscore =>
    unfold Subtok.repr
    rw [if_neg fun hm => h.processable _ hm (by simp)]
    exact ⟨_, rfl⟩
  | word c cap =>
    unfold Subtok.repr
    simp only
    split
    · split
      · obtain ⟨l, hl⟩ := h.word hs c
        exact ⟨withCapPrefixes cap l, by simp [hl, bind, Except.bind]⟩
      · exact h.word hs _
    · exact ⟨_, rfl⟩

theorem subtoksJoin_ok (u : Ucd) {rc : ReprConfig} (hw : Ty.word ∉ rc.types) (hu : Ty.underscore ∉ rc.types)
    (subs : List Subtok) : subtoksJoin u rc subs = .ok (splitStr u subs) := by
  induction subs with
  | nil => rfl
  | cons s r ih =>
    cases s with
    | underscore => simp [subtoksJoin, Subtok.repr, hu, bind, Except.bind, ih, splitStr, concat, Subtok.str]
    | word c cap => simp [subtoksJoin, Subtok.repr, hw, bind, Except.bind, ih, splitStr, concat, Subtok.str]

theorem splitUnits_ok (u : Ucd) {rc : ReprConfig} (h : TotalRc rc) (subs : List Subtok) :
    ∃ us, splitUnits u rc subs = .ok us := by
  unfold splitUnits
  split
  · rename_i hs
    split
    · obtain ⟨l, hl⟩ := h.word hs (splitStr u subs)
      simp [hl, bind, Except.bind]
    · obtain ⟨l, hl⟩ := subtoksRepr_ok_acc u rc subs [] fun s _ => subtok_repr_ok u h hs s
      simp [hl, bind, Except.bind]
  · rename_i hs
    rw [subtoksJoin_ok u (h.join hs) fun hm => h.processable _ hm (by simp)]
    exact ⟨_, rfl⟩

/-! ## `Word.from_` -/

theorem mkWord_lower (u : Ucd) (hu : u.Laws) (s : Str) (cap : Cap) :
    mkWord u (u.toLower s) cap = .ok (.word (u.toLower s) cap) := by
  unfold mkWord
  rw [if_neg]
  simp only [Bool.or_eq_true, not_or]
  constructor
  · simp [isStrictlyUpper, hu.toLower_idem]
  · cases h : u.toLower s with
    | nil => simp
    | cons c r =>
      have := hu.toLower_stable s c (by simp [h])
      simp [isStrictlyUpper, this]

theorem wordFrom_ok (u : Ucd) (hu : u.Laws) (s : Str) (hs : s ≠ []) : ∃ w, wordFrom u s = .ok w := by
  cases s with
  | nil => exact absurd rfl hs
  | cons c r =>
    unfold wordFrom
    simp only
    split
    · rename_i hl
      refine ⟨.word (c :: r) .none, ?_⟩
      unfold mkWord
      rw [if_neg]
      simp only [Ucd.isLower, List.all_cons, List.any_cons, Bool.and_eq_true] at hl
      have hc : u.upper c = false := by simpa using hl.1.1.1
      have hr : ∀ x ∈ c :: r, u.upper x = false := by
        intro x hx
        rcases List.mem_cons.mp hx with rfl | hx
        · exact hc
        · have := List.all_eq_true.mp hl.1.2 x hx
          simp at this
          exact this.1
      simp only [Bool.or_eq_true, not_or, isStrictlyUpper, Ucd.isUpper]
      constructor
      · have : (c :: r).any u.upper = false := by
          rw [List.any_eq_false]
          intro x hx
          simp [hr x hx]
        simp [this]
      · simp [hc]
    · split
      · exact ⟨_, mkWord_lower u hu _ _⟩
      · split
        · refine ⟨.word (u.toLower [c] ++ r) .firstLetter, ?_⟩
          rename_i hnl hnu hcu
          unfold mkWord
          rw [if_neg]
          simp only [Bool.or_eq_true, not_or]
          cases hlc : u.toLower [c] with
          | nil => exact absurd hlc (hu.toLower_ne_nil _ (by simp))
          | cons d t =>
            have hst := hu.toLower_stable [c] d (by simp [hlc])
            refine ⟨?_, by simp [isStrictlyUpper, hst]⟩
            intro hup
            apply hnu
            -- if the lower-cased word is upper-case then so is the word
            simp only [isStrictlyUpper, Bool.and_eq_true, Ucd.isUpper, List.cons_append, List.all_cons, List.all_append,
              List.any_cons] at hup hcu ⊢
            simp only [List.all_nil, List.any_nil, Bool.or_false, and_true] at hcu
            exact ⟨⟨hcu.1, hup.1.1.2.2⟩, by simp [hcu.2]⟩
        · rename_i hnl hnu hcu
          refine ⟨.word (c :: r) .undefined, ?_⟩
          unfold mkWord
          rw [if_neg]
          simp [isStrictlyUpper, hnu, hcu]

theorem replaceLoop_ne_nil (ph : Str) (hp : ph ≠ []) (b : Bool) (acc w : Str) (h : acc ≠ [] ∨ b = true ∨ w ≠ []) :
    replaceLoop ph b acc w ≠ [] := by
  induction w generalizing b acc with
  | nil =>
    unfold replaceLoop
    rcases h with h | h | h
    · split <;> simp [h]
    · simp [h, hp]
    · exact absurd rfl h
  | cons c r ih =>
    unfold replaceLoop
    split
    · exact ih _ _ (.inl (by simp))
    · exact ih _ _ (.inr (.inl rfl))

theorem replaceNonAscii_ok (w : Str) (h : w ≠ []) : ∃ t, replaceNonAsciiSeqs w Ph.nonAsciiSeq = .ok t ∧ t ≠ [] := by
  refine ⟨_, rfl, replaceLoop_ne_nil _ (by simp [Ph.nonAsciiSeq]) _ _ _ (.inr (.inr h))⟩

theorem nonEngUnits_ok (u : Ucd) (hu : u.Laws) {rc : ReprConfig} (h : TotalRc rc) (subs : List Subtok)
    (hne : splitStr u subs ≠ []) : ∃ us, nonEngUnits u rc subs = .ok us := by
  unfold nonEngUnits
  split
  · split
    · obtain ⟨t, ht, hn⟩ := replaceNonAscii_ok _ hne
      obtain ⟨w, hw⟩ := wordFrom_ok u hu t hn
      simp only [ht, hw, bind, Except.bind]
      exact splitUnits_ok u h [w]
    · exact ⟨_, rfl⟩
  · exact splitUnits_ok u h subs

theorem numberUnits_ok {rc : ReprConfig} (h : TotalRc rc) (ty : Ty) (v : Str) : ∃ us, numberUnits rc ty v = .ok us := by
  unfold numberUnits
  split
  · obtain ⟨l, hl⟩ := h.number v
    simp [hl, bind, Except.bind]
  · exact ⟨_, rfl⟩

theorem nonProcUnits_ok {rc : ReprConfig} (h : TotalRc rc) (ty : Ty) (s : Str)
    (hty : ty ∈ [Ty.underscore, .spaceInString, .keyWord, .operator, .semicolon, .openingCurly,
      .closingCurly, .openingBracket, .closingBracket, .nonCodeChar, .specialToken]) :
    nonProcUnits rc ty s = .ok [⟨ty, [s], [s]⟩] := by
  unfold nonProcUnits
  rw [if_neg fun hm => h.processable _ hm hty]

theorem mapM_replace_ok (l : List Str) :
    l.mapM (fun t => replaceNonAsciiSeqs t Ph.nonAsciiSeq) = .ok (l.map (replaceLoop Ph.nonAsciiSeq false [])) := by
  induction l with
  | nil => rfl
  | cons a r ih =>
    rw [List.mapM_cons, ih]
    rfl

theorem replaceInString_ok (rc : ReprConfig) (s : Str) : ∃ t, replaceInString rc s = .ok t := by
  unfold replaceInString
  split
  · rw [mapM_replace_ok]
    exact ⟨_, rfl⟩
  · exact ⟨_, rfl⟩

mutual
theorem units_ok (u : Ucd) (hu : u.Laws) {rc : ReprConfig} (h : TotalRc rc) : (t : Tok) →
    Everywhere (NonEngNonempty u) t → ∃ us, t.units u rc = .ok us
  | .number v, _ => numberUnits_ok h _ v
  | .one, _ => numberUnits_ok h _ _
  | .zero, _ => numberUnits_ok h _ _
  | .newLine, _ => ⟨_, rfl⟩
  | .tab, _ => ⟨_, rfl⟩
  | .spaceInString n, _ => by
    unfold Tok.units
    rw [if_neg fun hm => h.processable _ hm (by simp)]
    exact ⟨_, rfl⟩
  | .keyWord s, _ => ⟨_, nonProcUnits_ok h _ _ (by simp)⟩
  | .operator s, _ => ⟨_, nonProcUnits_ok h _ _ (by simp)⟩
  | .semicolon, _ => ⟨_, nonProcUnits_ok h _ _ (by simp)⟩
  | .openingCurly, _ => ⟨_, nonProcUnits_ok h _ _ (by simp)⟩
  | .closingCurly, _ => ⟨_, nonProcUnits_ok h _ _ (by simp)⟩
  | .openingBracket, _ => ⟨_, nonProcUnits_ok h _ _ (by simp)⟩
  | .closingBracket, _ => ⟨_, nonProcUnits_ok h _ _ (by simp)⟩
  | .nonCodeChar s, _ => ⟨_, nonProcUnits_ok h _ _ (by simp)⟩
  | .specialToken s, _ => ⟨_, nonProcUnits_ok h _ _ (by simp)⟩
  | .split subs, _ => splitUnits_ok u h subs
  | .nonEng subs, hne => nonEngUnits_ok u hu h subs (hne subs rfl)
  | .oneLineComment ts, hne => by
    obtain ⟨us, hus⟩ := unitsList_ok u hu h false ts hne.2
    unfold Tok.units
    split
    · exact ⟨_, rfl⟩
    · simp [hus, bind, Except.bind]
  | .multilineComment ts, hne => by
    obtain ⟨us, hus⟩ := unitsList_ok u hu h false ts hne.2
    unfold Tok.units
    split
    · exact ⟨_, rfl⟩
    · simp [hus, bind, Except.bind]
  | .stringLiteral ts len, hne => by
    obtain ⟨us, hus⟩ := unitsList_ok u hu h true ts hne.2
    unfold Tok.units
    split
    · exact ⟨_, rfl⟩
    · rename_i hs
      cases hm : rc.maxStrLength with
      | none => exact absurd (h.maxLen hm) hs
      | some n =>
        simp only
        split
        · split <;> exact ⟨_, rfl⟩
        · obtain ⟨s, hr⟩ := replaceInString_ok rc (strList u ts)
          split
          · rename_i hb
            obtain ⟨l, hl⟩ := h.word (h.bpe hb) s
            simp [hr, hl, bind, Except.bind]
          · split
            · simp [hr, bind, Except.bind]
            · simp [hus, bind, Except.bind]

theorem unitsList_ok (u : Ucd) (hu : u.Laws) {rc : ReprConfig} (h : TotalRc rc) (skip : Bool) : (ts : List Tok) →
    EverywhereList (NonEngNonempty u) ts → ∃ us, unitsList u rc skip ts = .ok us
  | [], _ => ⟨[], rfl⟩
  | t :: r, hne => by
    obtain ⟨a, ha⟩ := units_ok u hu h t hne.1
    obtain ⟨b, hb⟩ := unitsList_ok u hu h skip r hne.2
    have main : ∃ us, (do
        let a ← Tok.units u rc t
        let b ← unitsList u rc skip r
        Except.ok (a ++ b) : Except PyErr _) = .ok us := by
      simp [ha, hb, bind, Except.bind]
    cases skip
    · simpa only [unitsList] using main
    · cases t <;> first
        | (simp only [unitsList]; exact ⟨b, hb⟩)
        | (simp only [unitsList]; exact main)
end

/-! ## No empty full tokens -/

theorem ite_ne_nil {α : Type} {p : Prop} [Decidable p] {a b : List α} (ha : a ≠ []) (hb : b ≠ []) :
    (if p then a else b) ≠ [] := by
  split <;> assumption

theorem wrapInWordBoundaries_ne_nil (l : List Str) : wrapInWordBoundaries l ≠ [] := by
  cases l with
  | nil => simp [wrapInWordBoundaries]
  | cons a r =>
    exact ite_ne_nil (by simp) (by simp)

theorem splitUnits_ne {u : Ucd} {rc : ReprConfig} (hw : rc.bpe = true → ∀ s l, rc.splitWord s = .ok l → l ≠ [])
    {subs : List Subtok} {us : List FullTok} (h : splitUnits u rc subs = .ok us) : ∀ x ∈ us, x.subs ≠ [] := by
  unfold splitUnits at h
  split at h
  · split at h
    · rename_i hb
      cases hs : rc.splitWord (splitStr u subs) with
      | error e => simp [hs, bind, Except.bind] at h
      | ok l =>
        simp [hs, bind, Except.bind] at h
        subst h
        simpa using hw hb _ _ hs
    · cases hs : subtoksRepr u rc [] subs with
      | error e => simp [hs, bind, Except.bind] at h
      | ok l =>
        simp [hs, bind, Except.bind] at h
        subst h
        simpa using wrapInWordBoundaries_ne_nil l
  · cases hs : subtoksJoin u rc subs with
    | error e => simp [hs, bind, Except.bind] at h
    | ok l =>
      simp [hs, bind, Except.bind] at h
      subst h
      simp

theorem nonEngUnits_ne {u : Ucd} {rc : ReprConfig} (hw : rc.bpe = true → ∀ s l, rc.splitWord s = .ok l → l ≠ [])
    {subs : List Subtok} {us : List FullTok} (h : nonEngUnits u rc subs = .ok us) : ∀ x ∈ us, x.subs ≠ [] := by
  unfold nonEngUnits at h
  split at h
  · split at h
    · cases hr : replaceNonAsciiSeqs (splitStr u subs) Ph.nonAsciiSeq with
      | error e => simp [hr, bind, Except.bind] at h
      | ok t =>
        simp only [hr, bind, Except.bind] at h
        cases hf : wordFrom u t with
        | error e => simp [hf] at h
        | ok w =>
          simp only [hf] at h
          exact splitUnits_ne hw h
    · simp at h; subst h; simp
  · exact splitUnits_ne hw h

theorem numberUnits_ne {rc : ReprConfig} {N : Str → Prop} (hn : ∀ v l, N v → rc.numberSplitter v = .ok l → l ≠ [])
    {ty : Ty} {v : Str} (hv : N v) {us : List FullTok} (h : numberUnits rc ty v = .ok us) : ∀ x ∈ us, x.subs ≠ [] := by
  unfold numberUnits at h
  split at h
  · cases hs : rc.numberSplitter v with
    | error e => simp [hs, bind, Except.bind] at h
    | ok l =>
      simp only [hs, bind, Except.bind, Except.ok.injEq] at h
      subst h
      have := hn v l hv hs
      simp only [List.mem_singleton, forall_eq]
      split <;> simp [this]
  · simp at h; subst h; simp

theorem nonProcUnits_ne {rc : ReprConfig} {ty : Ty} {s : Str} {us : List FullTok} (h : nonProcUnits rc ty s = .ok us) :
    ∀ x ∈ us, x.subs ≠ [] := by
  unfold nonProcUnits at h
  split at h
  · cases h
  · simp at h; subst h; simp

theorem retype_ne {ty : Ty} {us : List FullTok} (h : ∀ x ∈ us, x.subs ≠ []) : ∀ x ∈ retype ty us, x.subs ≠ [] := by
  intro x hx
  simp only [retype, List.mem_map] at hx
  obtain ⟨y, hy, rfl⟩ := hx
  exact h y hy

mutual
theorem units_ne (u : Ucd) {rc : ReprConfig} {N : Str → Prop} (hn : ∀ v l, N v → rc.numberSplitter v = .ok l → l ≠ [])
    (h1 : N ['1']) (h0 : N ['0']) (hw : rc.bpe = true → ∀ s l, rc.splitWord s = .ok l → l ≠ []) : (t : Tok) → Everywhere (fun t => ∀ v, t = .number v → N v) t →
    ∀ us, t.units u rc = .ok us → ∀ x ∈ us, x.subs ≠ []
  | .number v, hv, _, h => numberUnits_ne hn (hv v rfl) h
  | .one, _, _, h => numberUnits_ne hn h1 h
  | .zero, _, _, h => numberUnits_ne hn h0 h
  | .newLine, _, us, h => by
    simp only [Tok.units, whitespaceUnits, Except.ok.injEq] at h
    subst h
    split <;> simp
  | .tab, _, us, h => by
    simp only [Tok.units, whitespaceUnits, Except.ok.injEq] at h
    subst h
    split <;> simp
  | .spaceInString n, _, us, h => by
    unfold Tok.units at h
    split at h
    · cases h
    · simp at h; subst h; simp
  | .keyWord s, _, _, h => nonProcUnits_ne h
  | .operator s, _, _, h => nonProcUnits_ne h
  | .semicolon, _, _, h => nonProcUnits_ne h
  | .openingCurly, _, _, h => nonProcUnits_ne h
  | .closingCurly, _, _, h => nonProcUnits_ne h
  | .openingBracket, _, _, h => nonProcUnits_ne h
  | .closingBracket, _, _, h => nonProcUnits_ne h
  | .nonCodeChar s, _, _, h => nonProcUnits_ne h
  | .specialToken s, _, _, h => nonProcUnits_ne h
  | .split subs, _, _, h => splitUnits_ne hw h
  | .nonEng subs, _, _, h => nonEngUnits_ne hw h
  | .oneLineComment ts, hv, us, h => by
    have ih := unitsList_ne u hn h1 h0 hw false ts hv.2
    unfold Tok.units at h
    split at h
    · simp at h; subst h; simp
    · cases hl : unitsList u rc false ts with
      | error e => simp [hl, bind, Except.bind] at h
      | ok vs =>
        simp only [hl, bind, Except.bind, Except.ok.injEq] at h
        subst h
        intro x hx
        rcases List.mem_append.mp hx with hx | hx
        · exact retype_ne (ih vs hl) x hx
        · simp at hx; subst hx; simp
  | .multilineComment ts, hv, us, h => by
    have ih := unitsList_ne u hn h1 h0 hw false ts hv.2
    unfold Tok.units at h
    split at h
    · simp at h; subst h; simp
    · cases hl : unitsList u rc false ts with
      | error e => simp [hl, bind, Except.bind] at h
      | ok vs =>
        simp only [hl, bind, Except.bind, Except.ok.injEq] at h
        subst h
        exact retype_ne (ih vs hl)
  | .stringLiteral ts len, hv, us, h => by
    have ih := unitsList_ne u hn h1 h0 hw true ts hv.2
    unfold Tok.units at h
    split at h
    · simp at h; subst h; simp
    · split at h
      · cases h
      · split at h
        · split at h <;> (simp at h; subst h; simp)
        · split at h
          · rename_i hb
            cases hr : replaceInString rc (strList u ts) with
            | error e => simp [hr, bind, Except.bind] at h
            | ok s =>
              simp only [hr, bind, Except.bind] at h
              cases hs : rc.splitWord s with
              | error e => simp [hs] at h
              | ok l =>
                simp [hs] at h
                subst h
                simpa using hw hb _ _ hs
          · split at h
            · cases hr : replaceInString rc (strList u ts) with
              | error e => simp [hr, bind, Except.bind] at h
              | ok s =>
                simp [hr, bind, Except.bind] at h
                subst h
                simp
            · cases hl : unitsList u rc true ts with
              | error e => simp [hl, bind, Except.bind] at h
              | ok vs =>
                simp only [hl, bind, Except.bind, Except.ok.injEq] at h
                subst h
                exact retype_ne (ih vs hl)

theorem unitsList_ne (u : Ucd) {rc : ReprConfig} {N : Str → Prop} (hn : ∀ v l, N v → rc.numberSplitter v = .ok l → l ≠ [])
    (h1 : N ['1']) (h0 : N ['0']) (hw : rc.bpe = true → ∀ s l, rc.splitWord s = .ok l → l ≠ []) (skip : Bool) : (ts : List Tok) →
    EverywhereList (fun t => ∀ v, t = .number v → N v) ts → ∀ us, unitsList u rc skip ts = .ok us → ∀ x ∈ us, x.subs ≠ []
  | [], _, us, h => by simp [unitsList] at h; subst h; simp
  | t :: r, hv, us, h => by
    have ih1 := units_ne u hn h1 h0 hw t hv.1
    have ih2 := unitsList_ne u hn h1 h0 hw skip r hv.2
    have main : (do
        let a ← Tok.units u rc t
        let b ← unitsList u rc skip r
        Except.ok (a ++ b) : Except PyErr _) = .ok us → ∀ x ∈ us, x.subs ≠ [] := by
      intro h
      cases ha : Tok.units u rc t with
      | error e => simp [ha, bind, Except.bind] at h
      | ok a =>
        cases hb : unitsList u rc skip r with
        | error e => simp [ha, hb, bind, Except.bind] at h
        | ok b =>
          simp only [ha, hb, bind, Except.bind, Except.ok.injEq] at h
          subst h
          intro x hx
          rcases List.mem_append.mp hx with hx | hx
          · exact ih1 a ha x hx
          · exact ih2 b hb x hx
    cases skip
    · exact main (by simpa only [unitsList] using h)
    · cases t <;> first
        | (simp only [unitsList] at h; exact ih2 us h)
        | (simp only [unitsList] at h; exact main h)
end

mutual
theorem everywhere_of_forall {p : Tok → Prop} (h : ∀ t, p t) : (t : Tok) → Everywhere p t
  | .number _ => h _
  | .one => h _
  | .zero => h _
  | .newLine => h _
  | .tab => h _
  | .spaceInString _ => h _
  | .keyWord _ => h _
  | .operator _ => h _
  | .semicolon => h _
  | .openingCurly => h _
  | .closingCurly => h _
  | .openingBracket => h _
  | .closingBracket => h _
  | .nonCodeChar _ => h _
  | .specialToken _ => h _
  | .split _ => h _
  | .nonEng _ => h _
  | .oneLineComment ts => ⟨h _, everywhereList_of_forall h ts⟩
  | .multilineComment ts => ⟨h _, everywhereList_of_forall h ts⟩
  | .stringLiteral ts _ => ⟨h _, everywhereList_of_forall h ts⟩

theorem everywhereList_of_forall {p : Tok → Prop} (h : ∀ t, p t) : (ts : List Tok) → EverywhereList p ts
  | [] => trivial
  | t :: r => ⟨everywhere_of_forall h t, everywhereList_of_forall h r⟩
end

/-! ## Valid configurations -/

theorem typesToBeRepr_mem (c : PrepConfig) (t : Ty) : t ∈ c.typesToBeRepr ↔
    (t ∈ [Ty.splitContainer, .word] ∧ c.split ∈ [['1'], ['2'], ['3'], ['4'], ['5'], ['6'], ['7'], ['8'], ['9'], ['s']]) ∨
    (t = .number ∧ c.split ∈ [['2'], ['3'], ['4'], ['5'], ['6'], ['7'], ['8'], ['9'], ['s']]) ∨
    (t ∈ [Ty.oneLineComment, .multilineComment] ∧ c.com = ['0']) ∨
    (t = .stringLiteral ∧ c.str = ['0']) ∨
    (t = .nonEng ∧ c.enOnly = ['U']) ∨
    (t ∈ [Ty.newLine, .tab] ∧ c.tabsNewlines = ['0']) := by
  unfold PrepConfig.typesToBeRepr
  have aux : ∀ (p : Prop) [Decidable p] (l : List Ty), t ∈ (if p then l else []) ↔ t ∈ l ∧ p := by
    intro p _ l; split <;> simp [*]
  simp only [List.mem_append, aux, List.mem_singleton, or_assoc]

/-- Splitting with the configuration's splitters cannot fail. -/
def SplittersOk (c : PrepConfig) (bd : Option BpeData) : Prop := c.isBpe = true → ∃ d, bd = some d ∧ CacheOk d

theorem totalRc {env : Env} {c : PrepConfig} {bd : Option BpeData} {rc : ReprConfig} (hv : c.Valid)
    (h : RcOk env c bd rc) (hs : SplittersOk c bd) : TotalRc rc where
  number := by
    intro v
    have hn := h.number
    unfold PrepConfig.numberSplitter at hn
    by_cases hb : c.isBpe = true
    · obtain ⟨d, rfl, hd⟩ := hs hb
      have hb' := hb
      simp only [PrepConfig.isBpe, decide_eq_true_eq] at hb'
      rw [if_neg, if_neg, if_pos hb', if_pos hb] at hn
      · simp only [Except.ok.injEq] at hn
        rw [← hn]
        exact getBpeSubwords_total v d hd
      all_goals (simp at hb' ⊢; rcases hb' with e | e | e | e | e | e <;> simp [e])
    · simp only [PrepConfig.isBpe, decide_eq_true_eq] at hb
      rcases split_cases hv with e | e | e | e | e | e | e | e | e | e | e | e <;> simp [e] at hn hb <;> simp [← hn]
  word := by
    intro _ s
    have hn := h.word
    unfold PrepConfig.wordSplitter at hn
    unfold ReprConfig.splitWord
    by_cases hb : c.isBpe = true
    · obtain ⟨d, rfl, hd⟩ := hs hb
      have hb' := hb
      simp only [PrepConfig.isBpe, decide_eq_true_eq] at hb'
      rw [if_pos hb', if_pos hb] at hn
      simp only [Except.ok.injEq] at hn
      rw [← hn]
      exact getBpeSubwords_total s d hd
    · rename_i hm
      rw [h.types, typesToBeRepr_mem] at hm
      simp only [PrepConfig.isBpe, decide_eq_true_eq] at hb
      rcases split_cases hv with e | e | e | e | e | e | e | e | e | e | e | e <;> simp [e] at hn hb hm <;> simp [← hn]
  join := by
    rw [h.types, typesToBeRepr_mem, typesToBeRepr_mem]
    simp
  bpe := by
    intro hb
    rw [h.bpe, Bool.and_eq_true] at hb
    have hb' := hb.1
    simp only [PrepConfig.isBpe, decide_eq_true_eq] at hb'
    rw [h.types, typesToBeRepr_mem]
    left
    simp at hb' ⊢
    rcases hb' with e | e | e | e | e | e <;> simp [e]
  processable := by
    intro t ht
    rw [h.types, typesToBeRepr_mem] at ht
    cases t <;> simp at ht ⊢
  maxLen := by
    intro hm
    rw [h.types, typesToBeRepr_mem]
    simp [h.maxNone.mp hm]

theorem number_ne {env : Env} {c : PrepConfig} {bd : Option BpeData} {rc : ReprConfig} (hv : c.Valid)
    (h : RcOk env c bd rc) (v : Str) (l : List Str) (hx : v ≠ [] ∨ c.isBpe = true) (hl : rc.numberSplitter v = .ok l) :
    l ≠ [] := by
  have hn := h.number
  unfold PrepConfig.numberSplitter at hn
  simp only [PrepConfig.isBpe] at hx hn
  rcases split_cases hv with e | e | e | e | e | e | e | e | e | e | e | e <;> simp [e] at hn hx <;> rw [← hn] at hl <;>
    first
    | exact bpeSplitter_ne_nil hl
    | (simp at hl; subst hl; simp [hx])

theorem word_ne {env : Env} {c : PrepConfig} {bd : Option BpeData} {rc : ReprConfig}
    (h : RcOk env c bd rc) (hb : rc.bpe = true) (s : Str) (l : List Str) (hl : rc.splitWord s = .ok l) : l ≠ [] := by
  rw [h.bpe, Bool.and_eq_true] at hb
  have hb' := hb.1
  simp only [PrepConfig.isBpe, decide_eq_true_eq] at hb'
  have hn := h.word
  unfold PrepConfig.wordSplitter at hn
  rw [if_pos hb'] at hn
  simp only [Except.ok.injEq] at hn
  unfold ReprConfig.splitWord at hl
  rw [← hn] at hl
  exact bpeSplitter_ne_nil hl

/-- What `to_repr` computes for a valid configuration. -/
theorem toRepr_eq {env : Env} {c : PrepConfig} (hv : c.Valid) (ts : List Tok) (bd : Option BpeData) :
    ∃ rc, RcOk env c bd rc ∧ toRepr env c ts bd = (unitsList env.ucd rc false ts).map fun us =>
      (if c.isBpe then ((us.map (·.subs)).map markLast).flatten else (us.map (·.subs)).flatten, (flatForm us).2) := by
  obtain ⟨rc, hrc, hok⟩ := reprConfig_ok env hv bd
  refine ⟨rc, hok, ?_⟩
  unfold toRepr
  simp only [hrc, bind, Except.bind, toReprList_eq]
  cases hu : unitsList env.ucd rc false ts with
  | error e => rfl
  | ok us =>
    simp only [Except.map]
    by_cases hb : c.isBpe = true
    · rw [if_pos hb]
      have hne : ∀ g ∈ us.map (·.subs), g ≠ [] := by
        have := unitsList_ne env.ucd (N := fun _ => True) (fun v l _ hl => number_ne hv hok v l (.inr hb) hl) trivial trivial
          (word_ne hok) false ts (everywhereList_of_forall (fun _ _ _ => trivial) ts) us hu
        intro g hg
        obtain ⟨x, hx, rfl⟩ := List.mem_map.mp hg
        exact this x hx
      have := insertWordEnds_groups [] (us.map (·.subs)) hne
      simp only [List.nil_append, List.length_nil] at this
      have this : insertWordEnds (flatForm us).1 ((flatForm us).2.bounds.drop 1) = _ := this
      rw [this]
      simp [hb]
    · rw [if_neg hb]
      simp [hb, flatForm]

end Verif
