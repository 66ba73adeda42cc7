import Verif.Proofs.Units
import Verif.Spec.Marks
/-!
# End-of-token marks
-/
set_option linter.unusedSectionVars false

namespace Verif
open Spec

theorem endsWith_iff (s suf : Str) : endsWith s suf = true ↔ ∃ p, s = p ++ suf := by
  unfold endsWith
  rw [List.isPrefixOf_iff_prefix, List.reverse_prefix]
  constructor
  · rintro ⟨p, h⟩; exact ⟨p, h.symm⟩
  · rintro ⟨p, h⟩; exact ⟨p, h.symm⟩

/-- A property of the list of strings of every full token, in BPE mode. -/
structure BpeForall (u : Ucd) (rc : ReprConfig) (Q : List Str → Prop) (t : Tok) : Prop where
  number : ∀ v, t = .number v → ∀ l, rc.numberSplitter v = .ok l → Q l
  split : ∀ subs, t = .split subs → ∀ l, rc.splitWord (splitStr u subs) = .ok l → Q l
  nonEng : ∀ subs, t = .nonEng subs → Ty.nonEng ∉ rc.types → ∀ l, rc.splitWord (splitStr u subs) = .ok l → Q l
  replaced : ∀ subs, t = .nonEng subs → Ty.nonEng ∈ rc.types →
    ∀ token w, replaceNonAsciiSeqs (splitStr u subs) Ph.nonAsciiSeq = .ok token → wordFrom u token = .ok w →
      ∀ l, rc.splitWord (splitStr u [w]) = .ok l → Q l
  literal : ∀ ts n, t = .stringLiteral ts n → ∀ s, replaceInString rc (strList u ts) = .ok s →
    ∀ l, rc.splitWord s = .ok l → Q l

section
variable {u : Ucd} {rc : ReprConfig} {Q : List Str → Prop} (hb : rc.bpe = true)
  (h1 : ∀ s, Q [s]) (h2 : Q [['"'], ['"']]) (hone : Ty.one ∉ rc.types) (hzero : Ty.zero ∉ rc.types)
  (hsc : Ty.splitContainer ∈ rc.types)

include hb hsc in
theorem splitUnits_forall {subs : List Subtok} (hq : ∀ l, rc.splitWord (splitStr u subs) = .ok l → Q l)
    {us : List FullTok} (h : splitUnits u rc subs = .ok us) : ∀ x ∈ us, Q x.subs := by
  unfold splitUnits at h
  rw [if_pos hsc, if_pos hb] at h
  cases hs : rc.splitWord (splitStr u subs) with
  | error e => simp [hs, bind, Except.bind] at h
  | ok l =>
    simp [hs, bind, Except.bind] at h
    subst h
    simpa using hq l hs

include hb hsc in
theorem nonEngUnits_forall {subs : List Subtok} (hq : BpeForall u rc Q (.nonEng subs))
    {us : List FullTok} (h : nonEngUnits u rc subs = .ok us) : ∀ x ∈ us, Q x.subs := by
  unfold nonEngUnits at h
  split at h
  · rename_i hne
    cases hr : replaceNonAsciiSeqs (splitStr u subs) Ph.nonAsciiSeq with
    | error e => simp [hr, bind, Except.bind] at h
    | ok t =>
      simp only [hr, bind, Except.bind] at h
      cases hf : wordFrom u t with
      | error e => simp [hf] at h
      | ok w =>
        simp only [hf] at h
        exact splitUnits_forall hb hsc (hq.replaced subs rfl hne t w hr hf) h
  · rename_i hne
    exact splitUnits_forall hb hsc (hq.nonEng subs rfl hne) h

include h1 hb in
theorem numberUnits_forall {ty : Ty} {v : Str} (hq : ty ∈ rc.types → ∀ l, rc.numberSplitter v = .ok l → Q l)
    {us : List FullTok} (h : numberUnits rc ty v = .ok us) : ∀ x ∈ us, Q x.subs := by
  unfold numberUnits at h
  split at h
  · rename_i hty
    cases hs : rc.numberSplitter v with
    | error e => simp [hs, bind, Except.bind] at h
    | ok l =>
      simp only [hs, bind, Except.bind, Except.ok.injEq, hb, Bool.not_true, Bool.and_false] at h
      subst h
      simpa using hq hty l hs
  · simp at h; subst h; simpa using h1 _

include h1 in
theorem nonProcUnits_forall {ty : Ty} {s : Str} {us : List FullTok} (h : nonProcUnits rc ty s = .ok us) :
    ∀ x ∈ us, Q x.subs := by
  unfold nonProcUnits at h
  split at h
  · cases h
  · simp at h; subst h; simpa using h1 _

theorem retype_forall {ty : Ty} {us : List FullTok} (h : ∀ x ∈ us, Q x.subs) : ∀ x ∈ retype ty us, Q x.subs := by
  intro x hx
  simp only [retype, List.mem_map] at hx
  obtain ⟨y, hy, rfl⟩ := hx
  exact h y hy

include hb h1 h2 hone hzero hsc

mutual
theorem units_forall : (t : Tok) → Everywhere (BpeForall u rc Q) t → ∀ us, t.units u rc = .ok us → ∀ x ∈ us, Q x.subs
  | .number v, hq, _, h => numberUnits_forall hb h1 (fun _ => BpeForall.number hq v rfl) h
  | .one, _, _, h => numberUnits_forall hb h1 (fun he => absurd he hone) h
  | .zero, _, _, h => numberUnits_forall hb h1 (fun he => absurd he hzero) h
  | .newLine, _, us, h => by
    simp only [Tok.units, whitespaceUnits, Except.ok.injEq] at h
    subst h
    split <;> simp [h1]
  | .tab, _, us, h => by
    simp only [Tok.units, whitespaceUnits, Except.ok.injEq] at h
    subst h
    split <;> simp [h1]
  | .spaceInString n, _, us, h => by
    unfold Tok.units at h
    split at h
    · cases h
    · simp at h; subst h; simp [h1]
  | .keyWord s, _, _, h => nonProcUnits_forall h1 h
  | .operator s, _, _, h => nonProcUnits_forall h1 h
  | .semicolon, _, _, h => nonProcUnits_forall h1 h
  | .openingCurly, _, _, h => nonProcUnits_forall h1 h
  | .closingCurly, _, _, h => nonProcUnits_forall h1 h
  | .openingBracket, _, _, h => nonProcUnits_forall h1 h
  | .closingBracket, _, _, h => nonProcUnits_forall h1 h
  | .nonCodeChar s, _, _, h => nonProcUnits_forall h1 h
  | .specialToken s, _, _, h => nonProcUnits_forall h1 h
  | .split subs, hq, _, h => splitUnits_forall hb hsc (BpeForall.split hq subs rfl) h
  | .nonEng subs, hq, _, h => nonEngUnits_forall hb hsc hq h
  | .oneLineComment ts, hv, us, h => by
    have ih := unitsList_forall false ts hv.2
    unfold Tok.units at h
    split at h
    · simp at h; subst h; simp [h1]
    · cases hl : unitsList u rc false ts with
      | error e => simp [hl, bind, Except.bind] at h
      | ok vs =>
        simp only [hl, bind, Except.bind, Except.ok.injEq] at h
        subst h
        intro x hx
        rcases List.mem_append.mp hx with hx | hx
        · exact retype_forall (ih vs hl) x hx
        · simp at hx; subst hx; exact h1 _
  | .multilineComment ts, hv, us, h => by
    have ih := unitsList_forall false ts hv.2
    unfold Tok.units at h
    split at h
    · simp at h; subst h; simp [h1]
    · cases hl : unitsList u rc false ts with
      | error e => simp [hl, bind, Except.bind] at h
      | ok vs =>
        simp only [hl, bind, Except.bind, Except.ok.injEq] at h
        subst h
        exact retype_forall (ih vs hl)
  | .stringLiteral ts len, hv, us, h => by
    unfold Tok.units at h
    split at h
    · simp at h; subst h; simp [h1]
    · split at h
      · cases h
      · split at h
        · split at h <;> (simp at h; subst h; simp [h1, h2])
        · cases hr : replaceInString rc (strList u ts) with
          | error e => simp [hr, bind, Except.bind] at h
          | ok s =>
            simp only [hr, bind, Except.bind] at h
            cases hs : rc.splitWord s with
            | error e => simp [hs] at h
            | ok l =>
              simp [hs] at h
              subst h
              simpa using hv.1.literal ts len rfl s hr l hs

theorem unitsList_forall (skip : Bool) : (ts : List Tok) → EverywhereList (BpeForall u rc Q) ts →
    ∀ us, unitsList u rc skip ts = .ok us → ∀ x ∈ us, Q x.subs
  | [], _, us, h => by simp [unitsList] at h; subst h; simp
  | t :: r, hv, us, h => by
    have ih1 := units_forall t hv.1
    have ih2 := unitsList_forall skip r hv.2
    have main : (do
        let a ← Tok.units u rc t
        let b ← unitsList u rc skip r
        Except.ok (a ++ b) : Except PyErr _) = .ok us → ∀ x ∈ us, Q x.subs := by
      intro h
      cases ha : Tok.units u rc t with
      | error e => simp [ha, bind, Except.bind] at h
      | ok a =>
        cases hb : unitsList u rc skip r with
        | error e => simp [ha, hb, bind, Except.bind] at h
        | ok b =>
          simp only [ha, hb, bind, Except.bind, Except.ok.injEq] at h
          subst h
          intro x hx
          rcases List.mem_append.mp hx with hx | hx
          · exact ih1 a ha x hx
          · exact ih2 b hb x hx
    cases skip
    · exact main (by simpa only [unitsList] using h)
    · cases t <;> first
        | (simp only [unitsList] at h; exact ih2 us h)
        | (simp only [unitsList] at h; exact main h)
end
end

/-! ## Marks and boundaries -/

theorem mem_boundsFrom_ge {α : Type} {n k : Nat} {gs : List (List α)} (h : k ∈ boundsFrom n gs) : n ≤ k := by
  induction gs generalizing n with
  | nil => simp [boundsFrom] at h; omega
  | cons g r ih =>
    simp only [boundsFrom, List.mem_cons] at h
    rcases h with h | h
    · omega
    · have := ih h; omega

theorem start_mem_boundsFrom {α : Type} (n : Nat) (gs : List (List α)) : n ∈ boundsFrom n gs := by
  cases gs <;> simp [boundsFrom]

/-- No string but the last one ends with the mark. -/
def NoInnerMark (g : List Str) : Prop := ∀ p ∈ g.dropLast, ¬ ∃ q, p = q ++ Ph.compoundWordEnd

theorem marks_agree (n : Nat) (gs : List (List Str)) (hne : ∀ g ∈ gs, g ≠ []) (hg : ∀ g ∈ gs, NoInnerMark g)
    (i : Nat) (s : Str) (h : ((gs.map markLast).flatten)[i]? = some s) :
    (∃ p, s = p ++ Ph.compoundWordEnd) ↔ n + i + 1 ∈ boundsFrom n gs := by
  induction gs generalizing n i with
  | nil => simp at h
  | cons g r ih =>
    obtain ⟨a, x, rfl⟩ : ∃ a x, g = a ++ [x] :=
      ⟨g.dropLast, g.getLast (hne g (by simp)), (List.dropLast_concat_getLast _).symm⟩
    simp only [List.map_cons, List.flatten_cons, markLast_append, boundsFrom] at h ⊢
    have hno := hg _ (List.mem_cons_self)
    simp only [NoInnerMark, List.dropLast_concat] at hno
    by_cases hi : i < a.length
    · rw [List.append_assoc, List.getElem?_append_left hi] at h
      have hs : s ∈ a := List.mem_of_getElem? h
      refine ⟨fun hp => absurd hp (hno s hs), ?_⟩
      intro hm
      rcases List.mem_cons.mp hm with hm | hm
      · omega
      · have := mem_boundsFrom_ge hm
        simp at this
        omega
    · by_cases hi2 : i = a.length
      · subst hi2
        rw [List.append_assoc, List.getElem?_append_right (Nat.le_refl _)] at h
        simp at h
        subst h
        refine ⟨fun _ => ?_, fun _ => ⟨x, rfl⟩⟩
        have : n + a.length + 1 = n + (a ++ [x]).length := by simp; omega
        rw [this]
        exact List.mem_cons_of_mem _ (start_mem_boundsFrom _ _)
      · rw [List.getElem?_append_right (by simp; omega)] at h
        have := ih (n + (a ++ [x]).length) (fun g hg => hne g (by simp [hg])) (fun g hg' => hg g (by simp [hg'])) _ h
        rw [this]
        have e : n + (a ++ [x]).length + (i - (a ++ [x ++ Ph.compoundWordEnd]).length) + 1 = n + i + 1 := by simp; omega
        rw [e]
        constructor
        · exact List.mem_cons_of_mem _
        · intro hm
          rcases List.mem_cons.mp hm with hm | hm
          · omega
          · exact hm

/-- The end of every full token is marked. -/
theorem ends_marked (n : Nat) (gs : List (List Str)) (hne : ∀ g ∈ gs, g ≠ []) (i : Nat) (s : Str)
    (h : ((gs.map markLast).flatten)[i]? = some s) (hi : n + i + 1 ∈ boundsFrom n gs) : ∃ p, s = p ++ Ph.compoundWordEnd := by
  induction gs generalizing n i with
  | nil => simp at h
  | cons g r ih =>
    obtain ⟨a, x, rfl⟩ : ∃ a x, g = a ++ [x] :=
      ⟨g.dropLast, g.getLast (hne g (by simp)), (List.dropLast_concat_getLast _).symm⟩
    simp only [List.map_cons, List.flatten_cons, markLast_append, boundsFrom] at h hi
    rcases List.mem_cons.mp hi with hi | hi
    · omega
    have hge := mem_boundsFrom_ge hi
    simp at hge
    by_cases hi2 : i = a.length
    · subst hi2
      rw [List.append_assoc, List.getElem?_append_right (Nat.le_refl _)] at h
      simp at h
      subst h
      exact ⟨x, rfl⟩
    · rw [List.getElem?_append_right (by simp; omega)] at h
      refine ih (n + (a ++ [x]).length) (fun g hg => hne g (by simp [hg])) _ h ?_
      have e : n + (a ++ [x]).length + (i - (a ++ [x ++ Ph.compoundWordEnd]).length) + 1 = n + i + 1 := by simp; omega
      rw [e]
      exact hi

theorem checkTerminals_ok_iff (bounds : List Nat) (k : Nat) (l : List Str) :
    checkTerminals bounds k l = .ok () ↔
      ∀ i (h : i < l.length), (∃ p, l[i] = p ++ Ph.compoundWordEnd) ↔ k + i + 1 ∈ bounds := by
  induction l generalizing k with
  | nil => simp [checkTerminals]
  | cons t r ih =>
    unfold checkTerminals
    have hb : (isTerminalSubtoken t ≠ decide (k + 1 ∈ bounds)) ↔ ¬ ((∃ p, t = p ++ Ph.compoundWordEnd) ↔ k + 1 ∈ bounds) := by
      rw [← endsWith_iff]
      unfold isTerminalSubtoken
      cases endsWith t Ph.compoundWordEnd <;> simp
    split
    · rename_i hne
      refine ⟨fun h => by simp at h, fun h => ?_⟩
      exact absurd (h 0 (by simp)) (hb.mp hne)
    · rename_i heq
      have heq := Classical.not_not.mp (fun hn => heq (hb.mpr hn))
      rw [ih]
      constructor
      · intro h i hi
        cases i with
        | zero => simpa using heq
        | succ i =>
          have := h i (by simpa using hi)
          rw [show k + (i + 1) + 1 = k + 1 + i + 1 by omega]
          simpa using this
      · intro h i hi
        have := h (i + 1) (by simpa using hi)
        rw [show k + (i + 1) + 1 = k + 1 + i + 1 by omega] at this
        simpa using this

/-- Pieces of a text without the mark do not end with it. -/
theorem noInnerMark_of_flatten {l : List Str} (h : ¬ Ph.compoundWordEnd <:+: l.flatten) : NoInnerMark l := by
  rintro p hp ⟨q, rfl⟩
  apply h
  have hp' := (List.dropLast_sublist l).subset hp
  obtain ⟨a, b, rfl⟩ := List.append_of_mem hp'
  exact ⟨a.flatten ++ q, b.flatten, by simp⟩

end Verif
