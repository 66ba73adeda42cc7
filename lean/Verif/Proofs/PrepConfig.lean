import Verif.Spec.Config
import Verif.Proofs.Repr
/-!
# Configurations
-/
namespace Verif
open Spec

/-- All values are possible and the combination is allowed. -/
structure PrepConfig.Valid (c : PrepConfig) : Prop where
  enOnly : c.enOnly ∈ possibleParamValues .enOnly
  com : c.com ∈ possibleParamValues .com
  str : c.str ∈ possibleParamValues .str
  split : c.split ∈ possibleParamValues .split
  tabs : c.tabsNewlines ∈ possibleParamValues .tabsNewlines
  case : c.case ∈ possibleParamValues .case
  comb : c.case = ['l'] → c.split ∉ [['0'], ['F'], ['4'], ['5'], ['6'], ['7'], ['9']]

theorem possibleStrValues_eq : possibleStrValues =
    "0123456789ABCDEFGHIJKLMNOPQRSTUVWXYZabcdefghijklmnopqrstuvwxyz".toList.map fun c => [c] := by
  decide +kernel

theorem checkValues_ok (d : Dict PrepParam Str) (ps : List PrepParam) :
    checkValues d ps = .ok () ↔ ∀ p ∈ ps, ∃ v, d.get? p = some v ∧ v ∈ possibleParamValues p := by
  induction ps with
  | nil => simp [checkValues]
  | cons p r ih =>
    simp only [checkValues, paramOf, bind, Except.bind, List.mem_cons, forall_eq_or_imp]
    cases h : d.get? p with
    | none => simp
    | some v =>
      simp only [Option.some.injEq, exists_eq_left']
      by_cases hv : v ∈ possibleParamValues p
      · rw [if_pos hv, ih]
        simp [hv]
      · rw [if_neg hv]
        simp [hv]

theorem make_ok_iff (d : Dict PrepParam Str) (c : PrepConfig) :
    PrepConfig.make d = .ok c ↔ d.length = 6 ∧ (∀ p, d.get? p = some (c.get p)) ∧ c.Valid := by
  unfold PrepConfig.make
  by_cases hl : d.length = 6
  case neg => simp [PrepParam.all, hl]
  have hl' : ¬ (d.length ≠ PrepParam.all.length) := by simp [PrepParam.all, hl]
  simp only [hl', if_false, bind, Except.bind]
  cases hc : checkValues d PrepParam.all with
  | error e =>
    simp only [reduceCtorEq, false_iff, not_and]
    intro _ hg hv
    have : checkValues d PrepParam.all = .ok () := by
      rw [checkValues_ok]
      intro p _
      refine ⟨c.get p, hg p, ?_⟩
      cases p
      · exact hv.enOnly
      · exact hv.com
      · exact hv.str
      · exact hv.split
      · exact hv.tabs
      · exact hv.case
    rw [this] at hc
    cases hc
  | ok _ =>
    rw [checkValues_ok] at hc
    obtain ⟨v1, g1, p1⟩ := hc .enOnly (by decide)
    obtain ⟨v2, g2, p2⟩ := hc .com (by decide)
    obtain ⟨v3, g3, p3⟩ := hc .str (by decide)
    obtain ⟨v4, g4, p4⟩ := hc .split (by decide)
    obtain ⟨v5, g5, p5⟩ := hc .tabsNewlines (by decide)
    obtain ⟨v6, g6, p6⟩ := hc .case (by decide)
    simp only [paramOf, g1, g2, g3, g4, g5, g6]
    have hgets : (∀ p, d.get? p = some (c.get p)) ↔ c = ⟨v1, v2, v3, v4, v5, v6⟩ := by
      constructor
      · intro h
        have a1 := h .enOnly; have a2 := h .com; have a3 := h .str; have a4 := h .split
        have a5 := h .tabsNewlines; have a6 := h .case
        rw [g1] at a1; rw [g2] at a2; rw [g3] at a3; rw [g4] at a4; rw [g5] at a5; rw [g6] at a6
        simp only [PrepConfig.get, Option.some.injEq] at a1 a2 a3 a4 a5 a6
        cases c
        simp_all
      · rintro rfl p
        cases p <;> simp [PrepConfig.get, *]
    rw [hgets]
    by_cases h1 : v6 = ['l'] ∧ v4 ∈ [['0'], ['F']]
    · rw [if_pos h1]
      simp only [reduceCtorEq, false_iff, not_and]
      rintro _ rfl hv
      have := hv.comb h1.1
      simp at this h1
      rcases h1.2 with h | h <;> simp_all
    · rw [if_neg h1]
      by_cases h2 : v6 = ['l'] ∧ v4 ∈ [['4'], ['5'], ['6'], ['7'], ['9']]
      · rw [if_pos h2]
        simp only [reduceCtorEq, false_iff, not_and]
        rintro _ rfl hv
        have := hv.comb h2.1
        simp at this h2
        rcases h2.2 with h | h | h | h | h <;> simp_all
      · rw [if_neg h2]
        simp only [Except.ok.injEq]
        constructor
        · rintro rfl
          refine ⟨hl, rfl, p1, p2, p3, p4, p5, p6, ?_⟩
          intro hc hs
          simp only at hc hs
          simp [hc] at h1 h2
          simp at hs
          simp_all
        · rintro ⟨_, rfl, _⟩; rfl

theorem make_total (d : Dict PrepParam Str) (h : d.length = 6) (hk : ∀ p, p ∈ d.keys) :
    (∃ c, PrepConfig.make d = .ok c) ∨ PrepConfig.make d = .error .valueError := by
  unfold PrepConfig.make
  have hl' : ¬ (d.length ≠ PrepParam.all.length) := by simp [PrepParam.all, h]
  have hcv : ∀ ps, checkValues d ps = .ok () ∨ checkValues d ps = .error .valueError := by
    intro ps
    induction ps with
    | nil => exact .inl rfl
    | cons p r ih =>
      unfold checkValues paramOf
      cases hg : d.get? p with
      | none => exact absurd (hk p) (Dict.get?_eq_none.mp hg)
      | some v =>
        simp only [bind, Except.bind]
        split
        · exact ih
        · exact .inr rfl
  have hp : ∀ p, ∃ v, paramOf d p = .ok v := by
    intro p
    unfold paramOf
    cases hg : d.get? p with
    | none => exact absurd (hk p) (Dict.get?_eq_none.mp hg)
    | some v => exact ⟨v, rfl⟩
  simp only [hl', if_false, bind, Except.bind]
  rcases hcv PrepParam.all with h1 | h1 <;> rw [h1]
  · simp only
    obtain ⟨v1, g1⟩ := hp .enOnly
    obtain ⟨v2, g2⟩ := hp .com
    obtain ⟨v3, g3⟩ := hp .str
    obtain ⟨v4, g4⟩ := hp .split
    obtain ⟨v5, g5⟩ := hp .tabsNewlines
    obtain ⟨v6, g6⟩ := hp .case
    simp only [g1, g2, g3, g4, g5, g6]
    by_cases ha : v6 = ['l'] ∧ v4 ∈ [['0'], ['F']]
    · rw [if_pos ha]; exact .inr rfl
    · rw [if_neg ha]
      by_cases hb : v6 = ['l'] ∧ v4 ∈ [['4'], ['5'], ['6'], ['7'], ['9']]
      · rw [if_pos hb]; exact .inr rfl
      · rw [if_neg hb]; exact .inl ⟨_, rfl⟩
  · exact .inr rfl

theorem paramDict_six (a b c d e f : Char) : paramDict [a, b, c, d, e, f] =
    [(.enOnly, [a]), (.com, [b]), (.str, [c]), (.split, [d]), (.tabsNewlines, [e]), (.case, [f])] := by
  simp [paramDict, PrepParam.all, Dict.set]

theorem mem_possibleStr (c : Char) : [c] ∈ possibleStrValues ↔ (asciiDigit c ∨ asciiUpper c ∨ asciiLower c) := by
  unfold possibleStrValues
  simp only [List.mem_map, List.mem_append, List.mem_range, List.cons.injEq, and_true]
  have hof : ∀ n, n < 128 → (Char.ofNat n).toNat = n := by
    intro n hn
    have hv : Nat.isValidChar n := by unfold Nat.isValidChar; omega
    rw [Char.ofNat, dif_pos hv]; rfl
  have hback : Char.ofNat c.toNat = c := Char.ofNat_toNat c
  unfold asciiDigit asciiUpper asciiLower
  simp only [Bool.and_eq_true, decide_eq_true_eq]
  constructor
  · rintro ⟨n, h, rfl⟩
    rcases h with (⟨k, hk, rfl⟩ | ⟨k, hk, rfl⟩) | ⟨k, hk, rfl⟩ <;> rw [hof _ (by omega)] <;> omega
  · intro h
    refine ⟨c.toNat, ?_, hback⟩
    rcases h with h | h | h
    · exact .inl (.inl ⟨c.toNat - 48, by omega, by omega⟩)
    · exact .inl (.inr ⟨c.toNat - 65, by omega, by omega⟩)
    · exact .inr ⟨c.toNat - 97, by omega, by omega⟩

/-- The record with one-character values is valid exactly for valid codes. -/
theorem valid_iff_code (a b c d e f : Char) :
    (PrepConfig.mk [a] [b] [c] [d] [e] [f]).Valid ↔ ValidCode [a, b, c, d, e, f] := by
  constructor
  · rintro ⟨h1, h2, h3, h4, h5, h6, h7⟩
    refine ⟨a, b, c, d, e, f, rfl, ?_, ?_, ?_, ?_, ?_, ?_⟩
    · simpa [possibleParamValues] using h1
    · simpa [possibleParamValues] using h2
    · exact (mem_possibleStr c).mp h3
    · simpa [possibleParamValues] using h4
    · simpa [possibleParamValues] using h5
    · simp [possibleParamValues] at h6 h4 h7 ⊢
      rcases h6 with h6 | h6
      · exact .inl h6
      · refine .inr ⟨h6, ?_⟩
        have := h7 h6
        simp_all
  · rintro ⟨a', b', c', d', e', f', he, h1, h2, h3, h4, h5, h6⟩
    simp only [List.cons.injEq, and_true] at he
    obtain ⟨rfl, rfl, rfl, rfl, rfl, rfl⟩ := he
    refine ⟨by simpa [possibleParamValues] using h1, by simpa [possibleParamValues] using h2, (mem_possibleStr _).mpr h3,
      by simpa [possibleParamValues] using h4, by simpa [possibleParamValues] using h5, ?_, ?_⟩
    · simp [possibleParamValues]
      rcases h6 with h6 | h6
      · exact .inl h6
      · exact .inr h6.1
    · intro hl
      simp at hl h6 ⊢
      rcases h6 with h6 | h6
      · rw [hl] at h6; exact absurd h6 (by decide)
      · rcases h6.2 with h | h | h | h | h <;> subst h <;> decide

/-- A possible value is one character. -/
theorem possible_single {p : PrepParam} {v : Str} (h : v ∈ possibleParamValues p) : ∃ x, v = [x] := by
  cases p <;> simp only [possibleParamValues, List.mem_cons, List.not_mem_nil, or_false] at h
  case str =>
    simp only [possibleStrValues, List.mem_map] at h
    obtain ⟨n, -, rfl⟩ := h
    exact ⟨_, rfl⟩
  all_goals first
    | (rcases h with rfl | rfl <;> exact ⟨_, rfl⟩)
    | (rcases h with rfl | rfl | rfl | rfl | rfl | rfl | rfl | rfl | rfl | rfl | rfl | rfl <;> exact ⟨_, rfl⟩)

theorem fromEncoded_ok_iff (s : Str) (c : PrepConfig) :
    PrepConfig.fromEncoded s = .ok c ↔ c.Valid ∧ s = c.toStr := by
  unfold PrepConfig.fromEncoded
  constructor
  · intro h
    split at h
    · cases h
    · rename_i hl
      have hl : s.length = 6 := by simpa [PrepParam.all] using hl
      match s, hl with
      | [a, b, c', d, e, f], _ =>
        rw [make_ok_iff, paramDict_six] at h
        refine ⟨h.2.2, ?_⟩
        have g := h.2.1
        have g1 := g .enOnly; have g2 := g .com; have g3 := g .str; have g4 := g .split
        have g5 := g .tabsNewlines; have g6 := g .case
        simp [Dict.get?, PrepConfig.get] at g1 g2 g3 g4 g5 g6
        simp [PrepConfig.toStr, PrepParam.all, PrepConfig.get, concat, ← g1, ← g2, ← g3, ← g4, ← g5, ← g6]
  · rintro ⟨hv, rfl⟩
    obtain ⟨a, h1⟩ := possible_single hv.enOnly
    obtain ⟨b, h2⟩ := possible_single hv.com
    obtain ⟨c', h3⟩ := possible_single hv.str
    obtain ⟨d, h4⟩ := possible_single hv.split
    obtain ⟨e, h5⟩ := possible_single hv.tabs
    obtain ⟨f, h6⟩ := possible_single hv.case
    have hs : c.toStr = [a, b, c', d, e, f] := by
      simp [PrepConfig.toStr, PrepParam.all, PrepConfig.get, concat, h1, h2, h3, h4, h5, h6]
    rw [hs, if_neg (by simp [PrepParam.all]), make_ok_iff, paramDict_six]
    refine ⟨rfl, fun p => ?_, hv⟩
    cases p <;> simp [Dict.get?, PrepConfig.get, *]

end Verif
