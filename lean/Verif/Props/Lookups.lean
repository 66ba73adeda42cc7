import Verif.Spec.Lookups
import Verif.Props.BpeEncode
/-!
# C04: what the look-ups of a cached word give, one after another
-/
namespace Verif.Props
open Verif Spec

/-- The escaped form of a text. -/
def esc (s : Str) : Str := (s.map unitOf).flatten

theorem undouble_esc (x y : Str) : undoubleEsc (esc x ++ y) = x ++ undoubleEsc y := by
  induction x with
  | nil => rfl
  | cons c x ih =>
    have : esc (c :: x) ++ y = unitOf c ++ (esc x ++ y) := by simp [esc]
    rw [this, undouble_append_unit, ih]
    rfl

theorem undouble_replicate (m : Nat) : undoubleEsc (List.replicate m '@') = List.replicate ((m + 1) / 2) '@' := by
  suffices h : ∀ n m, m ≤ n → undoubleEsc (List.replicate m '@') = List.replicate ((m + 1) / 2) '@' from h m m (Nat.le_refl _)
  intro n
  induction n with
  | zero => intro m h; obtain rfl := Nat.le_zero.1 h; rfl
  | succ n ih =>
    intro m h
    match m with
    | 0 => rfl
    | 1 => rfl
    | m + 2 =>
      rw [List.replicate_succ, List.replicate_succ, undoubleEsc, if_pos ⟨rfl, rfl⟩, ih m (by omega)]
      rw [show (m + 2 + 1) / 2 = (m + 1) / 2 + 1 by omega, List.replicate_succ]
      rfl

theorem unescape_run (P : List Str) (x : Str) (m : Nat) :
    unescape (P.map esc ++ [esc x ++ List.replicate (m + 1) '@']) =
      .ok (P ++ [x ++ List.replicate ((m + 1) / 2) '@'], P.map esc ++ [esc x ++ List.replicate m '@']) := by
  have h1 : (esc x ++ List.replicate (m + 1) '@').getLast? = some '@' := by
    rw [List.replicate_succ', ← List.append_assoc, List.getLast?_concat]
  have h2 : (esc x ++ List.replicate (m + 1) '@').dropLast = esc x ++ List.replicate m '@' := by
    rw [List.replicate_succ', ← List.append_assoc, List.dropLast_concat]
  unfold unescape
  rw [List.getLast?_concat]
  simp only [h1, h2, List.dropLast_concat]
  rw [if_neg (by simp [escChar]), List.map_append, List.map_singleton, undouble_esc, undouble_replicate, List.map_map]
  congr 2
  rw [List.map_congr_left (g := id), List.map_id]
  intro s _
  exact undouble_units s

theorem unescape_end (P : List Str) (x : Str) (hx : x.getLast? ≠ some '@') :
    unescape (P.map esc ++ [esc x]) = .error (if x = [] then .indexError else .valueError) := by
  unfold unescape
  rw [List.getLast?_concat]
  cases h : x.getLast? with
  | none =>
    obtain rfl := List.getLast?_eq_none_iff.1 h
    rfl
  | some c =>
    obtain ⟨y, rfl⟩ := List.getLast?_eq_some_iff.1 h
    have hc : c ≠ '@' := by rintro rfl; exact hx h
    have hu : unitOf c = [c] := by simp [unitOf, escChar, hc]
    have : (esc (y ++ [c])).getLast? = some c := by simp [esc, hu]
    simp only [this]
    rw [if_pos (by simpa [escChar] using hc), if_neg (by simp)]

theorem lookups_run (w : Str) (P : List Str) (x : Str) (hx : x.getLast? ≠ some '@') : ∀ (k m : Nat) (d : BpeData),
    d.cache.get? (escape w true) = some (P.map esc ++ [esc x ++ List.replicate m '@']) →
    (k ≤ m → ∃ d', lookups w k d = .ok ((List.range k).map (fun i => P ++ [x ++ List.replicate ((m - i) / 2) '@']), d')) ∧
      (m < k → lookups w k d = .error (if x = [] then .indexError else .valueError))
  | 0, m, d, _ => ⟨fun _ => ⟨d, rfl⟩, fun h => absurd h (by omega)⟩
  | k + 1, 0, d, h => by
    refine ⟨fun h => absurd h (by omega), fun _ => ?_⟩
    rw [List.replicate_zero, List.append_nil] at h
    rw [lookups]
    simp only [getBpeSubwordsSt, h, unescape_end P x hx, bind, Except.bind]
  | k + 1, m + 1, d, h => by
    have hst : getBpeSubwordsSt w d = .ok (P ++ [x ++ List.replicate ((m + 1) / 2) '@'],
        { d with cache := d.cache.set (escape w true) (P.map esc ++ [esc x ++ List.replicate m '@']) }) := by
      simp only [getBpeSubwordsSt, h, unescape_run, bind, Except.bind]
    obtain ⟨ih1, ih2⟩ := lookups_run w P x hx k m
      { d with cache := d.cache.set (escape w true) (P.map esc ++ [esc x ++ List.replicate m '@']) } (by simp [Dict.get?_set])
    rw [lookups, hst]
    constructor
    · intro hk
      obtain ⟨d', h'⟩ := ih1 (by omega)
      refine ⟨d', ?_⟩
      simp only [h']
      rw [List.range_succ_eq_map, List.map_cons, List.map_map]
      congr 3
      apply List.map_congr_left
      intro i _
      simp only [Function.comp, Nat.succ_eq_add_one, Nat.add_sub_add_right]
    · intro hk
      simp only [ih2 (by omega)]

theorem split_run (s : Str) : ∃ x j, s = x ++ List.replicate j '@' ∧ x.getLast? ≠ some '@' := by
  suffices h : ∀ n (s : Str), s.length ≤ n → ∃ x j, s = x ++ List.replicate j '@' ∧ x.getLast? ≠ some '@' from h _ s (Nat.le_refl _)
  intro n
  induction n with
  | zero =>
    intro s h
    cases List.length_eq_zero_iff.mp (Nat.le_zero.mp h)
    exact ⟨[], 0, rfl, by simp⟩
  | succ n ih =>
    intro s h
    by_cases hs : s.getLast? = some '@'
    · obtain ⟨y, rfl⟩ := List.getLast?_eq_some_iff.1 hs
      obtain ⟨x, j, rfl, hx⟩ := ih y (by simp at h; omega)
      exact ⟨x, j + 1, by rw [List.replicate_succ', List.append_assoc], hx⟩
    · exact ⟨s, 0, by simp, hs⟩

theorem esc_replicate (j : Nat) : esc (List.replicate j '@') = List.replicate (2 * j) '@' := by
  induction j with
  | zero => rfl
  | succ j ih =>
    have : esc (List.replicate (j + 1) '@') = unitOf '@' ++ esc (List.replicate j '@') := by simp [esc, List.replicate_succ]
    rw [this, ih, show 2 * (j + 1) = 2 * j + 1 + 1 by omega, List.replicate_succ, List.replicate_succ]
    rfl

/-- **C04** What is returned for a word whose split is in the cache, one look-up after another.  Let the last subword of its split end with exactly `j`
characters `@`.  Then `2 * j + 1` look-ups succeed; look-up number `i` (counted from 0) returns the split with `i / 2` of these characters missing.
The next look-up raises an exception. -/
theorem C04_times (w : Str) (d : BpeData) (entry : List Str) (hc : d.cache.get? (escape w true) = some entry)
    (hsplit : Coarsens entry (initialSymbols w)) :
    ∃ parts x j, (parts ++ [x ++ List.replicate j '@']).flatten = w ∧ x.getLast? ≠ some '@' ∧
      ∀ k, (k ≤ 2 * j + 1 → ∃ d', lookups w k d = .ok ((List.range k).map fun i => parts ++ [x ++ List.replicate (j - i / 2) '@'], d')) ∧
        (2 * j + 1 < k → lookups w k d = .error (if x = [] then .indexError else .valueError)) := by
  obtain ⟨v, md, hu, hf, hl, hne, hmd⟩ := unescape_coarse (w := w) hsplit
  have he0 : entry ≠ [] := Spec.Coarsens.ne_nil hsplit (by simp [initialSymbols])
  have hv0 : v ≠ [] := by
    intro e; subst e; simp at hl
    exact he0 (List.length_eq_zero_iff.1 hl.symm)
  obtain ⟨P, y, rfl⟩ : ∃ vi vl, v = vi ++ [vl] := ⟨v.dropLast, v.getLast hv0, (List.dropLast_concat_getLast hv0).symm⟩
  obtain ⟨x, j, rfl, hx⟩ := split_run y
  have hentry : entry = P.map esc ++ [esc x ++ List.replicate (2 * j + 1) '@'] := by
    unfold unescape at hu
    split at hu
    · cases hu
    · rename_i l hl'
      split at hu
      · cases hu
      · rename_i c hcl
        split at hu
        · cases hu
        · rename_i hce
          have hce : c = '@' := Classical.not_not.1 hce
          have h2 := (Prod.mk.inj (Except.ok.inj hu)).2
          rw [hmd, List.map_append, List.map_singleton] at h2
          obtain ⟨hp, hq⟩ := List.append_inj' h2 rfl
          obtain ⟨e', rfl⟩ := List.getLast?_eq_some_iff.1 hl'
          obtain ⟨l', rfl⟩ := List.getLast?_eq_some_iff.1 hcl
          rw [List.dropLast_concat] at hp hq
          have hq' : l' = ((x ++ List.replicate j '@').map unitOf).flatten := by simpa using hq
          rw [hp, hq', hce]
          have : ((x ++ List.replicate j '@').map unitOf).flatten = esc x ++ List.replicate (2 * j) '@' := by
            rw [← esc_replicate]
            simp [esc]
          rw [this, List.append_assoc, ← List.replicate_succ']
          rfl
  refine ⟨P, x, j, hf, hx, fun k => ?_⟩
  rw [hentry] at hc
  obtain ⟨h1, h2⟩ := lookups_run w P x hx k (2 * j + 1) d hc
  refine ⟨fun hk => ?_, h2⟩
  obtain ⟨d', h'⟩ := h1 hk
  refine ⟨d', ?_⟩
  rw [h']
  congr 2
  apply List.map_congr_left
  intro i hi
  have := List.mem_range.1 hi
  rw [show (2 * j + 1 - i) / 2 = j - i / 2 by omega]

/-- **C04** So only the first look-up is right in general; the second one is right exactly for words whose last subword ends with `@`, and the third
one is never right. -/
theorem C04_right (w : Str) (d : BpeData) (entry : List Str) (hc : d.cache.get? (escape w true) = some entry)
    (hsplit : Coarsens entry (initialSymbols w)) :
    ∃ r d₁, getBpeSubwordsSt w d = .ok (r, d₁) ∧ r.flatten = w ∧
      ((∃ d₂, getBpeSubwordsSt w d₁ = .ok (r, d₂)) ↔ ∃ s, r.getLast? = some s ∧ s.getLast? = some '@') ∧
      ∀ d₂ d₃ r' r'', getBpeSubwordsSt w d₁ = .ok (r', d₂) → getBpeSubwordsSt w d₂ = .ok (r'', d₃) → r'' ≠ r := by
  obtain ⟨P, x, j, hf, hx, h⟩ := C04_times w d entry hc hsplit
  have one : ∀ k rs d', lookups w (k + 1) d = .ok (rs, d') → ∃ r d₁ rs', getBpeSubwordsSt w d = .ok (r, d₁) ∧ lookups w k d₁ = .ok (rs', d') ∧ rs = r :: rs' := by
    intro k rs d' hk
    rw [lookups] at hk
    split at hk
    · cases hk
    · rename_i r d₁ h1
      split at hk
      · cases hk
      · rename_i rs' d'' h2
        cases hk
        exact ⟨r, d₁, rs', h1, h2, rfl⟩
  obtain ⟨d', h1⟩ := (h 1).1 (by omega)
  obtain ⟨r, d₁, rs', g1, g2, g3⟩ := one 0 _ _ h1
  have hr : r = P ++ [x ++ List.replicate j '@'] := by
    simp only [List.range_one, List.map_cons, List.map_nil, List.cons.injEq] at g3
    simpa using g3.1.symm
  refine ⟨r, d₁, g1, by rw [hr]; exact hf, ?_, ?_⟩
  · constructor
    · rintro ⟨d₂, g⟩
      rcases Nat.eq_zero_or_pos j with rfl | hj
      · have := (h 2).2 (by omega)
        rw [lookups, g1] at this
        simp only [lookups, g] at this
        cases this
      · refine ⟨x ++ List.replicate j '@', by rw [hr, List.getLast?_concat], ?_⟩
        obtain ⟨i, rfl⟩ : ∃ i, j = i + 1 := ⟨j - 1, by omega⟩
        rw [List.replicate_succ', ← List.append_assoc, List.getLast?_concat]
    · rintro ⟨s, hs1, hs2⟩
      rw [hr, List.getLast?_concat] at hs1
      obtain rfl := Option.some.inj hs1
      rcases Nat.eq_zero_or_pos j with rfl | hj
      · simp at hs2
        exact absurd hs2 hx
      · obtain ⟨d'', h2⟩ := (h 2).1 (by omega)
        rw [lookups, g1] at h2
        cases hg : getBpeSubwordsSt w d₁ with
        | error e => simp only [lookups, hg] at h2; cases h2
        | ok z =>
          simp only [lookups, hg] at h2
          have := (List.cons.inj (List.cons.inj (Prod.mk.inj (Except.ok.inj h2)).1).2).1
          refine ⟨z.2, ?_⟩
          have hz : z.1 = r := by rw [hr, this]; simp
          rw [← hz]
  · intro d₂ d₃ r' r'' ga gb e
    rcases Nat.lt_or_ge (2 * j + 1) 3 with hj | hj
    · have := (h 3).2 hj
      rw [lookups, g1] at this
      simp only [lookups, ga, gb] at this
      cases this
    · obtain ⟨d'', h3⟩ := (h 3).1 hj
      rw [lookups, g1] at h3
      simp only [lookups, ga, gb] at h3
      have := (List.cons.inj (List.cons.inj (List.cons.inj (Prod.mk.inj (Except.ok.inj h3)).1).2).2).1
      rw [e, hr] at this
      have h4 := (List.append_inj' this rfl).2
      have h5 := congrArg List.length (List.cons.inj h4).1
      simp at h5
      omega

/-! ## Examples -/

/-- Non-vacuity: the word `a@` with the split `a`, `@`; three look-ups succeed, the third one is wrong. -/
example : Coarsens ["a".toList, "@@@".toList] (initialSymbols "a@".toList) := ⟨[["a".toList], ["@@".toList, "@".toList]], by decide, by decide, by decide⟩
example : (lookups "a@".toList 3 ⟨[("a@@@".toList, ["a".toList, "@@@".toList])], []⟩).map (·.1) =
    .ok [["a".toList, "@".toList], ["a".toList, "@".toList], ["a".toList, []]] := by decide +kernel
example : (lookups "a@".toList 4 ⟨[("a@@@".toList, ["a".toList, "@@@".toList])], []⟩).map (·.1) = .error .indexError := by decide +kernel
example : (lookups "ab".toList 2 ⟨[("ab@".toList, ["ab@".toList])], []⟩).map (·.1) = .error .valueError := by decide +kernel

end Verif.Props
