import Verif.Proofs.Registry
import Verif.Spec.Registry
/-!
# Names of datasets as patterns, numbers at the end of identifiers
-/
namespace Verif
open Spec

theorem special_iff' (c : Char) : special c = false ↔ c ∉ "\\^$*+?{}[]|()".toList := by
  unfold special
  rw [decide_eq_false_iff_not]
  exact Iff.rfl

/-- What a character of a pattern stands for. -/
def fits (c : Char) : Char → Bool := if c = '.' then (· ≠ '\n') else (· == c)

theorem atomRe_eq (c : Char) : atomRe c = .cls (fits c) := by
  unfold atomRe fits
  split <;> rfl

theorem fits_iff (c d : Char) : fits c d = true ↔ Fits c d := by
  unfold fits Fits
  split <;> simp

theorem not_reads {c : Char} {r s : Str} (hc : c ∈ "\\^$*+?{}[]|()".toList) : ¬ Reads (c :: r) s := by
  intro h
  cases h <;> contradiction

theorem reads_cons {c : Char} {r s : Str} (hc : c ∉ "\\^$*+?{}[]|()".toList) (hr : ∀ d ∈ r.head?, d ≠ '+' ∧ d ≠ '*' ∧ d ≠ '?') :
    Reads (c :: r) s ↔ ∃ d t, s = d :: t ∧ Fits c d ∧ Reads r t := by
  constructor
  · intro h
    cases h with
    | one hc h hr => exact ⟨_, _, rfl, h, hr⟩
    | plus => exact absurd rfl (hr _ rfl).1
    | star => exact absurd rfl (hr _ rfl).2.1
    | opt => exact absurd rfl (hr _ rfl).2.2
  · rintro ⟨d, t, rfl, h, h'⟩
    exact .one hc h h'

theorem reads_plus {c : Char} {r s : Str} (hc : c ∉ "\\^$*+?{}[]|()".toList) :
    Reads (c :: '+' :: r) s ↔ ∃ x y, s = x ++ y ∧ (x ≠ [] ∧ ∀ d ∈ x, Fits c d) ∧ Reads r y := by
  constructor
  · intro h
    cases h with
    | one _ _ h => exact absurd h (not_reads (by decide))
    | plus _ hd h hr => exact ⟨_, _, rfl, ⟨hd, h⟩, hr⟩
  · rintro ⟨x, y, rfl, ⟨h1, h2⟩, h3⟩
    exact .plus hc h1 h2 h3

theorem reads_star {c : Char} {r s : Str} (hc : c ∉ "\\^$*+?{}[]|()".toList) :
    Reads (c :: '*' :: r) s ↔ ∃ x y, s = x ++ y ∧ (∀ d ∈ x, Fits c d) ∧ Reads r y := by
  constructor
  · intro h
    cases h with
    | one _ _ h => exact absurd h (not_reads (by decide))
    | star _ h hr => exact ⟨_, _, rfl, h, hr⟩
  · rintro ⟨x, y, rfl, h2, h3⟩
    exact .star hc h2 h3

theorem reads_opt {c : Char} {r s : Str} (hc : c ∉ "\\^$*+?{}[]|()".toList) :
    Reads (c :: '?' :: r) s ↔ ∃ x y, s = x ++ y ∧ (x.length ≤ 1 ∧ ∀ d ∈ x, Fits c d) ∧ Reads r y := by
  constructor
  · intro h
    cases h with
    | one _ _ h => exact absurd h (not_reads (by decide))
    | opt _ hd h hr => exact ⟨_, _, rfl, ⟨hd, h⟩, hr⟩
  · rintro ⟨x, y, rfl, ⟨h1, h2⟩, h3⟩
    exact .opt hc h1 h2 h3

theorem matches_opt_cls {p : Char → Bool} {s : Str} : Matches (Re.opt (.cls p)) s ↔ s.length ≤ 1 ∧ ∀ c ∈ s, p c = true := by
  rw [matches_opt, matches_cls]
  constructor
  · rintro (rfl | ⟨c, rfl, h⟩)
    · simp
    · simpa using h
  · rintro ⟨h1, h2⟩
    match s, h1, h2 with
    | [], _, _ => exact .inl rfl
    | [c], _, h2 => exact .inr ⟨c, rfl, h2 c (by simp)⟩

/-- The pattern that was read describes what it should. -/
theorem idReLoop_reads (r : Str) :
    (∀ re, idReLoop none r = some re → ∀ s, Matches re s ↔ Reads r s) ∧
    ∀ c, c ∉ "\\^$*+?{}[]|()".toList → ∀ re, idReLoop (some (atomRe c)) r = some re → ∀ s, Matches re s ↔ Reads (c :: r) s := by
  induction r with
  | nil =>
    refine ⟨?_, ?_⟩
    · intro re h s
      simp only [idReLoop, Option.getD_none, Option.some.injEq] at h
      subst h
      rw [matches_eps]
      constructor
      · rintro rfl; exact .nil
      · intro h; cases h; rfl
    · intro c hc re h s
      simp only [idReLoop, Option.getD_some, Option.some.injEq] at h
      subst h
      rw [atomRe_eq, matches_cls, reads_cons hc (by simp)]
      constructor
      · rintro ⟨d, rfl, h⟩; exact ⟨d, [], rfl, (fits_iff _ _).mp h, .nil⟩
      · rintro ⟨d, t, rfl, h, h'⟩; cases h'; exact ⟨d, rfl, (fits_iff _ _).mpr h⟩
  | cons d r ih =>
    obtain ⟨ih1, ih2⟩ := ih
    refine ⟨?_, ?_⟩
    · intro re h s
      unfold idReLoop at h
      split at h
      · cases h
      · split at h
        · cases h
        · split at h
          · cases h
          · split at h
            · cases h
            · next hs =>
              simp only [Option.map_id_fun', id] at h
              exact ih2 d ((special_iff' d).mp (by simpa using hs)) re h s
    · intro c hc re h s
      unfold idReLoop at h
      split at h
      · next e =>
        subst e
        simp only [Option.bind_some, Option.map_eq_some_iff] at h
        obtain ⟨p, hp, rfl⟩ := h
        rw [reads_plus hc, matches_seq]
        simp only [ih1 p hp, atomRe_eq, matches_plus_cls, fits_iff]
      · split at h
        · next e =>
          subst e
          simp only [Option.bind_some, Option.map_eq_some_iff] at h
          obtain ⟨p, hp, rfl⟩ := h
          rw [reads_star hc, matches_seq]
          simp only [ih1 p hp, atomRe_eq, matches_star_cls, fits_iff]
        · split at h
          · next e =>
            subst e
            simp only [Option.bind_some, Option.map_eq_some_iff] at h
            obtain ⟨p, hp, rfl⟩ := h
            rw [reads_opt hc, matches_seq]
            simp only [ih1 p hp, atomRe_eq, matches_opt_cls, fits_iff]
          · split at h
            · cases h
            · next h1 h2 h3 hs =>
              simp only [Option.map_eq_some_iff] at h
              obtain ⟨p, hp, rfl⟩ := h
              rw [reads_cons hc (by simp; exact ⟨h1, h2, h3⟩), matches_seq]
              simp only [ih2 d ((special_iff' d).mp (by simpa using hs)) p hp, atomRe_eq, matches_cls, fits_iff]
              constructor
              · rintro ⟨x, y, rfl, ⟨e, rfl, h⟩, h'⟩; exact ⟨e, y, rfl, h, h'⟩
              · rintro ⟨e, t, rfl, h, h'⟩; exact ⟨[e], t, rfl, ⟨e, rfl, h⟩, h'⟩

theorem idRe_reads {base : Str} {re : Re} (h : idRe base = some re) (s : Str) : re.fullmatch s = true ↔ Reads base s := by
  rw [fullmatch_iff]
  exact (idReLoop_reads base).1 re h s

/-- If the pattern is not accepted, it describes nothing. -/
theorem idReLoop_none (r : Str) :
    (idReLoop none r = none → ∀ s, ¬ Reads r s) ∧ ∀ c, c ∉ "\\^$*+?{}[]|()".toList → idReLoop (some (atomRe c)) r = none → ∀ s, ¬ Reads (c :: r) s := by
  induction r with
  | nil => exact ⟨(fun h => by cases h), fun c _ h => by cases h⟩
  | cons d r ih =>
    obtain ⟨ih1, ih2⟩ := ih
    refine ⟨?_, ?_⟩
    · intro h s
      by_cases hd : d ∈ "\\^$*+?{}[]|()".toList
      · exact not_reads hd
      · have hs := (special_iff' d).mpr hd
        have h1 : d ≠ '+' := by rintro rfl; revert hs; decide
        have h2 : d ≠ '*' := by rintro rfl; revert hs; decide
        have h3 : d ≠ '?' := by rintro rfl; revert hs; decide
        unfold idReLoop at h
        rw [if_neg h1, if_neg h2, if_neg h3, if_neg (by rw [hs]; decide)] at h
        simp only [Option.map_id_fun', id] at h
        exact ih2 d hd h s
    · intro c hc h s
      unfold idReLoop at h
      split at h
      · next e =>
        subst e
        simp only [Option.bind_some, Option.map_eq_none_iff] at h
        rw [reads_plus hc]
        rintro ⟨x, y, _, _, hr⟩
        exact ih1 h y hr
      · split at h
        · next e =>
          subst e
          simp only [Option.bind_some, Option.map_eq_none_iff] at h
          rw [reads_star hc]
          rintro ⟨x, y, _, _, hr⟩
          exact ih1 h y hr
        · split at h
          · next e =>
            subst e
            simp only [Option.bind_some, Option.map_eq_none_iff] at h
            rw [reads_opt hc]
            rintro ⟨x, y, _, _, hr⟩
            exact ih1 h y hr
          · next h1 h2 h3 =>
            rw [reads_cons hc (by simp; exact ⟨h1, h2, h3⟩)]
            rintro ⟨_, t, _, _, hr⟩
            split at h
            · next hs =>
              exact not_reads (by
                have : ¬ (special d = false) := by rw [hs]; decide
                rw [special_iff'] at this
                exact Decidable.not_not.mp this) hr
            · next hs =>
              simp only [Option.map_eq_none_iff] at h
              exact ih2 d ((special_iff' d).mp (by simpa using hs)) h t hr

/-! ## Numbers -/

theorem digitsVal_zeros (k : Nat) (s : Str) : digitsVal (List.replicate k '0' ++ s) = digitsVal s := by
  unfold digitsVal
  rw [List.foldl_append]
  congr 1
  induction k with
  | zero => rfl
  | succ k ih => rw [List.replicate_succ, List.foldl_cons]; exact ih

theorem numeral_val {ds : Str} {n : Nat} (h : Numeral ds n) : ds ≠ [] ∧ ds.all asciiDigit = true ∧ digitsVal ds = n := by
  obtain ⟨k, rfl⟩ := h
  refine ⟨?_, ?_, by rw [digitsVal_zeros, digitsVal_natStr]⟩
  · simp [natStr_ne_nil]
  · rw [List.all_append, natStr_all_digits, Bool.and_true, List.all_eq_true]
    intro c hc
    rw [(List.mem_replicate.mp hc).2]
    decide

theorem numeral_of {ds : Str} (h : ds ≠ []) (hd : ds.all asciiDigit = true) : Numeral ds (digitsVal ds) := by
  induction ds with
  | nil => exact absurd rfl h
  | cons d r ih =>
    rw [List.all_cons, Bool.and_eq_true] at hd
    by_cases h0 : d = '0'
    · subst h0
      cases r with
      | nil => exact ⟨0, rfl⟩
      | cons e r =>
        obtain ⟨k, hk⟩ := ih (by simp) hd.2
        refine ⟨k + 1, ?_⟩
        have e2 : digitsVal ('0' :: e :: r) = digitsVal (e :: r) := digitsVal_zeros 1 _
        rw [e2, List.replicate_succ, List.cons_append, ← hk]
    · have hd1 := hd.1
      unfold asciiDigit at hd1
      simp at hd1
      have h49 : 49 ≤ d.toNat := by
        rcases Nat.lt_or_ge d.toNat 49 with hlt | hge
        · exfalso
          apply h0
          apply Char.ext
          apply UInt32.toNat_inj.mp
          have : d.toNat = 48 := by omega
          exact this
        · exact hge
      exact ⟨0, by rw [(natStr_digitsVal ⟨h49, hd1.2⟩ r hd.2).1]; rfl⟩

theorem foldl_max_mem (l : List Nat) : ∀ a, l.foldl max a = a ∨ l.foldl max a ∈ l := by
  induction l with
  | nil => intro a; exact .inl rfl
  | cons y l ih =>
    intro a
    rw [List.foldl_cons]
    rcases ih (max a y) with h | h
    · rw [h]
      rcases Nat.le_total a y with h' | h'
      · rw [Nat.max_eq_right h']; exact .inr List.mem_cons_self
      · rw [Nat.max_eq_left h']; exact .inl rfl
    · exact .inr (List.mem_cons_of_mem _ h)

theorem extractNumber_pos {re : Re} {full : Str} {n : Nat} (h : extractNumber re full = n) (hn : n ≠ 0) :
    ∃ x ds, full = x ++ '_' :: ds ∧ re.fullmatch x = true ∧ Numeral ds n := by
  unfold extractNumber at h
  split at h
  · exact absurd h.symm hn
  · next p ds hr =>
    split at h
    · next hc => exact ⟨p, ds, (rsplitOnce_some hr).1, hc.2.2, h ▸ numeral_of hc.1 hc.2.1⟩
    · exact absurd h.symm hn

theorem extractNumber_of {re : Re} {x ds : Str} {n : Nat} (h : re.fullmatch x = true) (hd : Numeral ds n) :
    extractNumber re (x ++ '_' :: ds) = n := by
  obtain ⟨h1, h2, h3⟩ := numeral_val hd
  unfold extractNumber
  have hno : '_' ∉ ds := by
    intro hm
    have := List.all_eq_true.mp h2 _ hm
    revert this; decide
  rw [rsplitOnce_append _ _ hno]
  simp only
  rw [if_pos ⟨h1, h2, h⟩, h3]

end Verif
