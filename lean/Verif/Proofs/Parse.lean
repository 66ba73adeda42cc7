import Verif.Model.Parse
import Verif.Spec.Parse
import Verif.Proofs.Str
import Verif.Proofs.Units
/-!
# Proofs about splitting texts and identifiers
-/
namespace Verif
open Spec

/-! ## takeWhile -/

theorem takeWhile_append_stop {p : Char → Bool} {a b : Str} (ha : ∀ c ∈ a, p c = true) (hb : NotStarting p b) :
    (a ++ b).takeWhile p = a := by
  induction a with
  | nil =>
    cases b with
    | nil => rfl
    | cons c r => simp [hb c rfl]
  | cons c a ih =>
    simp only [List.cons_append, List.takeWhile_cons, ha c (by simp), if_true]
    rw [ih (fun c hc => ha c (by simp [hc]))]

theorem takeWhile_all {p : Char → Bool} (s : Str) : ∀ c ∈ s.takeWhile p, p c = true := by
  intro c hc
  induction s with
  | nil => simp at hc
  | cons d s ih =>
    rw [List.takeWhile_cons] at hc
    by_cases hd : p d = true
    · rw [if_pos hd] at hc
      simp only [List.mem_cons] at hc
      rcases hc with rfl | hc
      · exact hd
      · exact ih hc
    · rw [if_neg hd] at hc
      simp at hc

theorem dropWhile_notStarting (p : Char → Bool) (s : Str) : NotStarting p (s.dropWhile p) := by
  induction s with
  | nil => intro c hc; simp at hc
  | cons d s ih =>
    rw [List.dropWhile_cons]
    by_cases hd : p d = true
    · rw [if_pos hd]; exact ih
    · rw [if_neg hd]
      intro c hc
      simp at hc
      subst hc
      simpa using hd

theorem startsWithClass_false {p : Char → Bool} {s : Str} (h : NotStarting p s) : startsWithClass p s = false := by
  cases s with
  | nil => rfl
  | cons c r => exact h c rfl

theorem notStarting_of_false {p : Char → Bool} {s : Str} (h : startsWithClass p s = false) : NotStarting p s := by
  cases s with
  | nil => intro c hc; simp at hc
  | cons d r => intro c hc; simp at hc; subst hc; exact h

theorem startsWithClass_append {p : Char → Bool} {a b : Str} (ha : a ≠ []) (h : ∀ c ∈ a, p c = true) :
    startsWithClass p (a ++ b) = true := by
  cases a with
  | nil => exact absurd rfl ha
  | cons c r => exact h c (by simp)

/-! ## finditer -/

/-- One step of `finditer` whose match is the prefix `a`. -/
theorem finditer_match {m : Str → Option Nat} {a b : Str} {ps : List Str} {n : Nat} (ha : a ≠ [])
    (hm : m (a ++ b) = some a.length) (hn : (a ++ b).length ≤ n)
    (ih : ∀ k, b.length ≤ k → finditer m k b = ps) : finditer m n (a ++ b) = a :: ps := by
  cases a with
  | nil => exact absurd rfl ha
  | cons c r =>
    cases n with
    | zero => simp at hn
    | succ n =>
      simp only [List.cons_append] at hm ⊢
      rw [finditer, hm]
      simp only
      have h1 : (c :: (r ++ b)).take (c :: r).length = c :: r := by
        simp
      have h2 : (c :: (r ++ b)).drop (c :: r).length = b := by
        simp
      rw [h1, h2, ih n (by simp at hn; omega)]

/-- One step of `finditer` without a match. -/
theorem finditer_skip {m : Str → Option Nat} {c : Char} {b : Str} {ps : List Str} {n : Nat}
    (hm : m (c :: b) = none) (hn : (c :: b).length ≤ n)
    (ih : ∀ k, b.length ≤ k → finditer m k b = ps) : finditer m n (c :: b) = ps := by
  cases n with
  | zero => simp at hn
  | succ n =>
    rw [finditer, hm]
    exact ih n (by simp at hn; omega)

/-! ## Identifiers -/

theorem asciiDigit_isAscii {c : Char} (h : asciiDigit c = true) : isAscii c = true := by
  simp only [asciiDigit, isAscii, Bool.and_eq_true, decide_eq_true_eq] at *
  omega

theorem digit_not_underscore {c : Char} (h : asciiDigit c = true) : c ≠ '_' := by
  rintro rfl; revert h; decide

theorem reLower_facts {u : Ucd} (hu : u.Laws) {c : Char} (h : u.reLower c = true) :
    c ≠ '_' ∧ asciiDigit c = false ∧ u.reUpper c = false ∧ c ≠ ' ' := by
  refine ⟨?_, ?_, ?_, ?_⟩
  · rintro rfl
    rw [hu.reLower_ascii '_' (by decide)] at h
    revert h; decide
  · rw [← Bool.not_eq_true]
    intro hd
    rw [hu.reLower_ascii c (asciiDigit_isAscii hd)] at h
    simp only [asciiDigit, asciiLower, Bool.and_eq_true, decide_eq_true_eq] at *
    omega
  · rw [← Bool.not_eq_true]
    intro hd
    rw [hu.reUpper_not_reLower c hd] at h
    exact absurd h (by simp)
  · rintro rfl
    rw [hu.reLower_ascii ' ' (by decide)] at h
    revert h; decide

theorem reUpper_facts {u : Ucd} (hu : u.Laws) {c : Char} (h : u.reUpper c = true) :
    c ≠ '_' ∧ asciiDigit c = false ∧ u.reLower c = false ∧ c ≠ ' ' := by
  refine ⟨?_, ?_, hu.reUpper_not_reLower c h, ?_⟩
  · rintro rfl
    rw [hu.reUpper_ascii '_' (by decide)] at h
    revert h; decide
  · rw [← Bool.not_eq_true]
    intro hd
    rw [hu.reUpper_ascii c (asciiDigit_isAscii hd)] at h
    simp only [asciiDigit, asciiUpper, Bool.and_eq_true, decide_eq_true_eq] at *
    omega
  · rintro rfl
    rw [hu.reUpper_ascii ' ' (by decide)] at h
    revert h; decide

theorem matchCapitals_none_of_lower {u : Ucd} (hu : u.Laws) {c d : Char} {t : Str} (hd : u.reLower d = true) :
    matchCapitals u (c :: d :: t) = none := by
  have h1 := (reLower_facts hu hd).2.2.1
  simp [matchCapitals, h1, startsWithClass, hd]

theorem matchCapitals_run {u : Ucd} (hu : u.Laws) {w r : Str} (hw : w ≠ []) (hall : ∀ c ∈ w, u.reUpper c = true)
    (hl : NotStarting u.reLower r)
    (hr : NotStarting u.reUpper r ∨ ∃ c d t, r = c :: d :: t ∧ u.reUpper c = true ∧ u.reLower d = true) :
    matchCapitals u (w ++ r) = some w.length := by
  have hnone : matchCapitals u r = none := by
    rcases hr with hr | ⟨c, d, t, rfl, hc, hd⟩
    · cases r with
      | nil => rfl
      | cons c r => rw [matchCapitals, hr c rfl]; rfl
    · exact matchCapitals_none_of_lower hu hd
  induction w with
  | nil => exact absurd rfl hw
  | cons c w ih =>
    rw [List.cons_append, matchCapitals, hall c (by simp), if_pos rfl]
    cases w with
    | nil =>
      simp only [List.nil_append, hnone, startsWithClass_false hl]
      rfl
    | cons d w =>
      rw [ih (by simp) (fun c hc => hall c (by simp [hc]))]
      rfl

theorem finditer_of_identSplit {u : Ucd} (hu : u.Laws) {s : Str} {ps : List Str} (h : IdentSplit u s ps) :
    ∀ n, s.length ≤ n → finditer (identMatch u) n s = ps := by
  induction h with
  | nil => intro n _; cases n <;> rfl
  | underscore _ ih =>
    intro n hn
    exact finditer_match (a := ['_']) (by simp) (by simp [identMatch]) (by simpa using hn) ih
  | @digits d r ps hd hall hns _ ih =>
    intro n hn
    refine finditer_match hd ?_ hn ih
    cases d with
    | nil => exact absurd rfl hd
    | cons c t =>
      have hc := hall c (by simp)
      rw [List.cons_append, identMatch, if_neg (digit_not_underscore hc), if_pos hc, ← List.cons_append,
        takeWhile_append_stop hall hns]
  | @lower l r ps hl hall hns _ ih =>
    intro n hn
    refine finditer_match hl ?_ hn ih
    cases l with
    | nil => exact absurd rfl hl
    | cons c t =>
      have hc := hall c (by simp)
      obtain ⟨h1, h2, h3, h4⟩ := reLower_facts hu hc
      rw [List.cons_append, identMatch, if_neg h1, h2, matchCapitalised, h3, hc, ← List.cons_append,
        takeWhile_append_stop hall hns]
      rfl
  | @capitalised c l r ps hc hl hall hns _ ih =>
    intro n hn
    refine finditer_match (by simp) ?_ hn ih
    obtain ⟨h1, h2, h3, h4⟩ := reUpper_facts hu hc
    rw [List.cons_append, identMatch, if_neg h1, h2, matchCapitalised, hc, startsWithClass_append hl hall,
      takeWhile_append_stop hall hns]
    simp [Nat.add_comm]
  | @capitals w r ps hw hall hl hr _ ih =>
    intro n hn
    refine finditer_match hw ?_ hn ih
    have hcaps := matchCapitals_run hu hw hall hl hr
    cases w with
    | nil => exact absurd rfl hw
    | cons c t =>
      have hc := hall c (by simp)
      obtain ⟨h1, h2, h3, h4⟩ := reUpper_facts hu hc
      have hs : startsWithClass u.reLower (t ++ r) = false := by
        cases t with
        | nil => exact startsWithClass_false hl
        | cons d t => exact (reUpper_facts hu (hall d (by simp))).2.2.1
      rw [List.cons_append] at hcaps ⊢
      rw [identMatch, if_neg h1, h2, hcaps, matchCapitalised, hs, h3]
      simp
  | @other c r ps h1 h2 h3 h4 h5 _ ih =>
    intro n hn
    refine finditer_match (a := [c]) (by simp) ?_ hn ih
    simp [identMatch, matchCapitalised, matchCapitals, h1, h2, h3, h4, h5]
  | @space r ps _ ih =>
    intro n hn
    refine finditer_skip ?_ hn ih
    have h4 : u.reUpper ' ' = false := by rw [hu.reUpper_ascii _ (by decide)]; decide
    have h5 : u.reLower ' ' = false := by rw [hu.reLower_ascii _ (by decide)]; decide
    have h3 : asciiDigit ' ' = false := by decide
    simp [identMatch, matchCapitalised, matchCapitals, h3, h4, h5]

theorem takeWhile_length_pos {p : Char → Bool} {c : Char} {r : Str} (h : p c = true) : (c :: r).takeWhile p ≠ [] := by
  simp [h]

theorem dropWhile_length_lt {p : Char → Bool} {c : Char} {r : Str} (h : p c = true) :
    ((c :: r).dropWhile p).length < (c :: r).length := by
  rw [List.dropWhile_cons, if_pos h]
  have := (List.dropWhile_sublist p (l := r)).length_le
  simp
  omega

/-- The longest run of capitals no lower-case letter follows. -/
theorem capitals_split (u : Ucd) (s : Str) : ∀ c, u.reUpper c = true → startsWithClass u.reLower s = false →
    ∃ w r, c :: s = w ++ r ∧ w ≠ [] ∧ (∀ c ∈ w, u.reUpper c = true) ∧ NotStarting u.reLower r ∧
      (NotStarting u.reUpper r ∨ ∃ c d t, r = c :: d :: t ∧ u.reUpper c = true ∧ u.reLower d = true) := by
  induction s with
  | nil => intro c hc _; exact ⟨[c], [], rfl, by simp, by simpa using hc, by intro c h; simp at h, Or.inl (by intro c h; simp at h)⟩
  | cons d t ih =>
    intro c hc hs
    have hd : u.reLower d = false := hs
    by_cases hdu : u.reUpper d = true
    · by_cases ht : startsWithClass u.reLower t = true
      · refine ⟨[c], d :: t, rfl, by simp, by simpa using hc, ?_, Or.inr ?_⟩
        · intro e he; simp at he; subst he; exact hd
        · cases t with
          | nil => exact absurd ht (by simp [startsWithClass])
          | cons e t => exact ⟨d, e, t, rfl, hdu, ht⟩
      · obtain ⟨w, r, h1, h2, h3, h4, h5⟩ := ih d hdu (by simpa using ht)
        refine ⟨c :: w, r, by rw [h1]; rfl, by simp, ?_, h4, h5⟩
        intro e he
        simp only [List.mem_cons] at he
        rcases he with rfl | he
        · exact hc
        · exact h3 e he
    · refine ⟨[c], d :: t, rfl, by simp, by simpa using hc, ?_, Or.inl ?_⟩
      · intro e he; simp at he; subst he; exact hd
      · intro e he; simp at he; subst he; simpa using hdu

theorem identSplit_total (u : Ucd) : ∀ (n : Nat) (s : Str), s.length ≤ n → ∃ ps, IdentSplit u s ps := by
  intro n
  induction n with
  | zero => intro s hs; cases s with
    | nil => exact ⟨[], .nil⟩
    | cons c r => simp at hs
  | succ n ih =>
    intro s hs
    cases s with
    | nil => exact ⟨[], .nil⟩
    | cons c r =>
      have hr : r.length ≤ n := by simpa using hs
      by_cases h1 : c = '_'
      · subst h1
        obtain ⟨ps, h⟩ := ih r hr
        exact ⟨_, .underscore h⟩
      by_cases h2 : asciiDigit c = true
      · have hlt := dropWhile_length_lt (r := r) h2
        obtain ⟨ps, h⟩ := ih ((c :: r).dropWhile asciiDigit) (by simp at hs hlt ⊢; omega)
        have := IdentSplit.digits (takeWhile_length_pos h2) (takeWhile_all (c :: r)) (dropWhile_notStarting asciiDigit (c :: r)) h
        rw [List.takeWhile_append_dropWhile] at this
        exact ⟨_, this⟩
      by_cases h3 : u.reLower c = true
      · have hlt := dropWhile_length_lt (r := r) h3
        obtain ⟨ps, h⟩ := ih ((c :: r).dropWhile u.reLower) (by simp at hs hlt ⊢; omega)
        have := IdentSplit.lower (takeWhile_length_pos h3) (takeWhile_all (c :: r)) (dropWhile_notStarting u.reLower (c :: r)) h
        rw [List.takeWhile_append_dropWhile] at this
        exact ⟨_, this⟩
      by_cases h4 : u.reUpper c = true
      · by_cases h5 : startsWithClass u.reLower r = true
        · cases r with
          | nil => simp [startsWithClass] at h5
          | cons d t =>
            have hd : u.reLower d = true := h5
            have hlt := dropWhile_length_lt (r := t) hd
            obtain ⟨ps, h⟩ := ih ((d :: t).dropWhile u.reLower) (by simp at hs hlt ⊢; omega)
            have := IdentSplit.capitalised h4 (takeWhile_length_pos hd) (takeWhile_all (d :: t))
              (dropWhile_notStarting u.reLower (d :: t)) h
            rw [List.cons_append, List.takeWhile_append_dropWhile] at this
            exact ⟨_, this⟩
        · obtain ⟨w, r', e, hw, hall, hl, hr'⟩ := capitals_split u r c h4 (by simpa using h5)
          obtain ⟨ps, h⟩ := ih r' (by
            have hlen := congrArg List.length e
            have : 0 < w.length := List.length_pos_iff.mpr hw
            simp at hlen hs; omega)
          rw [e]
          exact ⟨_, .capitals hw hall hl hr' h⟩
      by_cases h6 : c = ' '
      · subst h6
        obtain ⟨ps, h⟩ := ih r hr
        exact ⟨_, .space h⟩
      · obtain ⟨ps, h⟩ := ih r hr
        exact ⟨_, .other h6 h1 (by simpa using h2) (by simpa using h4) (by simpa using h3) h⟩

theorem identSplit_iff {u : Ucd} (hu : u.Laws) (s : Str) (ps : List Str) : IdentSplit u s ps ↔ identParts u s = ps := by
  constructor
  · intro h; exact finditer_of_identSplit hu h _ (Nat.le_refl _)
  · intro h
    obtain ⟨qs, hq⟩ := identSplit_total u s.length s (Nat.le_refl _)
    have := finditer_of_identSplit hu hq _ (Nat.le_refl _)
    rw [← h]
    unfold identParts
    rw [this]
    exact hq

/-! ## Texts and string literals -/

theorem reWord_space {u : Ucd} (hu : u.Laws) : u.reWord ' ' = false := by
  rw [hu.reWord_ascii ' ' (by decide)]; decide

theorem finditer_of_textSplit {u : Ucd} (hu : u.Laws) {s : Str} {ps : List Str} (h : TextSplit u s ps) :
    ∀ n, s.length ≤ n → finditer (wordMatch u) n s = ps := by
  induction h with
  | nil => intro n _; cases n <;> rfl
  | @word w r ps hw hall hns _ ih =>
    intro n hn
    refine finditer_match hw ?_ hn ih
    cases w with
    | nil => exact absurd rfl hw
    | cons c t =>
      rw [List.cons_append, wordMatch, if_pos (hall c (by simp)), ← List.cons_append, takeWhile_append_stop hall hns]
  | @char c r ps h1 h2 _ ih =>
    intro n hn
    exact finditer_match (a := [c]) (by simp) (by simp [wordMatch, h1, h2]) hn ih
  | @fourSpaces r ps _ ih =>
    intro n hn
    exact finditer_match (a := [' ', ' ', ' ', ' ']) (by simp) (by simp [wordMatch, reWord_space hu]) hn ih
  | @space r ps h1 _ ih =>
    intro n hn
    refine finditer_skip ?_ hn ih
    have hne : (' ' :: r).take 4 ≠ [' ', ' ', ' ', ' '] := by
      intro h
      simp only [List.take_succ_cons, List.cons.injEq, true_and] at h
      apply h1 (r.drop 3)
      have := List.take_append_drop 3 r
      rw [h] at this
      simpa using this.symm
    rw [wordMatch, reWord_space hu, if_neg (by simp), if_neg (by simp), if_neg hne]

theorem textSplit_total (u : Ucd) : ∀ (n : Nat) (s : Str), s.length ≤ n → ∃ ps, TextSplit u s ps := by
  intro n
  induction n with
  | zero => intro s hs; cases s with
    | nil => exact ⟨[], .nil⟩
    | cons c r => simp at hs
  | succ n ih =>
    intro s hs
    cases s with
    | nil => exact ⟨[], .nil⟩
    | cons c r =>
      have hr : r.length ≤ n := by simpa using hs
      by_cases h1 : u.reWord c = true
      · have hlt := dropWhile_length_lt (r := r) h1
        obtain ⟨ps, h⟩ := ih ((c :: r).dropWhile u.reWord) (by simp at hs hlt ⊢; omega)
        have := TextSplit.word (takeWhile_length_pos h1) (takeWhile_all (c :: r)) (dropWhile_notStarting u.reWord (c :: r)) h
        rw [List.takeWhile_append_dropWhile] at this
        exact ⟨_, this⟩
      by_cases h2 : c = ' '
      · subst h2
        by_cases h3 : ∃ t, r = ' ' :: ' ' :: ' ' :: t
        · obtain ⟨t, rfl⟩ := h3
          obtain ⟨ps, h⟩ := ih t (by simp at hr; omega)
          exact ⟨_, .fourSpaces h⟩
        · obtain ⟨ps, h⟩ := ih r hr
          exact ⟨_, .space (fun t ht => h3 ⟨t, ht⟩) h⟩
      · obtain ⟨ps, h⟩ := ih r hr
        exact ⟨_, .char h2 (by simpa using h1) h⟩

theorem textSplit_iff {u : Ucd} (hu : u.Laws) (s : Str) (ps : List Str) :
    TextSplit u s ps ↔ finditer (wordMatch u) s.length s = ps := by
  constructor
  · intro h; exact finditer_of_textSplit hu h _ (Nat.le_refl _)
  · intro h
    obtain ⟨qs, hq⟩ := textSplit_total u s.length s (Nat.le_refl _)
    have := finditer_of_textSplit hu hq _ (Nat.le_refl _)
    rw [← h, this]
    exact hq

theorem finditer_of_literalSplit {u : Ucd} (hu : u.Laws) {s : Str} {ps : List Str} (h : LiteralSplit u s ps) :
    ∀ n, s.length ≤ n → finditer (stringMatch u) n s = ps := by
  induction h with
  | nil => intro n _; cases n <;> rfl
  | @word w r ps hw hall hns _ ih =>
    intro n hn
    refine finditer_match hw ?_ hn ih
    cases w with
    | nil => exact absurd rfl hw
    | cons c t =>
      rw [List.cons_append, stringMatch, if_pos (hall c (by simp)), ← List.cons_append, takeWhile_append_stop hall hns]
  | @char c r ps h1 h2 _ ih =>
    intro n hn
    exact finditer_match (a := [c]) (by simp) (by simp [stringMatch, h1, h2]) hn ih
  | @spaces k r ps h1 _ ih =>
    intro n hn
    refine finditer_match (by simp) ?_ hn ih
    have ht := takeWhile_append_stop (p := (· == ' ')) (a := List.replicate (k + 1) ' ') (b := r)
      (by intro c hc; rw [List.mem_replicate] at hc; simp [hc.2]) h1
    rw [List.replicate_succ, List.cons_append] at ht ⊢
    rw [stringMatch, reWord_space hu, ht]
    simp

theorem takeWhile_space (s : Str) : ∃ n, s.takeWhile (· == ' ') = List.replicate n ' ' := by
  refine ⟨(s.takeWhile (· == ' ')).length, ?_⟩
  rw [List.eq_replicate_iff]
  exact ⟨rfl, fun c hc => by simpa using takeWhile_all (p := (· == ' ')) s c hc⟩

theorem literalSplit_total (u : Ucd) : ∀ (n : Nat) (s : Str), s.length ≤ n → ∃ ps, LiteralSplit u s ps := by
  intro n
  induction n with
  | zero => intro s hs; cases s with
    | nil => exact ⟨[], .nil⟩
    | cons c r => simp at hs
  | succ n ih =>
    intro s hs
    cases s with
    | nil => exact ⟨[], .nil⟩
    | cons c r =>
      have hr : r.length ≤ n := by simpa using hs
      by_cases h1 : u.reWord c = true
      · have hlt := dropWhile_length_lt (r := r) h1
        obtain ⟨ps, h⟩ := ih ((c :: r).dropWhile u.reWord) (by simp at hs hlt ⊢; omega)
        have := LiteralSplit.word (takeWhile_length_pos h1) (takeWhile_all (c :: r)) (dropWhile_notStarting u.reWord (c :: r)) h
        rw [List.takeWhile_append_dropWhile] at this
        exact ⟨_, this⟩
      by_cases h2 : c = ' '
      · have hp : (fun x : Char => x == ' ') c = true := by simp [h2]
        have hlt := dropWhile_length_lt (p := (· == ' ')) (r := r) hp
        obtain ⟨ps, h⟩ := ih ((c :: r).dropWhile (· == ' ')) (by simp only [List.length_cons] at hs hlt; omega)
        obtain ⟨k, hk⟩ := takeWhile_space (c :: r)
        have hk0 : k ≠ 0 := by
          rintro rfl
          exact takeWhile_length_pos (p := (· == ' ')) (r := r) hp hk
        obtain ⟨k, rfl⟩ := Nat.exists_eq_succ_of_ne_zero hk0
        have := LiteralSplit.spaces (n := k) (dropWhile_notStarting (· == ' ') (c :: r)) h
        rw [← Nat.succ_eq_add_one, ← hk, List.takeWhile_append_dropWhile] at this
        exact ⟨_, this⟩
      · obtain ⟨ps, h⟩ := ih r hr
        exact ⟨_, .char h2 (by simpa using h1) h⟩

theorem literalSplit_iff {u : Ucd} (hu : u.Laws) (s : Str) (ps : List Str) :
    LiteralSplit u s ps ↔ finditer (stringMatch u) s.length s = ps := by
  constructor
  · intro h; exact finditer_of_literalSplit hu h _ (Nat.le_refl _)
  · intro h
    obtain ⟨qs, hq⟩ := literalSplit_total u s.length s (Nat.le_refl _)
    have := finditer_of_literalSplit hu hq _ (Nat.le_refl _)
    rw [← h, this]
    exact hq

end Verif
