import Verif.Model.Parse
import Verif.Spec.Number
/-!
# Regular expressions
-/
namespace Verif
open Spec

theorem matches_none {s : Str} : ¬ Matches .none s := by intro h; cases h

theorem matches_seq {a b : Re} {s : Str} : Matches (.seq a b) s ↔ ∃ x y, s = x ++ y ∧ Matches a x ∧ Matches b y := by
  constructor
  · intro h; cases h with
    | seq h1 h2 => exact ⟨_, _, rfl, h1, h2⟩
  · rintro ⟨x, y, rfl, h1, h2⟩; exact .seq h1 h2

theorem matches_alt {a b : Re} {s : Str} : Matches (.alt a b) s ↔ Matches a s ∨ Matches b s := by
  constructor
  · intro h; cases h with
    | left h => exact .inl h
    | right h => exact .inr h
  · rintro (h | h)
    · exact .left h
    · exact .right h

theorem matches_eps {s : Str} : Matches .eps s ↔ s = [] := by
  constructor
  · intro h; cases h; rfl
  · rintro rfl; exact .eps

theorem matches_cls {p : Char → Bool} {s : Str} : Matches (.cls p) s ↔ ∃ c, s = [c] ∧ p c = true := by
  constructor
  · intro h; cases h with
    | cls h => exact ⟨_, rfl, h⟩
  · rintro ⟨c, rfl, h⟩; exact .cls h

theorem nullable_iff (r : Re) : r.nullable = true ↔ Matches r [] := by
  induction r with
  | none => simp [Re.nullable, matches_none]
  | eps => simp [Re.nullable, matches_eps]
  | cls p => simp [Re.nullable, matches_cls]
  | seq a b iha ihb =>
    rw [matches_seq]
    simp only [Re.nullable, Bool.and_eq_true, iha, ihb]
    constructor
    · rintro ⟨h1, h2⟩; exact ⟨[], [], rfl, h1, h2⟩
    · rintro ⟨x, y, h, h1, h2⟩
      have := List.append_eq_nil_iff.mp h.symm
      rw [this.1] at h1; rw [this.2] at h2
      exact ⟨h1, h2⟩
  | alt a b iha ihb => rw [matches_alt]; simp [Re.nullable, iha, ihb]
  | star a _ => simp [Re.nullable, Matches.starNil]

/-- A non-empty match of `a*` starts with a non-empty match of `a`. -/
theorem matches_star_cons {a : Re} {c : Char} {s : Str} (h : Matches (.star a) (c :: s)) :
    ∃ x y, s = x ++ y ∧ Matches a (c :: x) ∧ Matches (.star a) y := by
  generalize hr : Re.star a = r at h
  generalize ht : c :: s = t at h
  induction h with
  | eps => cases hr
  | cls _ => cases hr
  | seq _ _ => cases hr
  | left _ => cases hr
  | right _ => cases hr
  | starNil => cases ht
  | @starCons a' x y h1 h2 _ ih2 =>
    cases hr
    cases x with
    | nil => exact ih2 rfl ht
    | cons d x =>
      simp only [List.cons_append, List.cons.injEq] at ht
      obtain ⟨rfl, rfl⟩ := ht
      exact ⟨x, y, rfl, h1, h2⟩

theorem deriv_iff (c : Char) (r : Re) : ∀ s, Matches (r.deriv c) s ↔ Matches r (c :: s) := by
  induction r with
  | none => intro s; simp [Re.deriv, matches_none]
  | eps => intro s; simp [Re.deriv, matches_none, matches_eps]
  | cls p =>
    intro s
    rw [matches_cls]
    unfold Re.deriv
    split
    · rename_i h
      rw [matches_eps]
      constructor
      · rintro rfl; exact ⟨c, rfl, h⟩
      · rintro ⟨d, hd, _⟩; simpa using (List.cons.inj hd).2
    · rename_i h
      constructor
      · intro hm; exact absurd hm matches_none
      · rintro ⟨d, hd, hp⟩
        rw [(List.cons.inj hd).1] at h
        exact absurd hp h
  | seq a b iha ihb =>
    intro s
    have key : Matches (.seq a b) (c :: s) ↔ (∃ x y, s = x ++ y ∧ Matches a (c :: x) ∧ Matches b y) ∨
        (Matches a [] ∧ Matches b (c :: s)) := by
      rw [matches_seq]
      constructor
      · rintro ⟨x, y, h, h1, h2⟩
        cases x with
        | nil => simp at h; subst h; exact .inr ⟨h1, h2⟩
        | cons d x =>
          simp at h
          obtain ⟨rfl, rfl⟩ := h
          exact .inl ⟨x, y, rfl, h1, h2⟩
      · rintro (⟨x, y, rfl, h1, h2⟩ | ⟨h1, h2⟩)
        · exact ⟨c :: x, y, rfl, h1, h2⟩
        · exact ⟨[], c :: s, rfl, h1, h2⟩
    have left : Matches (.seq (a.deriv c) b) s ↔ ∃ x y, s = x ++ y ∧ Matches a (c :: x) ∧ Matches b y := by
      rw [matches_seq]
      simp only [iha]
    rw [key]
    unfold Re.deriv
    split
    · rename_i h
      rw [matches_alt, left, ihb, ← nullable_iff]
      simp [h]
    · rename_i h
      rw [left, ← nullable_iff]
      simp [h]
  | alt a b iha ihb => intro s; rw [Re.deriv, matches_alt, matches_alt, iha, ihb]
  | star a ih =>
    intro s
    rw [Re.deriv, matches_seq]
    constructor
    · rintro ⟨x, y, rfl, h1, h2⟩
      exact .starCons (s := c :: x) ((ih x).mp h1) h2
    · intro h
      obtain ⟨x, y, rfl, h1, h2⟩ := matches_star_cons h
      exact ⟨x, y, rfl, (ih x).mpr h1, h2⟩

/-- `fullmatch` decides the language of the pattern. -/
theorem fullmatch_iff (s : Str) : ∀ r : Re, r.fullmatch s = true ↔ Matches r s := by
  induction s with
  | nil => intro r; rw [Re.fullmatch, nullable_iff]
  | cons c s ih => intro r; rw [Re.fullmatch, ih, deriv_iff]

/-! ## Number patterns -/

theorem matches_ch {c : Char} {s : Str} : Matches (Re.ch c) s ↔ s = [c] := by
  rw [Re.ch, matches_cls]
  constructor
  · rintro ⟨d, rfl, h⟩; simp at h; rw [h]
  · rintro rfl; exact ⟨c, rfl, by simp⟩

theorem matches_oneOf {cs : Str} {s : Str} : Matches (Re.oneOf cs) s ↔ ∃ c ∈ cs, s = [c] := by
  rw [Re.oneOf, matches_cls]
  constructor
  · rintro ⟨d, rfl, h⟩; exact ⟨d, by simpa using h, rfl⟩
  · rintro ⟨c, h, rfl⟩; exact ⟨c, rfl, by simpa using h⟩

theorem matches_opt {a : Re} {s : Str} : Matches (Re.opt a) s ↔ s = [] ∨ Matches a s := by
  rw [Re.opt, matches_alt, matches_eps, or_comm]

theorem matches_suffix {cs s : Str} : Matches (Re.opt (Re.oneOf cs)) s ↔ Suffix cs s := by
  rw [matches_opt, matches_oneOf, Suffix]

theorem matches_star_cls {p : Char → Bool} {s : Str} : Matches (.star (.cls p)) s ↔ ∀ c ∈ s, p c = true := by
  induction s with
  | nil => simp [Matches.starNil]
  | cons c s ih =>
    constructor
    · intro h
      obtain ⟨x, y, rfl, h1, h2⟩ := matches_star_cons h
      obtain ⟨d, hd, hp⟩ := matches_cls.mp h1
      simp at hd
      obtain ⟨rfl, rfl⟩ := hd
      rw [List.nil_append] at ih
      intro e he
      rcases List.mem_cons.mp he with rfl | he
      · exact hp
      · exact ih.mp h2 e he
    · intro h
      exact .starCons (s := [c]) (.cls (h c (by simp))) (ih.mpr fun e he => h e (by simp [he]))

theorem matches_plus_cls {p : Char → Bool} {s : Str} : Matches (Re.plus (.cls p)) s ↔ s ≠ [] ∧ ∀ c ∈ s, p c = true := by
  rw [Re.plus, matches_seq]
  constructor
  · rintro ⟨x, y, rfl, h1, h2⟩
    obtain ⟨c, rfl, hc⟩ := matches_cls.mp h1
    refine ⟨by simp, ?_⟩
    intro e he
    simp at he
    rcases he with rfl | he
    · exact hc
    · exact matches_star_cls.mp h2 e he
  · rintro ⟨h1, h2⟩
    cases s with
    | nil => exact absurd rfl h1
    | cons c s => exact ⟨[c], s, rfl, .cls (h2 c (by simp)), matches_star_cls.mpr fun e he => h2 e (by simp [he])⟩

theorem matches_groups {p : Char → Bool} {s : Str} :
    Matches (.star (.seq (Re.plus (.cls p)) (Re.ch '_'))) s → ∀ g, g ≠ [] → (∀ c ∈ g, p c = true) → Grouped p (s ++ g) := by
  intro h
  generalize hr : Re.star (.seq (Re.plus (.cls p)) (Re.ch '_')) = r at h
  induction h with
  | eps => cases hr
  | cls _ => cases hr
  | seq _ _ => cases hr
  | left _ => cases hr
  | right _ => cases hr
  | starNil => intro g h1 h2; exact .one h1 h2
  | @starCons a x y h1 h2 _ ih2 =>
    cases hr
    intro g hg1 hg2
    obtain ⟨x1, x2, rfl, hx1, hx2⟩ := matches_seq.mp h1
    obtain ⟨hne, hall⟩ := matches_plus_cls.mp hx1
    rw [matches_ch] at hx2
    subst hx2
    have := Grouped.more hne hall (ih2 rfl g hg1 hg2)
    simpa using this

theorem grouped_matches {p : Char → Bool} {s : Str} (h : Grouped p s) :
    ∃ x g, s = x ++ g ∧ Matches (.star (.seq (Re.plus (.cls p)) (Re.ch '_'))) x ∧ g ≠ [] ∧ ∀ c ∈ g, p c = true := by
  induction h with
  | @one g h1 h2 => exact ⟨[], g, rfl, .starNil, h1, h2⟩
  | @more g r h1 h2 _ ih =>
    obtain ⟨x, g', rfl, hx, hg1, hg2⟩ := ih
    refine ⟨(g ++ ['_']) ++ x, g', by simp, .starCons (.seq (matches_plus_cls.mpr ⟨h1, h2⟩) (matches_ch.mpr rfl)) hx, hg1, hg2⟩

/-- `([...]+_)*[...]+` followed by something. -/
theorem matches_grouped {p : Char → Bool} {b : Re} {s : Str} :
    Matches (.seq (.star (.seq (Re.plus (.cls p)) (Re.ch '_'))) (.seq (Re.plus (.cls p)) b)) s ↔
      ∃ ds suf, s = ds ++ suf ∧ Grouped p ds ∧ Matches b suf := by
  rw [matches_seq]
  constructor
  · rintro ⟨x, y, rfl, hx, hy⟩
    obtain ⟨g, suf, rfl, hg, hs⟩ := matches_seq.mp hy
    obtain ⟨hg1, hg2⟩ := matches_plus_cls.mp hg
    exact ⟨x ++ g, suf, by simp, matches_groups hx g hg1 hg2, hs⟩
  · rintro ⟨ds, suf, rfl, hd, hs⟩
    obtain ⟨x, g, rfl, hx, hg1, hg2⟩ := grouped_matches hd
    exact ⟨x, g ++ suf, by simp, hx, .seq (matches_plus_cls.mpr ⟨hg1, hg2⟩) hs⟩

theorem matches_chSeq {c : Char} {b : Re} {s : Str} : Matches (.seq (Re.ch c) b) s ↔ ∃ t, s = c :: t ∧ Matches b t := by
  rw [matches_seq]
  constructor
  · rintro ⟨x, y, rfl, hx, hy⟩
    rw [matches_ch] at hx
    subst hx
    exact ⟨y, rfl, hy⟩
  · rintro ⟨t, rfl, h⟩; exact ⟨[c], t, rfl, matches_ch.mpr rfl, h⟩

theorem matches_exponent {s : Str} : Matches NumRe.exponent s ↔ Exponent s := by
  rw [NumRe.exponent, matches_seq, Exponent]
  constructor
  · rintro ⟨x, y, rfl, hx, hy⟩
    obtain ⟨e, he, rfl⟩ := matches_oneOf.mp hx
    obtain ⟨sg, ds, rfl, hs, hd⟩ := matches_seq.mp hy
    obtain ⟨h1, h2⟩ := matches_plus_cls.mp hd
    exact ⟨e, sg, ds, rfl, he, matches_suffix.mp hs, h1, h2⟩
  · rintro ⟨e, sg, ds, rfl, he, hs, h1, h2⟩
    exact ⟨[e], sg ++ ds, rfl, matches_oneOf.mpr ⟨e, he, rfl⟩, .seq (matches_suffix.mpr hs) (matches_plus_cls.mpr ⟨h1, h2⟩)⟩

theorem matches_tail {s : Str} : Matches (.seq (Re.opt NumRe.exponent) NumRe.floatSuffix) s ↔
    ∃ ex suf, s = ex ++ suf ∧ OptExponent ex ∧ Suffix ['f', 'F', 'd', 'D'] suf := by
  rw [matches_seq, NumRe.floatSuffix]
  constructor
  · rintro ⟨x, y, rfl, hx, hy⟩
    exact ⟨x, y, rfl, by rw [OptExponent, ← matches_exponent, ← matches_opt]; exact hx, matches_suffix.mp hy⟩
  · rintro ⟨x, y, rfl, hx, hy⟩
    exact ⟨x, y, rfl, by rw [OptExponent, ← matches_exponent, ← matches_opt] at hx; exact hx, matches_suffix.mpr hy⟩

theorem binDigit_cls : NumRe.binDigit = .cls isBinDigit := by
  unfold NumRe.binDigit Re.oneOf
  congr 1
  funext c
  simp [isBinDigit]

theorem isNumber_iff (w : Str) : isNumber w = true ↔ IsNumber w := by
  rw [isNumber, fullmatch_iff, NumRe.number]
  simp only [matches_alt]
  constructor
  · rintro (h | h | h | h | h | h | h)
    · obtain ⟨t, rfl, h1⟩ := matches_chSeq.mp h
      obtain ⟨t', rfl, h2⟩ := matches_chSeq.mp h1
      obtain ⟨ds, suf, rfl, hd, hs⟩ := matches_grouped.mp h2
      exact .hex hd (matches_suffix.mp hs)
    · rw [NumRe.bin, binDigit_cls] at h
      obtain ⟨t, rfl, h1⟩ := matches_chSeq.mp h
      obtain ⟨t', rfl, h2⟩ := matches_chSeq.mp h1
      obtain ⟨ds, suf, rfl, hd, hs⟩ := matches_grouped.mp h2
      exact .bin hd (matches_suffix.mp hs)
    · obtain ⟨ds, suf, rfl, hd, hs⟩ := matches_grouped.mp h
      exact .dec hd (matches_suffix.mp hs)
    · obtain ⟨a, t1, rfl, ha, h1⟩ := matches_seq.mp h
      obtain ⟨t2, rfl, h2⟩ := matches_chSeq.mp h1
      obtain ⟨b, t3, rfl, hb, h3⟩ := matches_seq.mp h2
      obtain ⟨ex, suf, rfl, he, hs⟩ := matches_tail.mp h3
      obtain ⟨ha1, ha2⟩ := matches_plus_cls.mp ha
      obtain ⟨hb1, hb2⟩ := matches_plus_cls.mp hb
      exact .point ha2 hb2 (.inl ha1) he hs
    · obtain ⟨a, t1, rfl, ha, h1⟩ := matches_seq.mp h
      obtain ⟨t2, rfl, h2⟩ := matches_chSeq.mp h1
      obtain ⟨ex, suf, rfl, he, hs⟩ := matches_tail.mp h2
      obtain ⟨ha1, ha2⟩ := matches_plus_cls.mp ha
      exact .point (b := []) ha2 (by simp) (.inl ha1) he hs
    · obtain ⟨t2, rfl, h2⟩ := matches_chSeq.mp h
      obtain ⟨b, t3, rfl, hb, h3⟩ := matches_seq.mp h2
      obtain ⟨ex, suf, rfl, he, hs⟩ := matches_tail.mp h3
      obtain ⟨hb1, hb2⟩ := matches_plus_cls.mp hb
      exact .point (a := []) (by simp) hb2 (.inr hb1) he hs
    · obtain ⟨a, t1, rfl, ha, h1⟩ := matches_seq.mp h
      obtain ⟨ex, suf, rfl, he, hs⟩ := matches_seq.mp h1
      obtain ⟨ha1, ha2⟩ := matches_plus_cls.mp ha
      exact .exp ha1 ha2 (matches_exponent.mp he) (matches_suffix.mp hs)
  · intro h
    cases h with
    | hex hd hs =>
      left
      exact matches_chSeq.mpr ⟨_, rfl, matches_chSeq.mpr ⟨_, rfl, matches_grouped.mpr ⟨_, _, rfl, hd, matches_suffix.mpr hs⟩⟩⟩
    | bin hd hs =>
      right; left
      rw [NumRe.bin, binDigit_cls]
      exact matches_chSeq.mpr ⟨_, rfl, matches_chSeq.mpr ⟨_, rfl, matches_grouped.mpr ⟨_, _, rfl, hd, matches_suffix.mpr hs⟩⟩⟩
    | dec hd hs =>
      right; right; left
      exact matches_grouped.mpr ⟨_, _, rfl, hd, matches_suffix.mpr hs⟩
    | @point a b ex suf ha hb hne he hs =>
      have ht := matches_tail.mpr ⟨ex, suf, rfl, he, hs⟩
      by_cases ha1 : a = []
      · subst ha1
        have hb1 : b ≠ [] := by simpa using hne
        right; right; right; right; right; left
        exact matches_chSeq.mpr ⟨_, rfl, matches_seq.mpr ⟨_, _, rfl, matches_plus_cls.mpr ⟨hb1, hb⟩, ht⟩⟩
      · by_cases hb1 : b = []
        · subst hb1
          right; right; right; right; left
          exact matches_seq.mpr ⟨_, _, rfl, matches_plus_cls.mpr ⟨ha1, ha⟩, matches_chSeq.mpr ⟨_, rfl, ht⟩⟩
        · right; right; right; left
          exact matches_seq.mpr ⟨_, _, rfl, matches_plus_cls.mpr ⟨ha1, ha⟩,
            matches_chSeq.mpr ⟨_, rfl, matches_seq.mpr ⟨_, _, rfl, matches_plus_cls.mpr ⟨hb1, hb⟩, ht⟩⟩⟩
    | exp ha1 ha he hs =>
      right; right; right; right; right; right
      exact matches_seq.mpr ⟨_, _, rfl, matches_plus_cls.mpr ⟨ha1, ha⟩,
        matches_seq.mpr ⟨_, _, rfl, matches_exponent.mpr he, matches_suffix.mpr hs⟩⟩

/-! ## Characters of numbers -/

theorem grouped_chars {p : Char → Bool} {s : Str} (h : Grouped p s) : s ≠ [] ∧ ∀ c ∈ s, p c = true ∨ c = '_' := by
  induction h with
  | one h1 h2 => exact ⟨h1, fun c hc => .inl (h2 c hc)⟩
  | more h1 h2 _ ih =>
    refine ⟨by simp, ?_⟩
    intro c hc
    simp at hc
    rcases hc with hc | hc | hc
    · exact .inl (h2 c hc)
    · exact .inr hc
    · exact ih.2 c hc

theorem suffix_chars {cs s : Str} (h : Suffix cs s) : ∀ c ∈ s, c ∈ cs := by
  intro c hc
  rcases h with rfl | ⟨d, hd, rfl⟩
  · simp at hc
  · simp at hc; subst hc; exact hd

/-- Visible ASCII characters. -/
def numChar (c : Char) : Bool := isAscii c && decide (33 ≤ c.toNat)

theorem hexDigit_ascii {c : Char} (h : isHexDigit c = true) : numChar c = true := by
  simp only [isHexDigit, asciiDigit, numChar, isAscii, Bool.or_eq_true, Bool.and_eq_true, decide_eq_true_eq] at *
  exact ⟨by omega, by omega⟩

theorem binDigit_ascii {c : Char} (h : isBinDigit c = true) : numChar c = true := by
  simp only [isBinDigit, Bool.or_eq_true, decide_eq_true_eq] at h
  rcases h with rfl | rfl <;> decide

theorem digit_ascii {c : Char} (h : asciiDigit c = true) : numChar c = true := by
  simp only [asciiDigit, numChar, isAscii, Bool.and_eq_true, decide_eq_true_eq] at *
  exact ⟨by omega, by omega⟩

theorem mem_ascii {cs : Str} (h : cs.all numChar = true) {c : Char} (hc : c ∈ cs) : numChar c = true :=
  List.all_eq_true.mp h c hc

theorem exponent_ascii {s : Str} (h : Exponent s) : ∀ c ∈ s, numChar c = true := by
  obtain ⟨e, sg, ds, rfl, he, hs, _, hd⟩ := h
  intro c hc
  simp only [List.mem_cons, List.mem_append] at hc
  rcases hc with rfl | hc | hc
  · exact mem_ascii (by decide) he
  · exact mem_ascii (by decide) (suffix_chars hs c hc)
  · exact digit_ascii (hd c hc)

/-- Number literals consist of ASCII characters other than the space. -/
theorem isNumber_chars {w : Str} (h : IsNumber w) : w ≠ [] ∧ ∀ c ∈ w, numChar c = true := by
  cases h with
  | hex hd hs =>
    refine ⟨by simp, fun c hc => ?_⟩
    simp only [List.mem_cons, List.mem_append] at hc
    rcases hc with rfl | rfl | hc | hc
    · decide
    · decide
    · rcases (grouped_chars hd).2 c hc with h | rfl
      · exact hexDigit_ascii h
      · decide
    · exact mem_ascii (by decide) (suffix_chars hs c hc)
  | bin hd hs =>
    refine ⟨by simp, fun c hc => ?_⟩
    simp only [List.mem_cons, List.mem_append] at hc
    rcases hc with rfl | rfl | hc | hc
    · decide
    · decide
    · rcases (grouped_chars hd).2 c hc with h | rfl
      · exact binDigit_ascii h
      · decide
    · exact mem_ascii (by decide) (suffix_chars hs c hc)
  | dec hd hs =>
    refine ⟨by simp [(grouped_chars hd).1], fun c hc => ?_⟩
    simp only [List.mem_append] at hc
    rcases hc with hc | hc
    · rcases (grouped_chars hd).2 c hc with h | rfl
      · exact digit_ascii h
      · decide
    · exact mem_ascii (by decide) (suffix_chars hs c hc)
  | point ha hb _ he hs =>
    refine ⟨by simp, fun c hc => ?_⟩
    simp only [List.mem_append, List.mem_cons] at hc
    rcases hc with hc | rfl | hc | hc | hc
    · exact digit_ascii (ha c hc)
    · decide
    · exact digit_ascii (hb c hc)
    · rcases he with rfl | he
      · simp at hc
      · exact exponent_ascii he c hc
    · exact mem_ascii (by decide) (suffix_chars hs c hc)
  | exp ha1 ha he hs =>
    refine ⟨by simp [ha1], fun c hc => ?_⟩
    simp only [List.mem_append] at hc
    rcases hc with hc | hc | hc
    · exact digit_ascii (ha c hc)
    · exact exponent_ascii he c hc
    · exact mem_ascii (by decide) (suffix_chars hs c hc)

theorem isNumber_ascii {w : Str} (h : IsNumber w) : w ≠ [] ∧ ∀ c ∈ w, isAscii c = true := by
  refine ⟨(isNumber_chars h).1, fun c hc => ?_⟩
  have := (isNumber_chars h).2 c hc
  simp only [numChar, Bool.and_eq_true] at this
  exact this.1

theorem isNumber_noSpace {w : Str} (h : IsNumber w) : ' ' ∉ w := by
  intro hs
  exact absurd ((isNumber_chars h).2 ' ' hs) (by decide)

end Verif
