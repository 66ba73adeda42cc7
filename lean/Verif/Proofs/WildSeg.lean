import Verif.Proofs.BpeCore
import Verif.Proofs.BpeLearnMore
import Verif.Model.WildBpe
/-!
# Texts split into tokens, by the positions of the tokens
-/
namespace Verif.Wild
open Verif Verif.Spec

/-- The tokens with their positions, the first one at `o`. -/
def toks (o : Int) : List Str → List (Int × Str)
  | [] => []
  | x :: r => (o, x) :: toks (o + x.length) r

/-- The positions at which `a`, `b` are merged, from left to right. -/
def mpos (a b : Str) (o : Int) : List Str → List Int
  | x :: y :: r =>
    if x = a ∧ y = b then o :: mpos a b (o + x.length + y.length) r
    else mpos a b (o + x.length) (y :: r)
  | _ => []

/-- The positions of a pair. -/
def ppos (a b : Str) (o : Int) : List Str → List Int
  | x :: y :: r =>
    if x = a ∧ y = b then o :: ppos a b (o + x.length) (y :: r)
    else ppos a b (o + x.length) (y :: r)
  | _ => []

def NE (s : List Str) : Prop := ∀ x ∈ s, x ≠ []

theorem NE.cons {x : Str} {s : List Str} (h : NE (x :: s)) : 0 < x.length ∧ NE s :=
  ⟨List.length_pos_iff.mpr (h x (by simp)), fun y hy => h y (by simp [hy])⟩

theorem toks_ge {s : List Str} {o q : Int} {t : Str} (h : (q, t) ∈ toks o s) : o ≤ q := by
  induction s generalizing o with
  | nil => cases h
  | cons x r ih =>
    simp only [toks, List.mem_cons, Prod.mk.injEq] at h
    rcases h with ⟨rfl, -⟩ | h
    · omega
    · have := ih h; omega

theorem toks_mem {s : List Str} {o q : Int} {t : Str} (h : (q, t) ∈ toks o s) : t ∈ s := by
  induction s generalizing o with
  | nil => cases h
  | cons x r ih =>
    simp only [toks, List.mem_cons, Prod.mk.injEq] at h
    rcases h with ⟨-, rfl⟩ | h
    · simp
    · simp [ih h]

theorem toks_unique {s : List Str} (hs : NE s) {o q : Int} {t u : Str} (h1 : (q, t) ∈ toks o s) (h2 : (q, u) ∈ toks o s) :
    t = u := by
  induction s generalizing o with
  | nil => cases h1
  | cons x r ih =>
    obtain ⟨hx, hr⟩ := hs.cons
    simp only [toks, List.mem_cons, Prod.mk.injEq] at h1 h2
    rcases h1 with ⟨e1, e1'⟩ | h1
    · rcases h2 with ⟨e2, e2'⟩ | h2
      · rw [e1', e2']
      · have := toks_ge h2; omega
    · rcases h2 with ⟨e2, -⟩ | h2
      · have := toks_ge h1; omega
      · exact ih hr h1 h2

/-- Tokens do not overlap. -/
theorem toks_apart {s : List Str} (hs : NE s) {o q q' : Int} {t u : Str} (h1 : (q, t) ∈ toks o s) (h2 : (q', u) ∈ toks o s)
    (h : q < q') : q + t.length ≤ q' := by
  induction s generalizing o with
  | nil => cases h1
  | cons x r ih =>
    obtain ⟨hx, hr⟩ := hs.cons
    simp only [toks, List.mem_cons, Prod.mk.injEq] at h1 h2
    rcases h1 with ⟨e1, e1'⟩ | h1
    · rcases h2 with ⟨e2, e2'⟩ | h2
      · omega
      · have := toks_ge h2; rw [e1']; omega
    · rcases h2 with ⟨e2, -⟩ | h2
      · have := toks_ge h1; omega
      · exact ih hr h1 h2

/-- The token before a position is determined. -/
theorem toks_pred {s : List Str} (hs : NE s) {o q q' : Int} {t u : Str} (h1 : (q, t) ∈ toks o s) (h2 : (q', u) ∈ toks o s)
    (h : q + t.length = q' + u.length) : q = q' ∧ t = u := by
  have ht : 0 < t.length := List.length_pos_iff.mpr (hs t (toks_mem h1))
  have hu : 0 < u.length := List.length_pos_iff.mpr (hs u (toks_mem h2))
  have : q = q' := by
    rcases Int.lt_trichotomy q q' with g | g | g
    · have := toks_apart hs h1 h2 g; omega
    · exact g
    · have := toks_apart hs h2 h1 g; omega
  subst this
  exact ⟨rfl, toks_unique hs h1 h2⟩

/-- `x`, `y` are neighbours, `x` at `q`. -/
def At (s : List Str) (q : Int) (x y : Str) : Prop := (q, x) ∈ toks 0 s ∧ (q + x.length, y) ∈ toks 0 s

theorem mpos_ge {a b : Str} {s : List Str} {o q : Int} (h : q ∈ mpos a b o s) : o ≤ q := by
  induction o, s using mpos.induct (a := a) (b := b) with
  | case1 o x y r hm ih =>
    simp only [mpos, hm, and_self, if_true, List.mem_cons] at h
    rcases h with rfl | h
    · omega
    · have := ih (by simpa [hm] using h); omega
  | case2 o x y r hm ih =>
    simp only [mpos, hm, if_false] at h
    have := ih h; omega
  | case3 s o hs =>
    cases s with
    | nil => cases h
    | cons x r => cases r with
      | nil => cases h
      | cons y r => exact absurd rfl (hs x y r)

/-- The tokens after merging. -/
theorem toks_replaceAll {a b : Str} {s : List Str} (hs : NE s) {o q : Int} {t : Str} :
    (q, t) ∈ toks o (replaceAll (a, b) s) ↔
      (t = a ++ b ∧ q ∈ mpos a b o s) ∨ ((q, t) ∈ toks o s ∧ q ∉ mpos a b o s ∧ q - a.length ∉ mpos a b o s) := by
  induction o, s using mpos.induct (a := a) (b := b) with
  | case1 o x y r hm ih =>
    obtain ⟨hx, h'⟩ := hs.cons
    obtain ⟨hy, hr⟩ := h'.cons
    obtain ⟨rfl, rfl⟩ := hm
    have e : toks o (replaceAll (x, y) (x :: y :: r)) =
        (o, x ++ y) :: toks (o + x.length + y.length) (replaceAll (x, y) r) := by
      simp only [replaceAll, and_self, if_true, toks, List.length_append]
      congr 2
      omega
    rw [e]
    simp only [mpos, and_self, if_true, toks, List.mem_cons, Prod.mk.injEq, ih hr]
    constructor
    · rintro (⟨rfl, rfl⟩ | ⟨rfl, h⟩ | ⟨h1, h2, h3⟩)
      · exact .inl ⟨rfl, .inl rfl⟩
      · exact .inl ⟨rfl, .inr h⟩
      · have := toks_ge h1
        exact .inr ⟨.inr (.inr h1), by rintro (e | e); omega; exact h2 e, by rintro (e | e); omega; exact h3 e⟩
    · rintro (⟨rfl, rfl | h⟩ | ⟨h1, h2, h3⟩)
      · exact .inl ⟨rfl, rfl⟩
      · exact .inr (.inl ⟨rfl, h⟩)
      · rcases h1 with ⟨rfl, -⟩ | ⟨rfl, -⟩ | h1
        · exact absurd (.inl rfl) h2
        · exact absurd (.inl (by omega)) h3
        · exact .inr (.inr ⟨h1, fun e => h2 (.inr e), fun e => h3 (.inr e)⟩)
  | case2 o x y r hm ih =>
    obtain ⟨hx, h'⟩ := hs.cons
    have e : toks o (replaceAll (a, b) (x :: y :: r)) = (o, x) :: toks (o + x.length) (replaceAll (a, b) (y :: r)) := by
      simp only [replaceAll, hm, if_false, toks]
    rw [e]
    have e2 : mpos a b o (x :: y :: r) = mpos a b (o + x.length) (y :: r) := by simp only [mpos, hm, if_false]
    have e3 : toks o (x :: y :: r) = (o, x) :: toks (o + x.length) (y :: r) := rfl
    rw [e2, e3, List.mem_cons, List.mem_cons, ih h']
    constructor
    · rintro (h | h | ⟨h1, h2, h3⟩)
      · cases h
        refine .inr ⟨.inl rfl, fun e => ?_, fun e => ?_⟩ <;> have := mpos_ge e <;> omega
      · exact .inl h
      · exact .inr ⟨.inr h1, h2, h3⟩
    · rintro (h | ⟨h1 | h1, h2, h3⟩)
      · exact .inr (.inl h)
      · exact .inl h1
      · exact .inr (.inr ⟨h1, h2, h3⟩)
  | case3 s o hs' =>
    have : replaceAll (a, b) s = s ∧ mpos a b o s = [] := by
      cases s with
      | nil => exact ⟨rfl, rfl⟩
      | cons x r => cases r with
        | nil => exact ⟨rfl, rfl⟩
        | cons y r => exact absurd rfl (hs' x y r)
    simp [this.1, this.2]

theorem mpos_at {a b : Str} {s : List Str} {o q : Int} (h : q ∈ mpos a b o s) :
    (q, a) ∈ toks o s ∧ (q + a.length, b) ∈ toks o s := by
  induction o, s using mpos.induct (a := a) (b := b) with
  | case1 o x y r hm ih =>
    obtain ⟨rfl, rfl⟩ := hm
    simp only [mpos, and_self, if_true, List.mem_cons] at h
    rcases h with rfl | h
    · simp [toks]
    · obtain ⟨h1, h2⟩ := ih h
      simp [toks, h1, h2]
  | case2 o x y r hm ih =>
    simp only [mpos, hm, if_false] at h
    obtain ⟨h1, h2⟩ := ih h
    rw [toks]
    exact ⟨by simp [h1], by simp [h2]⟩
  | case3 s o hs =>
    cases s with
    | nil => cases h
    | cons x r => cases r with
      | nil => cases h
      | cons y r => exact absurd rfl (hs x y r)

theorem mpos_sorted {a b : Str} (s : List Str) (o : Int) :
    (mpos a b o s).Pairwise fun (x y : Int) => x + a.length + b.length ≤ y := by
  induction o, s using mpos.induct (a := a) (b := b) with
  | case1 o x y r hm ih =>
    simp only [mpos, hm, and_self, if_true]
    refine List.pairwise_cons.mpr ⟨fun z hz => mpos_ge hz, ?_⟩
    simpa [hm] using ih
  | case2 o x y r hm ih => simpa only [mpos, hm, if_false] using ih
  | case3 s o hs =>
    cases s with
    | nil => exact .nil
    | cons x r => cases r with
      | nil => exact .nil
      | cons y r => exact absurd rfl (hs x y r)

theorem mpos_max {a b : Str} {s : List Str} (hs : NE s) {o q : Int} (h1 : (q, a) ∈ toks o s)
    (h2 : (q + a.length, b) ∈ toks o s) : q ∈ mpos a b o s ∨ q - a.length ∈ mpos a b o s := by
  induction o, s using mpos.induct (a := a) (b := b) with
  | case1 o x y r hm ih =>
    obtain ⟨hx, h'⟩ := hs.cons
    obtain ⟨hy, hr⟩ := h'.cons
    obtain ⟨rfl, rfl⟩ := hm
    simp only [mpos, and_self, if_true, List.mem_cons]
    simp only [toks, List.mem_cons, Prod.mk.injEq] at h1 h2
    rcases h1 with ⟨rfl, -⟩ | ⟨rfl, -⟩ | h1
    · exact .inl (.inl rfl)
    · exact .inr (.inl (by omega))
    · have g1 := toks_ge h1
      rcases h2 with ⟨e, -⟩ | ⟨e, -⟩ | h2
      · omega
      · omega
      · rcases ih hr h1 h2 with h | h
        · exact .inl (.inr h)
        · exact .inr (.inr h)
  | case2 o x y r hm ih =>
    obtain ⟨hx, h'⟩ := hs.cons
    have e2 : mpos a b o (x :: y :: r) = mpos a b (o + x.length) (y :: r) := by simp only [mpos, hm, if_false]
    rw [e2]
    rw [toks, List.mem_cons] at h1 h2
    rcases h1 with h1 | h1
    · cases h1
      rcases h2 with h2 | h2
      · simp only [Prod.mk.injEq] at h2; omega
      · rw [toks, List.mem_cons] at h2
        rcases h2 with h2 | h2
        · simp only [Prod.mk.injEq, true_and] at h2; exact absurd ⟨rfl, h2.symm⟩ hm
        · have := toks_ge h2
          have := h'.cons.1
          omega
    · rcases h2 with h2 | h2
      · have := toks_ge h1
        simp only [Prod.mk.injEq] at h2; omega
      · exact ih h' h1 h2
  | case3 s o hs' =>
    cases s with
    | nil => cases h1
    | cons x r => cases r with
      | nil =>
        simp only [toks, List.mem_cons, Prod.mk.injEq, List.not_mem_nil, or_false] at h1 h2
        have := hs.cons.1
        obtain ⟨rfl, rfl⟩ := h1
        omega
      | cons y r => exact absurd rfl (hs' x y r)

theorem length_replaceAll {a b : Str} (s : List Str) (o : Int) :
    (replaceAll (a, b) s).length + (mpos a b o s).length = s.length := by
  induction o, s using mpos.induct (a := a) (b := b) with
  | case1 o x y r hm ih =>
    simp only [mpos, replaceAll, hm, and_self, if_true, List.length_cons]
    have := by simpa [hm] using ih
    omega
  | case2 o x y r hm ih =>
    simp only [mpos, replaceAll, hm, if_false, List.length_cons] at ih ⊢
    omega
  | case3 s o hs =>
    cases s with
    | nil => rfl
    | cons x r => cases r with
      | nil => rfl
      | cons y r => exact absurd rfl (hs x y r)

theorem ppos_mem {a b : Str} {s : List Str} (hs : NE s) {o q : Int} :
    q ∈ ppos a b o s ↔ (q, a) ∈ toks o s ∧ (q + a.length, b) ∈ toks o s := by
  induction s generalizing o with
  | nil => simp [ppos, toks]
  | cons x r ih =>
    obtain ⟨hx, h'⟩ := hs.cons
    cases r with
    | nil =>
      simp only [ppos, toks, List.mem_cons, List.not_mem_nil, or_false, Prod.mk.injEq, false_iff]
      rintro ⟨⟨rfl, rfl⟩, h, -⟩
      omega
    | cons y r =>
      have ih := ih h' (o := o + x.length)
      have hy := h'.cons.1
      have key : (q, a) ∈ toks o (x :: y :: r) ∧ (q + a.length, b) ∈ toks o (x :: y :: r) ↔
          (q = o ∧ x = a ∧ y = b) ∨ ((q, a) ∈ toks (o + x.length) (y :: r) ∧ (q + a.length, b) ∈ toks (o + x.length) (y :: r)) := by
        rw [toks, List.mem_cons, List.mem_cons]
        constructor
        · rintro ⟨h1 | h1, h2 | h2⟩
          · simp only [Prod.mk.injEq] at h1 h2
            obtain ⟨rfl, rfl⟩ := h1
            omega
          · simp only [Prod.mk.injEq] at h1
            obtain ⟨rfl, rfl⟩ := h1
            rw [toks, List.mem_cons] at h2
            rcases h2 with h2 | h2
            · simp only [Prod.mk.injEq, true_and] at h2
              exact .inl ⟨rfl, rfl, h2.symm⟩
            · have := toks_ge h2; omega
          · simp only [Prod.mk.injEq] at h2
            have := toks_ge h1; omega
          · exact .inr ⟨h1, h2⟩
        · rintro (⟨rfl, rfl, rfl⟩ | ⟨h1, h2⟩)
          · exact ⟨.inl rfl, .inr (by simp [toks])⟩
          · exact ⟨.inr h1, .inr h2⟩
      rw [key, ← ih]
      by_cases hm : x = a ∧ y = b
      · simp [ppos, hm]
      · simp [ppos, hm]

theorem ppos_sorted {a b : Str} {s : List Str} (hs : NE s) (o : Int) : (ppos a b o s).Pairwise (· < ·) := by
  induction s generalizing o with
  | nil => exact .nil
  | cons x r ih =>
    obtain ⟨hx, h'⟩ := hs.cons
    cases r with
    | nil => exact .nil
    | cons y r =>
      have := ih h' (o + x.length)
      by_cases hm : x = a ∧ y = b
      · simp only [ppos, hm, and_self, if_true]
        refine List.pairwise_cons.mpr ⟨fun z hz => ?_, by simpa [hm] using this⟩
        have : z ∈ ppos x y (o + x.length) (y :: r) := by simpa [hm] using hz
        rw [ppos_mem h'] at this
        have := toks_ge this.1
        omega
      · simpa only [ppos, hm, if_false] using this

theorem ppos_length {a b : Str} (s : List Str) (o : Int) : (ppos a b o s).length = pairCount (a, b) s := by
  induction s generalizing o with
  | nil => rfl
  | cons x r ih =>
    cases r with
    | nil => rfl
    | cons y r =>
      by_cases hm : x = a ∧ y = b
      · simp only [ppos, pairCount, hm, and_self, if_true, List.length_cons]
        have := ih (o + x.length)
        rw [hm.1, hm.2] at this
        rw [this]; omega
      · simp only [ppos, pairCount, hm, if_false]
        rw [ih]; omega

/-- Two strictly increasing lists with the same elements are equal. -/
theorem sorted_ext {l m : List Int} (hl : l.Pairwise (· < ·)) (hm : m.Pairwise (· < ·)) (h : ∀ x, x ∈ l ↔ x ∈ m) : l = m := by
  induction l generalizing m with
  | nil =>
    cases m with
    | nil => rfl
    | cons y m => exact absurd ((h y).mpr (by simp)) (by simp)
  | cons x l ih =>
    cases m with
    | nil => exact absurd ((h x).mp (by simp)) (by simp)
    | cons y m =>
      rw [List.pairwise_cons] at hl hm
      have e : x = y := by
        have h1 := (h x).mp (by simp)
        have h2 := (h y).mpr (by simp)
        rw [List.mem_cons] at h1 h2
        rcases h1 with h1 | h1
        · exact h1
        · rcases h2 with h2 | h2
          · exact h2.symm
          · have := hl.1 y h2; have := hm.1 x h1; omega
      subst e
      rw [ih hl.2 hm.2]
      intro z
      have := h z
      rw [List.mem_cons, List.mem_cons] at this
      constructor
      · intro hz
        rcases this.mp (.inr hz) with e | e
        · have := hl.1 z hz; omega
        · exact e
      · intro hz
        rcases this.mpr (.inr hz) with e | e
        · have := hm.1 z hz; omega
        · exact e

end Verif.Wild
