import Verif.Model.Registry
import Verif.Proofs.Files
import Verif.Proofs.Regex
/-!
# Lemmas about the registry of learnt merges
-/
namespace Verif
open Spec

/-! ## Numbers -/

theorem natStrAux_eq {f n : Nat} (h : n < f) : natStrAux f n = natStr n := by
  have key : ∀ f g n, n < f → n < g → natStrAux f n = natStrAux g n := by
    intro f
    induction f with
    | zero => intro g n h; omega
    | succ f ih =>
      intro g n h1 h2
      cases g with
      | zero => omega
      | succ g =>
        unfold natStrAux
        split
        · rfl
        · rw [ih g (n / 10) (by omega) (by omega)]
  exact key f (n + 1) n h (by omega)

theorem natStr_snoc {n d : Nat} (hn : 0 < n) (hd : d < 10) : natStr (n * 10 + d) = natStr n ++ [Char.ofNat (48 + d)] := by
  rw [natStr, natStrAux, if_neg (by omega), natStrAux_eq (by omega)]
  have e1 : (n * 10 + d) / 10 = n := by omega
  have e2 : (n * 10 + d) % 10 = d := by omega
  rw [e1, e2]

theorem natStr_digit {d : Nat} (hd : d < 10) : natStr d = [Char.ofNat (48 + d)] := by
  rw [natStr, natStrAux, if_pos hd, Nat.mod_eq_of_lt hd]
  rfl

theorem digitsVal_snoc (s : Str) (c : Char) : digitsVal (s ++ [c]) = digitsVal s * 10 + (c.toNat - 48) := by
  simp [digitsVal]

theorem ofNat_digit {c : Char} (h : asciiDigit c = true) : Char.ofNat (48 + (c.toNat - 48)) = c := by
  unfold asciiDigit at h
  simp at h
  have : 48 + (c.toNat - 48) = c.toNat := by omega
  rw [this]
  exact Char.ofNat_toNat c

/-- A list with a last element, by induction from the end. -/
theorem snoc_induction {α : Type} {P : List α → Prop} (nil : P []) (snoc : ∀ l a, P l → P (l ++ [a])) (l : List α) : P l := by
  have : ∀ n, ∀ l : List α, l.length = n → P l := by
    intro n
    induction n with
    | zero => intro l h; rw [List.length_eq_zero_iff.mp h]; exact nil
    | succ n ih =>
      intro l h
      have hl : l ≠ [] := by rintro rfl; simp at h
      rw [← List.dropLast_concat_getLast hl]
      exact snoc _ _ (ih _ (by simp [h]))
  exact this _ l rfl

/-- Numerals without leading zeros are `str` of their values. -/
theorem natStr_digitsVal {d : Char} (hd : 49 ≤ d.toNat ∧ d.toNat ≤ 57) (r : Str) (hr : r.all asciiDigit = true) :
    natStr (digitsVal (d :: r)) = d :: r ∧ 0 < digitsVal (d :: r) := by
  have hd' : asciiDigit d = true := by unfold asciiDigit; simp; omega
  revert hr
  refine snoc_induction (P := fun r => r.all asciiDigit = true → natStr (digitsVal (d :: r)) = d :: r ∧ 0 < digitsVal (d :: r)) ?_ ?_ r
  · intro _
    have e : digitsVal [d] = d.toNat - 48 := by simp [digitsVal]
    rw [e]
    refine ⟨?_, by omega⟩
    rw [natStr_digit (by omega), ofNat_digit hd']
  · intro r c ih hr
    rw [List.all_append] at hr
    simp at hr
    obtain ⟨i1, i2⟩ := ih (by rw [List.all_eq_true]; exact hr.1)
    have hc : 48 ≤ c.toNat ∧ c.toNat ≤ 57 := by have := hr.2; unfold asciiDigit at this; simpa using this
    have e : d :: (r ++ [c]) = (d :: r) ++ [c] := rfl
    rw [e, digitsVal_snoc]
    refine ⟨?_, by omega⟩
    rw [natStr_snoc i2 (by omega), i1, ofNat_digit hr.2]

theorem digitsVal_natStr (n : Nat) : digitsVal (natStr n) = n := by
  have h : ∀ s : Str, ∀ acc, (∀ c ∈ s, 48 ≤ c.toNat ∧ c.toNat ≤ 57) → parseDigits true acc s = some (s.foldl (fun n c => n * 10 + (c.toNat - 48)) acc) := by
    intro s
    induction s with
    | nil => intro acc _; rfl
    | cons c s ih =>
      intro acc hs
      unfold parseDigits
      rw [if_pos (hs c List.mem_cons_self), ih _ fun d hd => hs d (List.mem_cons_of_mem _ hd)]
      rfl
  have hp := parseDigits_natStr n
  have hd := natStr_digits n
  cases hs : natStr n with
  | nil => exact absurd hs (natStr_ne_nil n)
  | cons c s =>
    rw [hs] at hp hd
    unfold parseDigits at hp
    rw [if_pos (hd c List.mem_cons_self), h _ _ fun d hd' => hd d (List.mem_cons_of_mem _ hd')] at hp
    exact Option.some.inj hp

theorem natStr_all_digits (n : Nat) : (natStr n).all asciiDigit = true := by
  rw [List.all_eq_true]
  intro c hc
  have := natStr_digits n c hc
  unfold asciiDigit
  simp; omega

theorem natStr_first {n : Nat} (h : 1 ≤ n) : ∃ d r, natStr n = d :: r ∧ 49 ≤ d.toNat ∧ d.toNat ≤ 57 := by
  induction n using Nat.strongRecOn with
  | ind n ih =>
    by_cases hn : n < 10
    · refine ⟨Char.ofNat (48 + n), [], natStr_digit hn, ?_⟩
      have : ∀ k : Fin 10, 1 ≤ k.1 → 49 ≤ (Char.ofNat (48 + k.1)).toNat ∧ (Char.ofNat (48 + k.1)).toNat ≤ 57 := by decide
      exact this ⟨n, hn⟩ h
    · obtain ⟨d, r, e, hd⟩ := ih (n / 10) (by omega) (by omega)
      refine ⟨d, r ++ [Char.ofNat (48 + n % 10)], ?_, hd⟩
      have : n = n / 10 * 10 + n % 10 := by omega
      rw [this, natStr_snoc (by omega) (by omega), e]
      have e1 : (n / 10 * 10 + n % 10) % 10 = n % 10 := by omega
      rw [e1]
      rfl

theorem natStr_inj {m n : Nat} (h : natStr m = natStr n) : m = n := by
  have := digitsVal_natStr m
  rw [h, digitsVal_natStr] at this
  exact this.symm

/-! ## Splitting at the last separator -/

theorem mem_takeWhile_pos {p : Char → Bool} {c : Char} {s : Str} (h : c ∈ s.takeWhile p) : p c = true := by
  induction s with
  | nil => simp at h
  | cons x s ih =>
    rw [List.takeWhile_cons] at h
    split at h
    · next hx =>
      rcases List.mem_cons.mp h with rfl | h
      · exact hx
      · exact ih h
    · simp at h

theorem rsplitOnce_append {sep : Char} (a b : Str) (hb : sep ∉ b) : rsplitOnce sep (a ++ sep :: b) = some (a, b) := by
  have h1 : (a ++ sep :: b).reverse = b.reverse ++ sep :: a.reverse := by simp
  have h2 : ∀ c ∈ b.reverse, (decide (c ≠ sep)) = true := by
    intro c hc
    simp at hc
    simp
    rintro rfl
    exact hb hc
  unfold rsplitOnce
  rw [h1]
  simp only
  rw [List.dropWhile_append_of_pos h2, List.takeWhile_append_of_pos h2]
  simp

theorem rsplitOnce_some {sep : Char} {s a b : Str} (h : rsplitOnce sep s = some (a, b)) : s = a ++ sep :: b ∧ sep ∉ b := by
  unfold rsplitOnce at h
  simp only at h
  split at h
  · cases h
  · next x r he =>
    simp only [Option.some.injEq, Prod.mk.injEq] at h
    obtain ⟨rfl, rfl⟩ := h
    have hx : x = sep := by
      have := List.head?_dropWhile_not (p := fun c => decide (c ≠ sep)) (l := s.reverse)
      rw [he] at this
      simpa using this
    subst hx
    constructor
    · have := List.takeWhile_append_dropWhile (p := fun c => decide (c ≠ x)) (l := s.reverse)
      rw [he] at this
      have := congrArg List.reverse this
      rw [List.reverse_reverse, List.reverse_append] at this
      simpa using this.symm
    · intro hm
      rw [List.mem_reverse] at hm
      have := mem_takeWhile_pos hm
      simp at this

theorem rsplitOnce_none {sep : Char} {s : Str} : rsplitOnce sep s = none ↔ sep ∉ s := by
  constructor
  · intro h hm
    obtain ⟨a, b, e⟩ := List.append_of_mem hm
    obtain ⟨a', b', e', hb⟩ : ∃ a b, s = a ++ sep :: b ∧ sep ∉ b := by
      have : sep ∈ s.reverse := by simpa using hm
      have hs : ∀ l : Str, sep ∈ l → ∃ a b, l = b ++ sep :: a ∧ sep ∉ b := by
        intro l
        induction l with
        | nil => simp
        | cons x l ih =>
          intro hx
          by_cases hxs : x = sep
          · exact ⟨l, [], by simp [hxs], by simp⟩
          · rcases List.mem_cons.mp hx with h | h
            · exact absurd h.symm hxs
            · obtain ⟨a, b, e, hb⟩ := ih h
              exact ⟨a, x :: b, by simp [e], by simp [hb]; exact fun h => hxs h.symm⟩
      obtain ⟨a, b, e, hb⟩ := hs _ this
      have := congrArg List.reverse e
      simp at this
      exact ⟨a.reverse, b.reverse, this, by simpa using hb⟩
    rw [e', rsplitOnce_append _ _ hb] at h
    cases h
  · intro h
    cases hr : rsplitOnce sep s with
    | none => rfl
    | some p =>
      obtain ⟨a, b⟩ := p
      have := (rsplitOnce_some hr).1
      exact absurd (by rw [this]; simp) h

/-! ## Identifiers as patterns -/

theorem idReLoop_self (s : Str) (hs : ∀ c ∈ s, special c = false) :
    ∀ a : Option Re, ∃ re, idReLoop a s = some re ∧
      ∀ p, (match a with | none => p = [] | some x => Matches x p) → Matches re (p ++ s) := by
  induction s with
  | nil =>
    intro a
    refine ⟨_, rfl, fun p hp => ?_⟩
    cases a with
    | none => simp at hp; subst hp; exact .eps
    | some x => simpa using hp
  | cons c s ih =>
    intro a
    have hc := hs c List.mem_cons_self
    have h1 : c ≠ '+' := by rintro rfl; revert hc; decide
    have h2 : c ≠ '*' := by rintro rfl; revert hc; decide
    have h3 : c ≠ '?' := by rintro rfl; revert hc; decide
    obtain ⟨re, e, hre⟩ := ih (fun d hd => hs d (List.mem_cons_of_mem _ hd)) (some (atomRe c))
    have hat : Matches (atomRe c) [c] := by
      unfold atomRe
      split
      · next h => subst h; exact .cls (by decide)
      · exact .cls (by simp)
    unfold idReLoop
    rw [if_neg h1, if_neg h2, if_neg h3, if_neg (by rw [hc]; decide), e]
    have hm : Matches re ([c] ++ s) := hre [c] hat
    cases a with
    | none =>
      refine ⟨re, rfl, fun p hp => ?_⟩
      simp at hp
      subst hp
      exact hm
    | some x =>
      refine ⟨.seq x re, rfl, fun p hp => ?_⟩
      exact .seq hp hm

theorem idRe_self {base : Str} (h : ∀ c ∈ base, special c = false) : ∃ re, idRe base = some re ∧ re.fullmatch base = true := by
  obtain ⟨re, e, hm⟩ := idReLoop_self base h none
  exact ⟨re, e, (fullmatch_iff _ _).mpr (by simpa using hm [] rfl)⟩

theorem extractNumber_numbered {base : Str} {re : Re} (h : re.fullmatch base = true) (n : Nat) :
    extractNumber re (base ++ '_' :: natStr n) = n := by
  unfold extractNumber
  rw [rsplitOnce_append _ _ (natStr_no (by decide))]
  simp only
  rw [if_pos ⟨natStr_ne_nil n, natStr_all_digits n, h⟩, digitsVal_natStr]

theorem foldl_max_ge (l : List Nat) : ∀ a, a ≤ l.foldl max a ∧ ∀ x ∈ l, x ≤ l.foldl max a := by
  induction l with
  | nil => intro a; simp
  | cons y l ih =>
    intro a
    obtain ⟨h1, h2⟩ := ih (max a y)
    simp only [List.foldl_cons, List.mem_cons]
    refine ⟨by omega, ?_⟩
    rintro x (rfl | hx)
    · omega
    · exact h2 x hx

/-! ## Numbers of merges -/

/-- The numbers among the names of subdirectories. -/
def nums (subdirs : List Str) : List Int := subdirs.filterMap fun s => match pyInt s with
  | .ok n => some n
  | .error _ => none

theorem extremeLoop_eq (f : Int → Int → Bool) (l : List Str) : ∀ e, extremeLoop f e l = (nums l).foldl (fun e n => if f e n then n else e) e := by
  induction l with
  | nil => intro e; rfl
  | cons s l ih =>
    intro e
    unfold extremeLoop nums
    cases h : pyInt s with
    | ok n => simp only [List.filterMap_cons, h]; exact ih _
    | error x => simp only [List.filterMap_cons, h]; exact ih _

theorem minLoop (lim : Int) (l : List Int) : ∀ e : Int, ∃ r, l.foldl (fun e n => if decide (e > n) && decide (n ≥ lim) then n else e) e = r ∧
    r ≤ e ∧ (r = e ∨ (r ∈ l ∧ lim ≤ r)) ∧ ∀ k ∈ l, lim ≤ k → r ≤ k := by
  induction l with
  | nil => intro e; exact ⟨e, rfl, Int.le_refl _, .inl rfl, by simp⟩
  | cons n l ih =>
    intro e
    simp only [List.foldl_cons, Bool.and_eq_true, decide_eq_true_eq]
    split
    · next h =>
      obtain ⟨r, e1, e2, e3, e4⟩ := ih n
      simp only [Bool.and_eq_true, decide_eq_true_eq] at e1
      refine ⟨r, e1, by omega, .inr ?_, ?_⟩
      · rcases e3 with rfl | ⟨h1, h2⟩
        · exact ⟨List.mem_cons_self, h.2⟩
        · exact ⟨List.mem_cons_of_mem _ h1, h2⟩
      · intro k hk hl
        rcases List.mem_cons.mp hk with rfl | hk
        · exact e2
        · exact e4 k hk hl
    · next h =>
      obtain ⟨r, e1, e2, e3, e4⟩ := ih e
      simp only [Bool.and_eq_true, decide_eq_true_eq] at e1
      refine ⟨r, e1, e2, ?_, ?_⟩
      · rcases e3 with h1 | ⟨h1, h2⟩
        · exact .inl h1
        · exact .inr ⟨List.mem_cons_of_mem _ h1, h2⟩
      · intro k hk hl
        rcases List.mem_cons.mp hk with rfl | hk
        · omega
        · exact e4 k hk hl

theorem maxLoop (lim : Int) (l : List Int) : ∀ e : Int, ∃ r, l.foldl (fun e n => if decide (e < n) && decide (n ≤ lim) then n else e) e = r ∧
    e ≤ r ∧ (r = e ∨ (r ∈ l ∧ r ≤ lim)) ∧ ∀ k ∈ l, k ≤ lim → k ≤ r := by
  induction l with
  | nil => intro e; exact ⟨e, rfl, Int.le_refl _, .inl rfl, by simp⟩
  | cons n l ih =>
    intro e
    simp only [List.foldl_cons, Bool.and_eq_true, decide_eq_true_eq]
    split
    · next h =>
      obtain ⟨r, e1, e2, e3, e4⟩ := ih n
      simp only [Bool.and_eq_true, decide_eq_true_eq] at e1
      refine ⟨r, e1, by omega, .inr ?_, ?_⟩
      · rcases e3 with rfl | ⟨h1, h2⟩
        · exact ⟨List.mem_cons_self, h.2⟩
        · exact ⟨List.mem_cons_of_mem _ h1, h2⟩
      · intro k hk hl
        rcases List.mem_cons.mp hk with rfl | hk
        · exact e2
        · exact e4 k hk hl
    · next h =>
      obtain ⟨r, e1, e2, e3, e4⟩ := ih e
      simp only [Bool.and_eq_true, decide_eq_true_eq] at e1
      refine ⟨r, e1, e2, ?_, ?_⟩
      · rcases e3 with h1 | ⟨h1, h2⟩
        · exact .inl h1
        · exact .inr ⟨List.mem_cons_of_mem _ h1, h2⟩
      · intro k hk hl
        rcases List.mem_cons.mp hk with rfl | hk
        · omega
        · exact e4 k hk hl

theorem getMinMerges_iff (subs : List Str) (lim m : Int) :
    getMinMerges subs lim = some m ↔ m ∈ nums subs ∧ lim ≤ m ∧ m < sysMaxsize ∧ ∀ k ∈ nums subs, lim ≤ k → m ≤ k := by
  unfold getMinMerges extreme
  rw [extremeLoop_eq]
  obtain ⟨r, e1, e2, e3, e4⟩ := minLoop lim (nums subs) sysMaxsize
  simp only at e1 ⊢
  rw [e1]
  split
  · next h =>
    have h3 : r ∈ nums subs ∧ lim ≤ r := by rcases e3 with h1 | h1; exact absurd h1 h; exact h1
    constructor
    · intro h'
      obtain rfl := Option.some.inj h'
      exact ⟨h3.1, h3.2, by omega, e4⟩
    · rintro ⟨h1, h2, _, h4⟩
      rw [Int.le_antisymm (h4 r h3.1 h3.2) (e4 m h1 h2)]
  · next h =>
    simp at h
    constructor
    · intro h'; cases h'
    · rintro ⟨h1, h2, h3, _⟩
      have := e4 m h1 h2
      omega

theorem getMaxMerges_iff (subs : List Str) (lim m : Int) :
    getMaxMerges subs lim = some m ↔ m ∈ nums subs ∧ 0 < m ∧ m ≤ lim ∧ ∀ k ∈ nums subs, k ≤ lim → k ≤ m := by
  unfold getMaxMerges extreme
  rw [extremeLoop_eq]
  obtain ⟨r, e1, e2, e3, e4⟩ := maxLoop lim (nums subs) 0
  simp only at e1 ⊢
  rw [e1]
  split
  · next h =>
    have h3 : r ∈ nums subs ∧ r ≤ lim := by
      rcases e3 with h' | h'
      · exact absurd h' h
      · exact h'
    constructor
    · intro h'
      obtain rfl := Option.some.inj h'
      exact ⟨h3.1, by omega, h3.2, e4⟩
    · rintro ⟨h1, h2, h5, h4⟩
      rw [Int.le_antisymm (e4 m h1 h5) (h4 r h3.1 h3.2)]
  · next h =>
    simp at h
    constructor
    · intro h'; cases h'
    · rintro ⟨h1, h2, h3, _⟩
      have := e4 m h1 h3
      omega

end Verif
