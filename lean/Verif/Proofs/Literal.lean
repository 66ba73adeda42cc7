import Verif.Model.Literal
import Verif.Proofs.Str
/-!
# Lemmas about the literal codec and numerals
-/
namespace Verif

theorem hexVal_hexDigit {n : Nat} (h : n < 16) : hexVal (hexDigit n) = some n := by
  have : ∀ k : Fin 16, hexVal (hexDigit k.1) = some k.1 := by decide
  exact this ⟨n, h⟩

theorem hexDigit_printable {n : Nat} (h : n < 16) :
    32 ≤ (hexDigit n).toNat ∧ (hexDigit n).toNat < 127 := by
  have : ∀ k : Fin 16, 32 ≤ (hexDigit k.1).toNat ∧ (hexDigit k.1).toNat < 127 := by decide
  exact this ⟨n, h⟩

theorem hexN_printable (w n : Nat) : ∀ d ∈ hexN w n, 32 ≤ d.toNat ∧ d.toNat < 127 := by
  induction w generalizing n with
  | zero => simp [hexN]
  | succ w ih =>
    intro d hd
    rw [hexN, List.mem_append, List.mem_singleton] at hd
    rcases hd with hd | hd
    · exact ih _ d hd
    · subst hd; exact hexDigit_printable (Nat.mod_lt _ (by decide))

theorem takeHex_add {k acc v : Nat} {s r : Str} (h : takeHex k acc s = some (v, r)) (m : Nat) :
    takeHex (k + m) acc s = takeHex m v r := by
  induction k generalizing acc s with
  | zero =>
    simp only [takeHex, Option.some.injEq, Prod.mk.injEq] at h
    obtain ⟨rfl, rfl⟩ := h
    simp
  | succ k ih =>
    cases s with
    | nil => simp [takeHex] at h
    | cons c s =>
      rw [show k + 1 + m = (k + m) + 1 by omega]
      rw [takeHex] at h ⊢
      cases hv : hexVal c with
      | none => simp [hv] at h
      | some x => rw [hv] at h; exact ih h

theorem takeHex_hexN (w n acc : Nat) (r : Str) (h : n < 16 ^ w) :
    takeHex w acc (hexN w n ++ r) = some (acc * 16 ^ w + n, r) := by
  induction w generalizing n r with
  | zero =>
    simp at h
    simp [takeHex, hexN, h]
  | succ w ih =>
    have hn : n / 16 < 16 ^ w := by
      rw [Nat.div_lt_iff_lt_mul (by decide)]; rw [Nat.pow_succ] at h; exact h
    have h1 := ih (n / 16) (hexDigit (n % 16) :: r) hn
    have h2 := takeHex_add h1 1
    rw [hexN, List.append_assoc]
    simp only [List.singleton_append]
    rw [h2, takeHex, hexVal_hexDigit (Nat.mod_lt _ (by decide))]
    simp only [takeHex, Option.some.injEq, Prod.mk.injEq, and_true]
    rw [Nat.pow_succ]
    have := Nat.div_add_mod n 16
    rw [Nat.add_mul, Nat.mul_assoc]
    omega

theorem charOf?_toNat (c : Char) : charOf? c.toNat = some c := by
  unfold charOf?
  rw [if_pos (show c.toNat.isValidChar from c.valid), Char.ofNat_toNat]

theorem toNat_lt (c : Char) : c.toNat < 0x110000 := by
  have h : c.toNat.isValidChar := c.valid
  unfold Nat.isValidChar at h
  omega

/-- Every character of an escaped character is printable ASCII. -/
theorem litChar_printable (c : Char) : ∀ d ∈ litChar c, 32 ≤ d.toNat ∧ d.toNat < 127 := by
  intro d hd
  unfold litChar at hd
  simp only at hd
  split at hd
  · simp at hd; subst hd; decide
  split at hd
  · simp at hd; rcases hd with rfl | rfl <;> decide
  split at hd
  · simp at hd; rcases hd with rfl | rfl <;> decide
  split at hd
  · simp at hd; rcases hd with rfl | rfl <;> decide
  split at hd
  · rename_i h; simp at hd; subst hd; exact h
  split at hd
  · simp only [List.mem_cons] at hd
    rcases hd with rfl | rfl | hd
    · decide
    · decide
    · exact hexN_printable _ _ d hd
  split at hd
  · simp only [List.mem_cons] at hd
    rcases hd with rfl | rfl | hd
    · decide
    · decide
    · exact hexN_printable _ _ d hd
  · simp only [List.mem_cons] at hd
    rcases hd with rfl | rfl | hd
    · decide
    · decide
    · exact hexN_printable _ _ d hd

theorem toLiteral_printable (s : Str) : ∀ d ∈ toLiteral s, 32 ≤ d.toNat ∧ d.toNat < 127 := by
  intro d hd
  unfold toLiteral at hd
  rw [List.mem_flatMap] at hd
  obtain ⟨c, -, h⟩ := hd
  exact litChar_printable c d h

theorem toLiteral_append (s t : Str) : toLiteral (s ++ t) = toLiteral s ++ toLiteral t := by
  simp [toLiteral]

theorem utf8_ascii {c : Char} (h : c.toNat < 128) :
    (String.utf8EncodeChar c).map (fun b => Char.ofNat b.toNat) = [c] := by
  have h1 : c.val.toNat ≤ 127 := by have : c.toNat = c.val.toNat := rfl; omega
  rw [String.utf8EncodeChar_eq_singleton (by unfold Char.utf8Size; simp [UInt32.le_iff_toNat_le]; intro h2; exfalso; omega)]
  simp only [List.map_cons, List.map_nil, List.cons.injEq, and_true]
  have : (c.val.toUInt8).toNat = c.toNat := by
    simp only [UInt32.toNat_toUInt8]
    have : c.toNat = c.val.toNat := rfl
    omega
  rw [this, Char.ofNat_toNat]

theorem utf8AsLatin1_ascii {s : Str} (h : ∀ c ∈ s, c.toNat < 128) : utf8AsLatin1 s = s := by
  unfold utf8AsLatin1
  induction s with
  | nil => rfl
  | cons c s ih =>
    rw [List.flatMap_cons, utf8_ascii (h c (by simp)), ih (fun d hd => h d (by simp [hd]))]
    rfl

theorem decodeLoop_nil (n : Nat) : decodeLoop n [] = .ok [] := by cases n <;> rfl

/-- One escaped character is decoded in one round. -/
theorem decodeLoop_litChar (n : Nat) (c : Char) (r : Str) :
    decodeLoop (n + 1) (litChar c ++ r) = (decodeLoop n r).bind fun t => .ok (c :: t) := by
  unfold litChar
  simp only
  split
  · next h => subst h; simp [decodeLoop, decodeEscape]; rfl
  split
  · next h => subst h; simp [decodeLoop, decodeEscape]; rfl
  split
  · next h => subst h; simp [decodeLoop, decodeEscape]; rfl
  split
  · next h => subst h; simp [decodeLoop, decodeEscape]; rfl
  split
  · next h _ _ _ _ => simp [decodeLoop, h]; rfl
  split
  · next h =>
    have e := takeHex_hexN 2 c.toNat 0 r (by omega)
    simp only [Nat.zero_mul, Nat.zero_add] at e
    simp [decodeLoop, decodeEscape, e, charOf?_toNat]; rfl
  split
  · next h =>
    have e := takeHex_hexN 4 c.toNat 0 r (by omega)
    simp only [Nat.zero_mul, Nat.zero_add] at e
    simp [decodeLoop, decodeEscape, e, charOf?_toNat]; rfl
  · have e := takeHex_hexN 8 c.toNat 0 r (by have := toNat_lt c; omega)
    simp only [Nat.zero_mul, Nat.zero_add] at e
    simp [decodeLoop, decodeEscape, e, charOf?_toNat]; rfl

/-- Decoding a literal followed by ASCII text without backslashes. -/
theorem decodeLoop_literal (s : Str) (n : Nat) (h : s.length ≤ n) (r : Str) :
    decodeLoop n (toLiteral s ++ r) = (decodeLoop (n - s.length) r).bind fun t => .ok (s ++ t) := by
  induction s generalizing n with
  | nil =>
    simp only [toLiteral, List.flatMap_nil, List.nil_append, List.length_nil, Nat.sub_zero]
    cases decodeLoop n r <;> rfl
  | cons c s ih =>
    cases n with
    | zero => simp at h
    | succ n =>
      rw [show toLiteral (c :: s) ++ r = litChar c ++ (toLiteral s ++ r) by simp [toLiteral]]
      rw [decodeLoop_litChar, ih n (by simpa using h)]
      simp only [List.length_cons, Nat.add_sub_add_right]
      cases decodeLoop (n - s.length) r <;> rfl

theorem decodeLoop_plain (s : Str) (n : Nat) (h : s.length ≤ n) (hs : '\\' ∉ s) : decodeLoop n s = .ok s := by
  induction s generalizing n with
  | nil => exact decodeLoop_nil n
  | cons c s ih =>
    cases n with
    | zero => simp at h
    | succ n =>
      simp only [List.mem_cons, not_or] at hs
      rw [decodeLoop, if_neg (fun e => hs.1 e.symm), ih n (by simpa using h) hs.2]
      rfl

theorem litChar_length (c : Char) : 1 ≤ (litChar c).length := by
  unfold litChar
  simp only
  repeat' split
  all_goals simp

theorem toLiteral_length (s : Str) : s.length ≤ (toLiteral s).length := by
  induction s with
  | nil => simp
  | cons c s ih =>
    have := litChar_length c
    simp only [toLiteral, List.flatMap_cons, List.length_append, List.length_cons] at ih ⊢
    omega

/-- Un-escaping a literal followed by plain printable text (as in the lines of a merge file). -/
theorem toNonLiteral_literal_plain (s r : Str) (hr : ∀ c ∈ r, c.toNat < 128) (hb : '\\' ∉ r) :
    toNonLiteral (toLiteral s ++ r) = .ok (s ++ r) := by
  have hl : ∀ c ∈ toLiteral s ++ r, c.toNat < 128 := by
    intro c hc
    rcases List.mem_append.1 hc with hc | hc
    · have := toLiteral_printable s c hc; omega
    · exact hr c hc
  have e1 := toLiteral_length s
  unfold toNonLiteral
  simp only
  rw [utf8AsLatin1_ascii hl, decodeLoop_literal _ _ (by simp; omega), decodeLoop_plain r _ (by simp; omega) hb]
  rfl

theorem toNonLiteral_literal (s : Str) : toNonLiteral (toLiteral s) = .ok s := by
  have := toNonLiteral_literal_plain s [] (by simp) (by simp)
  simpa using this

theorem toLiteral_inj {s t : Str} (h : toLiteral s = toLiteral t) : s = t := by
  have h1 := toNonLiteral_literal s
  rw [h, toNonLiteral_literal] at h1
  injection h1 with h1
  exact h1.symm

/-! ### Numerals -/

theorem isDigit_char {d : Nat} (h : d < 10) : (Char.ofNat (48 + d)).toNat = 48 + d := by
  have : ∀ k : Fin 10, (Char.ofNat (48 + k.1)).toNat = 48 + k.1 := by decide
  exact this ⟨d, h⟩

theorem natStrAux_digits (f n : Nat) : ∀ c ∈ natStrAux f n, 48 ≤ c.toNat ∧ c.toNat ≤ 57 := by
  induction f generalizing n with
  | zero => simp [natStrAux]
  | succ f ih =>
    intro c hc
    rw [natStrAux, List.mem_append, List.mem_singleton] at hc
    rcases hc with hc | rfl
    · split at hc
      · simp at hc
      · exact ih _ c hc
    · rw [isDigit_char (Nat.mod_lt _ (by decide))]; have := Nat.mod_lt n (show 10 > 0 by decide); omega

theorem natStr_digits (n : Nat) : ∀ c ∈ natStr n, 48 ≤ c.toNat ∧ c.toNat ≤ 57 := natStrAux_digits _ _

theorem natStr_ne_nil (n : Nat) : natStr n ≠ [] := by
  unfold natStr natStrAux
  simp

theorem parseDigits_append (s r : Str) (p : Bool) (acc v : Nat) (hs : s ≠ [])
    (h : parseDigits p acc s = some v) (hd : ∀ c ∈ s, 48 ≤ c.toNat ∧ c.toNat ≤ 57) :
    parseDigits p acc (s ++ r) = parseDigits true v r := by
  induction s generalizing p acc with
  | nil => exact absurd rfl hs
  | cons c s ih =>
    have hc := hd c (by simp)
    rw [parseDigits, if_pos hc] at h
    rw [List.cons_append, parseDigits, if_pos hc]
    cases s with
    | nil => simp only [parseDigits, if_true, Option.some.injEq] at h; subst h; rfl
    | cons c' s => exact ih true _ (by simp) h (fun d h => hd d (by simp [h]))

theorem parseDigits_natStrAux (f n : Nat) (h : n < f) : parseDigits false 0 (natStrAux f n) = some n := by
  induction f generalizing n with
  | zero => omega
  | succ f ih =>
    rw [natStrAux]
    have hd := isDigit_char (Nat.mod_lt n (show 10 > 0 by decide))
    have hlt := Nat.mod_lt n (show 10 > 0 by decide)
    split
    · next hn =>
      rw [List.nil_append, parseDigits, hd, if_pos (by omega)]
      simp [parseDigits]; omega
    · next hn =>
      have hf : n / 10 < f := by omega
      have h1 := ih (n / 10) hf
      have hne : natStrAux f (n / 10) ≠ [] := by
        cases f with
        | zero => omega
        | succ f => simp [natStrAux]
      rw [parseDigits_append _ _ _ _ _ hne h1 (natStrAux_digits _ _), parseDigits, hd, if_pos (by omega)]
      simp [parseDigits]; omega

theorem parseDigits_natStr (n : Nat) : parseDigits false 0 (natStr n) = some n :=
  parseDigits_natStrAux _ _ (by omega)

theorem dropWhile_head {p : Char → Bool} {s : Str} (h : ∀ c ∈ s.head?, p c = false) : s.dropWhile p = s := by
  cases s with
  | nil => rfl
  | cons c s => rw [List.dropWhile_cons, if_neg]; simp [h c (by simp)]

theorem strip_id {s : Str} (h : ∀ c ∈ s, isAsciiSpace c = false) :
    ((s.dropWhile isAsciiSpace).reverse.dropWhile isAsciiSpace).reverse = s := by
  rw [dropWhile_head (s := s), dropWhile_head, List.reverse_reverse]
  · intro c hc
    have := List.mem_of_mem_head? hc
    exact h c (by simpa using this)
  · intro c hc
    exact h c (List.mem_of_mem_head? hc)

theorem digit_not_space {c : Char} (h : 48 ≤ c.toNat ∧ c.toNat ≤ 57) : isAsciiSpace c = false := by
  unfold isAsciiSpace
  simp only [Bool.or_eq_false_iff, decide_eq_false_iff_not, Bool.and_eq_false_iff]
  refine ⟨⟨?_, ?_⟩, ?_⟩
  · rintro rfl; revert h; decide
  · right; omega
  · right; omega

theorem pyInt_natStr (n : Nat) : pyInt (natStr n) = .ok (n : Int) := by
  unfold pyInt
  simp only
  rw [strip_id (fun c hc => digit_not_space (natStr_digits n c hc))]
  have hp := parseDigits_natStr n
  have hd := natStr_digits n
  cases hs : natStr n with
  | nil => exact absurd hs (natStr_ne_nil n)
  | cons c r =>
    rw [hs] at hp hd
    have hc := hd c (by simp)
    have h1 : c ≠ '-' := by rintro rfl; revert hc; decide
    have h2 : c ≠ '+' := by rintro rfl; revert hc; decide
    split
    · next i hi =>
      split at hi
      · next h => injection h with h; exact absurd h h1
      · next h => injection h with h; exact absurd h h2
      · rw [hp] at hi; simp at hi; rw [← hi]
    · next hi =>
      split at hi
      · next h => injection h with h; exact absurd h h1
      · next h => injection h with h; exact absurd h h2
      · rw [hp] at hi; simp at hi

theorem intStr_chars (i : Int) : ∀ c ∈ intStr i, c = '-' ∨ (48 ≤ c.toNat ∧ c.toNat ≤ 57) := by
  intro c hc
  cases i with
  | ofNat n => exact Or.inr (natStr_digits n c hc)
  | negSucc n =>
    simp only [intStr, List.mem_cons] at hc
    rcases hc with hc | hc
    · exact Or.inl hc
    · exact Or.inr (natStr_digits _ c hc)

theorem pyInt_intStr (i : Int) : pyInt (intStr i) = .ok i := by
  cases i with
  | ofNat n => exact pyInt_natStr n
  | negSucc n =>
    unfold pyInt
    simp only [intStr]
    rw [strip_id]
    · simp only [parseDigits_natStr]
      rfl
    · intro c hc
      rcases List.mem_cons.1 hc with rfl | hc
      · decide
      · exact digit_not_space (natStr_digits _ c hc)

end Verif
