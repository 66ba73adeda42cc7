import Verif.Base.Str
/-!
# Python's Unicode character functions

The Unicode character database is not modelled.  It is a parameter: a record of arbitrary functions.  Theorems that need
facts about it assume `Ucd.Laws`: agreement with ASCII on ASCII characters and a few facts about lower-casing that hold
for the real database.
-/
namespace Verif

/-- The character functions used by codeprep. -/
structure Ucd where
  /-- Upper-case, lower-case and title-case characters, as `str.isupper` and `str.islower` classify them (title-case:
  category Lt). -/
  upper : Char → Bool
  lower : Char → Bool
  title : Char → Bool
  /-- Characters removed by `str.strip()`. -/
  space : Char → Bool
  /-- The classes `\w`, `[[:upper:]]`, `[[:lower:]]` of the `regex` module. -/
  reWord : Char → Bool
  reUpper : Char → Bool
  reLower : Char → Bool
  /-- `s.lower()`, `s.upper()`, `s.capitalize()` (functions of whole strings: final sigma, one-to-many mappings). -/
  toLower : Str → Str
  toUpper : Str → Str
  capitalize : Str → Str

namespace Ucd
variable (u : Ucd)

/-- `s.isupper()`: no lower-case or title-case character, and at least one upper-case character. -/
def isUpper (s : Str) : Bool := s.all (fun c => !u.lower c && !u.title c) && s.any u.upper

/-- `s.islower()`. -/
def isLower (s : Str) : Bool := s.all (fun c => !u.upper c && !u.title c) && s.any u.lower

/-- `s.strip() == ''`. -/
def isBlank (s : Str) : Bool := s.all u.space

end Ucd

/-- ASCII. -/
def isAscii (c : Char) : Bool := c.toNat < 128
def asciiUpper (c : Char) : Bool := 65 ≤ c.toNat && c.toNat ≤ 90
def asciiLower (c : Char) : Bool := 97 ≤ c.toNat && c.toNat ≤ 122
def asciiDigit (c : Char) : Bool := 48 ≤ c.toNat && c.toNat ≤ 57
def asciiToLower (c : Char) : Char := if asciiUpper c then Char.ofNat (c.toNat + 32) else c
def asciiToUpper (c : Char) : Char := if asciiLower c then Char.ofNat (c.toNat - 32) else c

/-- What the theorems assume about the character database. -/
structure Ucd.Laws (u : Ucd) : Prop where
  upper_ascii : ∀ c, isAscii c = true → u.upper c = asciiUpper c
  lower_ascii : ∀ c, isAscii c = true → u.lower c = asciiLower c
  title_ascii : ∀ c, isAscii c = true → u.title c = false
  space_ascii : ∀ c, isAscii c = true →
    u.space c = (c = ' ' || (9 ≤ c.toNat && c.toNat ≤ 13) || (28 ≤ c.toNat && c.toNat ≤ 31))
  reWord_ascii : ∀ c, isAscii c = true → u.reWord c = (asciiUpper c || asciiLower c || asciiDigit c || c = '_')
  reUpper_ascii : ∀ c, isAscii c = true → u.reUpper c = asciiUpper c
  reLower_ascii : ∀ c, isAscii c = true → u.reLower c = asciiLower c
  toLower_ascii : ∀ s, s.all isAscii = true → u.toLower s = s.map asciiToLower
  toUpper_ascii : ∀ s, s.all isAscii = true → u.toUpper s = s.map asciiToUpper
  capitalize_ascii : ∀ s, s.all isAscii = true → u.capitalize s = match s with
    | [] => []
    | c :: r => asciiToUpper c :: r.map asciiToLower
  upper_not_lower : ∀ c, u.upper c = true → u.lower c = false ∧ u.title c = false
  reUpper_not_reLower : ∀ c, u.reUpper c = true → u.reLower c = false
  toLower_ne_nil : ∀ s, s ≠ [] → u.toLower s ≠ []
  toUpper_ne_nil : ∀ s, s ≠ [] → u.toUpper s ≠ []
  capitalize_ne_nil : ∀ s, s ≠ [] → u.capitalize s ≠ []
  toLower_idem : ∀ s, u.toLower (u.toLower s) = u.toLower s
  toLower_stable : ∀ s, ∀ c ∈ u.toLower s, u.toLower [c] = [c]

/-- A character database that knows ASCII only; used in examples. -/
def asciiUcd : Ucd where
  upper := asciiUpper
  lower := asciiLower
  title := fun _ => false
  space := fun c => c = ' ' || (9 ≤ c.toNat && c.toNat ≤ 13) || (28 ≤ c.toNat && c.toNat ≤ 31)
  reWord := fun c => asciiUpper c || asciiLower c || asciiDigit c || c = '_' || 192 ≤ c.toNat
  reUpper := asciiUpper
  reLower := asciiLower
  toLower := fun s => s.map asciiToLower
  toUpper := fun s => s.map asciiToUpper
  capitalize := fun s => match s with
    | [] => []
    | c :: r => asciiToUpper c :: r.map asciiToLower

theorem asciiToLower_idem (c : Char) : asciiToLower (asciiToLower c) = asciiToLower c := by
  unfold asciiToLower
  by_cases h : asciiUpper c = true
  · rw [if_pos h]
    have h' : asciiUpper (Char.ofNat (c.toNat + 32)) = false := by
      unfold asciiUpper at h ⊢
      simp at h
      have hv : Nat.isValidChar (c.toNat + 32) := by unfold Nat.isValidChar; omega
      have : (Char.ofNat (c.toNat + 32)).toNat = c.toNat + 32 := by
        rw [Char.ofNat, dif_pos hv]; rfl
      rw [this]
      simp
      omega
    rw [h']
    simp
  · rw [if_neg h, if_neg h]

theorem asciiUcd_laws : asciiUcd.Laws where
  upper_ascii := fun _ _ => rfl
  lower_ascii := fun _ _ => rfl
  title_ascii := fun _ _ => rfl
  space_ascii := fun _ _ => rfl
  reWord_ascii := by
    intro c hc
    have : ¬ 192 ≤ c.toNat := by unfold isAscii at hc; simp at hc; omega
    simp [asciiUcd, this]
  reUpper_ascii := fun _ _ => rfl
  reLower_ascii := fun _ _ => rfl
  toLower_ascii := fun _ _ => rfl
  toUpper_ascii := fun _ _ => rfl
  capitalize_ascii := fun _ _ => rfl
  upper_not_lower := by
    intro c h
    simp only [asciiUcd, asciiUpper, asciiLower, Bool.and_eq_true, decide_eq_true_eq] at *
    simp
    omega
  reUpper_not_reLower := by
    intro c h
    simp only [asciiUcd, asciiUpper, asciiLower, Bool.and_eq_true, decide_eq_true_eq] at *
    simp
    omega
  toLower_ne_nil := by intro s h; simpa [asciiUcd] using h
  toUpper_ne_nil := by intro s h; simpa [asciiUcd] using h
  capitalize_ne_nil := by
    intro s h
    cases s with
    | nil => exact absurd rfl h
    | cons c r => simp [asciiUcd]
  toLower_idem := by
    intro s
    simp only [asciiUcd, List.map_map]
    apply List.map_congr_left
    intro c _
    exact asciiToLower_idem c
  toLower_stable := by
    intro s c h
    simp only [asciiUcd, List.mem_map] at h
    obtain ⟨d, -, rfl⟩ := h
    simp [asciiUcd, asciiToLower_idem]

end Verif
