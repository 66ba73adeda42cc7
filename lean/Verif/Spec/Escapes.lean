import Verif.Model.Files
/-!
# What may stand in the files that codeprep reads
-/
namespace Verif.Spec.Esc
open Verif

/-- The value of a digit, of either case. -/
def digitValue (c : Char) : Option Nat := ("0123456789abcdef".toList.idxOf? c).or ("0123456789ABCDEF".toList.idxOf? c)

/-- The number with the digits `ds` in the base `b`. -/
def value (b : Nat) : List Nat → Nat
  | [] => 0
  | d :: r => d * b ^ r.length + value b r

/-- The text `cs` consists of digits of the base `b` and stands for `n`. -/
def Number (b : Nat) (cs : Str) (n : Nat) : Prop :=
  ∃ ds : List Nat, cs.map digitValue = ds.map some ∧ (∀ d ∈ ds, d < b) ∧ n = value b ds

/-- The escapes of a single character. -/
def charEscapes : List (Char × Nat) :=
  [('\\', 92), ('\'', 39), ('"', 34), ('a', 7), ('b', 8), ('t', 9), ('n', 10), ('v', 11), ('f', 12), ('r', 13)]

/-- `Escape e r t`: a backslash followed by `e`, with `r` afterwards, stands for `t`. -/
inductive Escape : Str → Str → Str → Prop
  | line (r) : Escape ['\n'] r []
  | char {c k} (r) : (c, k) ∈ charEscapes → Escape [c] r [Char.ofNat k]
  | hex {c k ds n} (r) : (c, k) ∈ [('x', 2), ('u', 4), ('U', 8)] → ds.length = k → Number 16 ds n → n.isValidChar →
      Escape (c :: ds) r [Char.ofNat n]
  | octal {ds n} (r) : 1 ≤ ds.length → ds.length ≤ 3 → Number 8 ds n →
      (ds.length = 3 ∨ ∀ c r', r = c :: r' → ¬ ∃ d, Number 8 [c] d) → Escape ds r [Char.ofNat n]
  | other {c} (r) : c ∉ "\n\\'\"abtnvfrxuUN01234567".toList → Escape [c] r ['\\', c]

/-- `Reads s t`: the escaped text `s` stands for `t`. -/
inductive Reads : Str → Str → Prop
  | nil : Reads [] []
  | plain {c s t} : c ≠ '\\' → Reads s t → Reads (c :: s) (c :: t)
  | escape {e r d t} : Escape e r d → Reads r t → Reads ('\\' :: e ++ r) (d ++ t)

/-- White space of ASCII. -/
def spaces : List Nat := [9, 10, 11, 12, 13, 28, 29, 30, 31, 32]

/-- The text stands for the number `i`: digits, perhaps with single underscores between them, a sign, white space at both ends. -/
def Numeral (s : Str) (i : Int) : Prop :=
  ∃ (w w' sign : Str) (groups : List Str) (n : Nat), s = w ++ sign ++ pyJoin ['_'] groups ++ w' ∧
    (∀ c ∈ w ++ w', c.toNat ∈ spaces) ∧ groups ≠ [] ∧ (∀ g ∈ groups, g ≠ []) ∧ Number 10 groups.flatten n ∧
    ((sign = [] ∧ i = n) ∨ (sign = ['+'] ∧ i = n) ∨ (sign = ['-'] ∧ i = -(n : Int)))

/-- The text consists of the columns `l`. -/
def Columns (sep : Char) (t : Str) (l : List Str) : Prop := l ≠ [] ∧ t = pyJoin [sep] l ∧ ∀ p ∈ l, sep ∉ p

/-- A line of a file with merges: after escapes are replaced, two columns, or more with the frequency in the third. -/
def MergeEntry (line : Str) (priority : Nat) (m : Merge) : Prop :=
  ∃ t l, Reads line t ∧ Columns ' ' t l ∧ ((∃ a b, l = [a, b] ∧ m = ⟨(a, b), none, some priority⟩) ∨
    ∃ a b c r i, l = a :: b :: c :: r ∧ Numeral c i ∧ m = ⟨(a, b), some i, some priority⟩)

/-- A line of a vocabulary file: a word and its frequency (further columns are ignored). -/
def VocabEntry (line word : Str) (n : Int) : Prop := ∃ a b r, Columns '\t' line (a :: b :: r) ∧ Reads a word ∧ Numeral b n

/-- A line of a file with split words: the word and its parts (further columns are ignored). -/
def CacheEntry (line word : Str) (parts : List Str) : Prop :=
  ∃ a b r t, Columns '\t' line (a :: b :: r) ∧ Reads a word ∧ Reads b t ∧ Columns ' ' t parts

end Verif.Spec.Esc
