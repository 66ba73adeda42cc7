import Verif.Model.Regex
import Verif.Model.Unicode
/-!
# The language of a regular expression, and the number literals
-/
namespace Verif.Spec
open Verif

/-- The language of a regular expression. -/
inductive Matches : Re → Str → Prop
  | eps : Matches .eps []
  | cls {p c} : p c = true → Matches (.cls p) [c]
  | seq {a b s t} : Matches a s → Matches b t → Matches (.seq a b) (s ++ t)
  | left {a b s} : Matches a s → Matches (.alt a b) s
  | right {a b s} : Matches b s → Matches (.alt a b) s
  | starNil {a} : Matches (.star a) []
  | starCons {a s t} : Matches a s → Matches (.star a) t → Matches (.star a) (s ++ t)

/-- Hexadecimal digits. -/
def isHexDigit (c : Char) : Bool :=
  asciiDigit c || (97 ≤ c.toNat && c.toNat ≤ 102) || (65 ≤ c.toNat && c.toNat ≤ 70)

/-- Binary digits. -/
def isBinDigit (c : Char) : Bool := c = '0' || c = '1'

/-- Non-empty groups of digits, separated by single underscores. -/
inductive Grouped (digit : Char → Bool) : Str → Prop
  | one {g} : g ≠ [] → (∀ c ∈ g, digit c = true) → Grouped digit g
  | more {g r} : g ≠ [] → (∀ c ∈ g, digit c = true) → Grouped digit r → Grouped digit (g ++ '_' :: r)

/-- Nothing, or one of the letters. -/
def Suffix (letters : Str) (s : Str) : Prop := s = [] ∨ ∃ c ∈ letters, s = [c]

/-- `e` or `E`, an optional sign, digits. -/
def Exponent (s : Str) : Prop :=
  ∃ e sign ds, s = e :: (sign ++ ds) ∧ e ∈ ['e', 'E'] ∧ Suffix ['-', '+'] sign ∧ ds ≠ [] ∧ ∀ c ∈ ds, asciiDigit c = true

/-- Nothing or an exponent. -/
def OptExponent (s : Str) : Prop := s = [] ∨ Exponent s

/-- Number literals: hexadecimal and binary integers, decimal integers (which may have a suffix `f` or `d`), decimal
fractions with a digit before or after the point, and numbers with an exponent. -/
inductive IsNumber : Str → Prop
  | hex {ds suf} : Grouped isHexDigit ds → Suffix ['l', 'L'] suf → IsNumber ('0' :: 'x' :: (ds ++ suf))
  | bin {ds suf} : Grouped isBinDigit ds → Suffix ['l', 'L'] suf → IsNumber ('0' :: 'b' :: (ds ++ suf))
  | dec {ds suf} : Grouped asciiDigit ds → Suffix ['l', 'L', 'f', 'F', 'd', 'D'] suf → IsNumber (ds ++ suf)
  | point {a b ex suf} : (∀ c ∈ a, asciiDigit c = true) → (∀ c ∈ b, asciiDigit c = true) → a ≠ [] ∨ b ≠ [] →
      OptExponent ex → Suffix ['f', 'F', 'd', 'D'] suf → IsNumber (a ++ '.' :: (b ++ (ex ++ suf)))
  | exp {a ex suf} : a ≠ [] → (∀ c ∈ a, asciiDigit c = true) → Exponent ex → Suffix ['f', 'F', 'd', 'D'] suf →
      IsNumber (a ++ (ex ++ suf))

end Verif.Spec
