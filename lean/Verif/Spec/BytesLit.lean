import Verif.Spec.Escapes
import Verif.Model.FileList
/-!
# Bytes literals of Python
-/
namespace Verif.Spec.Lit
open Verif

/-- `ByteEscape e r b`: in a bytes literal, a backslash followed by `e`, with `r` afterwards, stands for `b`. -/
inductive ByteEscape : Str → Str → Bytes → Prop
  | line (r) : ByteEscape ['\n'] r []
  | char {c k} (r) : (c, k) ∈ Esc.charEscapes → ByteEscape [c] r [UInt8.ofNat k]
  | hex {ds n} (r) : ds.length = 2 → Esc.Number 16 ds n → ByteEscape ('x' :: ds) r [UInt8.ofNat n]
  | octal {ds n} (r) : 1 ≤ ds.length → ds.length ≤ 3 → Esc.Number 8 ds n →
      (ds.length = 3 ∨ ∀ c r', r = c :: r' → ¬ ∃ d, Esc.Number 8 [c] d) → ByteEscape ds r [UInt8.ofNat (n % 256)]
  | other {c} (r) : c ∉ "\n\\'\"abtnvfrx01234567".toList → c.toNat < 128 → ByteEscape [c] r [92, UInt8.ofNat c.toNat]

/-- `ByteText q s b r`: the source `s` begins, after the quote `q`, with a bytes literal for `b`, and after the closing quote follows `r`. -/
inductive ByteText (q : Char) : Str → Bytes → Str → Prop
  | close (r) : ByteText q (q :: r) [] r
  | plain {c s b r} : c ≠ '\\' → c ≠ q → c ≠ '\n' → c.toNat < 128 → ByteText q s b r → ByteText q (c :: s) (UInt8.ofNat c.toNat :: b) r
  | escape {e s d b r} : ByteEscape e s d → ByteText q s b r → ByteText q ('\\' :: e ++ s) (d ++ b) r

/-- The text is a bytes literal for `b`, perhaps followed by white space. -/
def IsBytes (s : Str) (b : Bytes) : Prop :=
  ∃ q s' r, s = 'b' :: q :: s' ∧ q ∈ ['\'', '"'] ∧ ByteText q s' b r ∧ ∀ c ∈ r, c ∈ [' ', '\t', '\n']

end Verif.Spec.Lit
