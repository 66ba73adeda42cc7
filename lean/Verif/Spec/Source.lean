import Verif.Base.Str
import Verif.Spec.FileList
/-!
# What the text of a source file is
-/
namespace Verif.Spec
open Verif

/-- A text without the line break at its end, if there is one. -/
def unend (t : Str) : Str := if t.getLast? = some '\n' then t.dropLast else t

/-- The same text with `\n` for `\r\n` and `\r`. -/
inductive PlainNewlines : Str → Str → Prop
  | nil : PlainNewlines [] []
  | crlf {s t} : PlainNewlines s t → PlainNewlines ('\r' :: '\n' :: s) ('\n' :: t)
  | cr {s t} : s.head? ≠ some '\n' → PlainNewlines s t → PlainNewlines ('\r' :: s) ('\n' :: t)
  | char {c s t} : c ≠ '\r' → PlainNewlines s t → PlainNewlines (c :: s) (c :: t)

/-- The characters of the bytes: what UTF-8 says, or, if the bytes are not UTF-8, a character for every byte. -/
def CharsOf (b : Bytes) (s : Str) : Prop :=
  b = utf8 s ∨ (∀ t, b ≠ utf8 t) ∧ s = b.map fun x => Char.ofNat x.toNat

/-- The text of a file: its characters with plain line breaks, without the one at the end. -/
def TextOf (b : Bytes) (t : Str) : Prop := ∃ s s', CharsOf b s ∧ PlainNewlines s s' ∧ t = unend s'

/-- The path has the extension `e`: the last part of the path is `stem.e`, the stem does not consist of dots (46) only, and there is
no further dot and no slash (47) in `e`. -/
def HasExtension (path e : Bytes) : Prop :=
  ∃ dir stem, path = dir ++ stem ++ 46 :: e ∧ (dir = [] ∨ dir.getLast? = some 47) ∧ 47 ∉ stem ∧ (∃ x ∈ stem, x ≠ 46) ∧ 46 ∉ e ∧ 47 ∉ e

end Verif.Spec
