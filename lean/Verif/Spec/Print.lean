import Verif.Spec.Escapes
/-!
# How Python reads lists of strings
-/
namespace Verif.Spec.Lit
open Verif

/-- `Text q s t r`: the source `s` begins, after the quote `q`, with a string literal for `t`, and after the closing quote follows `r`. -/
inductive Text (q : Char) : Str → Str → Str → Prop
  | close (r) : Text q (q :: r) [] r
  | plain {c s t r} : c ≠ '\\' → c ≠ q → c ≠ '\n' → Text q s t r → Text q (c :: s) (c :: t) r
  | escape {e s d t r} : Esc.Escape e s d → Text q s t r → Text q ('\\' :: e ++ s) (d ++ t) r

/-- String literals with commas between them and a bracket at the end. -/
inductive Items : Str → List Str → Prop
  | last {q s t} : q ∈ ['\'', '"'] → Text q s t [']'] → Items (q :: s) [t]
  | more {q s t s' ts} : q ∈ ['\'', '"'] → Text q s t (',' :: ' ' :: s') → Items s' ts → Items (q :: s) (t :: ts)

/-- The source text of a list of strings. -/
def IsList (s : Str) (ts : List Str) : Prop := (s = "[]".toList ∧ ts = []) ∨ ∃ s', s = '[' :: s' ∧ Items s' ts

/-- What the user sees for the result `r` of the function of the API: one line, from which exactly the tokens are read, or nothing if the function
fails. -/
def Printed (r : Except PyErr (List Str)) (out : Str) : Prop :=
  match r with
  | .ok ts => ∃ line, out = line ++ ['\n'] ∧ '\n' ∉ line ∧ ∀ ts', IsList line ts' ↔ ts' = ts
  | .error _ => out = []

end Verif.Spec.Lit
