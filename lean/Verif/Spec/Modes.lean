import Verif.Spec.Breaks
/-!
# Full tokens in different splitting modes
-/
namespace Verif.Spec
open Verif

/-- `g` shows the same full token as `h`: it is the same, or `h` is a single text and `g` consists of its parts between `<w>` and
`</w>`. -/
def PartsOf (g h : List Str) : Prop := g = h ∨ ∃ l : List Str, g = "<w>".toList :: (l ++ ["</w>".toList]) ∧ h = [l.flatten]

/-- Changes of the case do not introduce the character `c`. -/
structure NeverMakes (u : Ucd) (c : Char) : Prop where
  lower : ∀ s, c ∉ s → c ∉ u.toLower s
  upper : ∀ s, c ∉ s → c ∉ u.toUpper s
  capitalize : ∀ s, c ∉ s → c ∉ u.capitalize s

/-- Every word in the cache of words is stored as the merges split it. -/
def GenuineCache (d : BpeData) : Prop := ∀ w l, d.cache.get? w = some l → encodeWord w d.merges = .ok l

end Verif.Spec
