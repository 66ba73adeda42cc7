import Verif.Spec.Dispatch
import Verif.Model.PrepConfig
/-!
# Specification of the option `no_unicode`
-/
namespace Verif.Spec
open Verif

/-- The characters that may remain: ASCII, the placeholder for sequences of other characters, and the placeholder for spaces in
strings. -/
def PlainChar (c : Char) : Prop := c.toNat < 128 ∨ c = '÷' ∨ c = ' '

instance (c : Char) : Decidable (PlainChar c) := by unfold PlainChar; exact inferInstance

/-- Texts of such characters. -/
def Plain (s : Str) : Prop := ∀ c ∈ s, PlainChar c

instance (s : Str) : Decidable (Plain s) := by unfold Plain; exact inferInstance

/-- Changing the case of plain texts, splitting them with ronin, or stemming them does not introduce other characters. -/
structure KeepsPlain (env : Env) : Prop where
  lower : ∀ s, Plain s → Plain (env.ucd.toLower s)
  upper : ∀ s, Plain s → Plain (env.ucd.toUpper s)
  capitalize : ∀ s, Plain s → Plain (env.ucd.capitalize s)
  ronin : ∀ s, Plain s → ∀ p ∈ env.ronin s, Plain p
  porter : ∀ s, Plain s → Plain (env.porter s)

/-- The pieces in the cache are plain. -/
def PlainCache (d : BpeData) : Prop := ∀ w l, d.cache.get? w = some l → ∀ p ∈ l, Plain p

/-- What the lexer delivers: all non-ASCII characters are letters or digits inside of words, and operators, numbers and keywords are
ASCII. -/
def OnlyWordsNonAscii (u : Ucd) (e : TokType × Str) : Prop :=
  (∀ c ∈ e.2, u.reWord c = true ∨ isAscii c = true) ∧
  (kindOf e.1 = .operator ∨ kindOf e.1 = .number ∨ kindOf e.1 = .keyword → ∀ c ∈ e.2, isAscii c = true)

end Verif.Spec
