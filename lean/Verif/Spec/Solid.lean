import Verif.Spec.Dispatch
import Verif.Model.PrepConfig
/-!
# Tokens that can be told apart

Results are written to files as tokens with a space between them.  They can be read again if no token is empty or contains a
space.
-/
namespace Verif.Spec
open Verif

/-- A text of at least one character, without spaces. -/
def Solid (t : Str) : Prop := t ≠ [] ∧ ' ' ∉ t

instance (t : Str) : Decidable (Solid t) := by unfold Solid; exact inferInstance

/-- Changing the case of such texts introduces no spaces; splitting them with ronin gives such texts, and so does stemming. -/
structure KeepsSolid (env : Env) : Prop where
  lower : ∀ s, Solid s → ' ' ∉ env.ucd.toLower s
  upper : ∀ s, Solid s → ' ' ∉ env.ucd.toUpper s
  capitalize : ∀ s, Solid s → ' ' ∉ env.ucd.capitalize s
  ronin : ∀ s, Solid s → ∀ p ∈ env.ronin s, Solid p
  porter : ∀ s, Solid s → Solid (env.porter s)

/-- The pieces in the cache of words are such texts. -/
def SolidCache (d : BpeData) : Prop := ∀ w l, d.cache.get? w = some l → ∀ p ∈ l, Solid p

/-- Number literals of the lexer contain no spaces. -/
def SolidNumber (e : TokType × Str) : Prop := kindOf e.1 = .number → ' ' ∉ e.2

/-- Keywords, operators and punctuation: they are shown as they are. -/
def Verbatim (e : TokType × Str) : Prop := kindOf e.1 = .keyword ∨ kindOf e.1 = .operator

instance (e : TokType × Str) : Decidable (Verbatim e) := by unfold Verbatim; exact inferInstance

end Verif.Spec
