import Verif.Spec.NoUnicode
/-!
# What the option `no_unicode` may leave of what the lexer delivers
-/
namespace Verif.Spec
open Verif

/-- Whole operators and keywords, and of names, comments, literals and other words single characters that are neither letters nor
digits. -/
def Leftover (u : Ucd) (e : TokType × Str) (s : Str) : Prop :=
  ((kindOf e.1 = .operator ∨ kindOf e.1 = .keyword) ∧ s = e.2) ∨
    (kindOf e.1 ∈ [Kind.words, .string, .lineComment, .blockComment] ∧ ∃ c ∈ e.2, s = [c] ∧ u.reWord c = false)

end Verif.Spec
