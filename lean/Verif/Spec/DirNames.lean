import Verif.Model.Registry
/-!
# Specification of names of directories
-/
namespace Verif.Spec
open Verif

/-- What `strftime("%y-%m-%dT%H-%M-%S")` may give. -/
def IsTimestamp (t : Str) : Prop :=
  ∃ a b c d e f g h i j k l : Char, t = [a, b, '-', c, d, '-', e, f, 'T', g, h, '-', i, j, '-', k, l] ∧
    ∀ x ∈ [a, b, c, d, e, f, g, h, i, j, k, l], asciiDigit x = true

/-- Extensions that can be told from each other and from timestamps when they are joined with underscores. -/
def PlainExts (exts : List Str) : Prop := ∀ e ∈ exts, '_' ∉ e ∧ ¬ IsTimestamp e

end Verif.Spec
