import Verif.Model.PrepConfig
/-!
# Specification of configuration strings
-/
namespace Verif.Spec
open Verif

/-- A valid configuration string: six characters, one per option. -/
def ValidCode (s : Str) : Prop :=
  ∃ en com str split tabs case : Char, s = [en, com, str, split, tabs, case] ∧
    (en = 'u' ∨ en = 'U') ∧
    (com = '0' ∨ com = 'c') ∧
    (asciiDigit str ∨ asciiUpper str ∨ asciiLower str) ∧
    split ∈ "0F123s456789".toList ∧
    (tabs = 's' ∨ tabs = '0') ∧
    (case = 'u' ∨ (case = 'l' ∧ split ∈ "123s8".toList))

end Verif.Spec
