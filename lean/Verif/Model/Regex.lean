import Verif.Base.Str
/-!
# Regular expressions

The part of the `regex` module needed for `NUMBER_PATTERN` (codeprep/parse/subtokens.py 30-38): `fullmatch` of patterns made
of characters, classes, groups, alternatives, `?`, `*` and `+`.  `regex.fullmatch(p, s) is not None` holds if and only if
`s` is in the language of `p`; the function below decides this with derivatives.  `Proofs/Regex.lean` relates it to the
usual definition of the language of a regular expression.
-/
namespace Verif

/-- Patterns. -/
inductive Re where
  | none
  | eps
  | cls (p : Char → Bool)
  | seq (a b : Re)
  | alt (a b : Re)
  | star (a : Re)

namespace Re

/-- A character. -/
def ch (c : Char) : Re := .cls (· == c)

/-- `[...]` given by its characters. -/
def oneOf (cs : Str) : Re := .cls (cs.contains ·)

/-- `a+`. -/
def plus (a : Re) : Re := .seq a (.star a)

/-- `a?`. -/
def opt (a : Re) : Re := .alt a .eps

/-- Does the pattern match the empty string? -/
def nullable : Re → Bool
  | .none => false
  | .eps => true
  | .cls _ => false
  | .seq a b => nullable a && nullable b
  | .alt a b => nullable a || nullable b
  | .star _ => true

/-- What remains to be matched after `c`. -/
def deriv (c : Char) : Re → Re
  | .none => .none
  | .eps => .none
  | .cls p => if p c then .eps else .none
  | .seq a b => if nullable a then .alt (.seq (deriv c a) b) (deriv c b) else .seq (deriv c a) b
  | .alt a b => .alt (deriv c a) (deriv c b)
  | .star a => .seq (deriv c a) (.star a)

/-- `regex.fullmatch(r, s) is not None`. -/
def fullmatch : Re → Str → Bool
  | r, [] => nullable r
  | r, c :: s => fullmatch (deriv c r) s

end Re
end Verif
