import Verif.Model.Tokens
/-!
# Predicates on parsed tokens
-/
namespace Verif.Spec
open Verif

mutual
/-- `p` holds for the token and, if it is a comment or a string literal, for all tokens inside. -/
def Everywhere (p : Tok → Prop) : Tok → Prop
  | .oneLineComment ts => p (.oneLineComment ts) ∧ EverywhereList p ts
  | .multilineComment ts => p (.multilineComment ts) ∧ EverywhereList p ts
  | .stringLiteral ts n => p (.stringLiteral ts n) ∧ EverywhereList p ts
  | .number v => p (.number v)
  | .one => p .one
  | .zero => p .zero
  | .newLine => p .newLine
  | .tab => p .tab
  | .spaceInString n => p (.spaceInString n)
  | .keyWord s => p (.keyWord s)
  | .operator s => p (.operator s)
  | .semicolon => p .semicolon
  | .openingCurly => p .openingCurly
  | .closingCurly => p .closingCurly
  | .openingBracket => p .openingBracket
  | .closingBracket => p .closingBracket
  | .nonCodeChar s => p (.nonCodeChar s)
  | .specialToken s => p (.specialToken s)
  | .split subs => p (.split subs)
  | .nonEng subs => p (.nonEng subs)

/-- `Everywhere` for all tokens of a list. -/
def EverywhereList (p : Tok → Prop) : List Tok → Prop
  | [] => True
  | t :: r => Everywhere p t ∧ EverywhereList p r
end

/-- Numbers have at least one character. -/
def NumberNonempty (t : Tok) : Prop := ∀ v, t = .number v → v ≠ []

/-- Words with non-ASCII characters have at least one character. -/
def NonEngNonempty (u : Ucd) (t : Tok) : Prop := ∀ subs, t = .nonEng subs → splitStr u subs ≠ []

/-- Comments. -/
def IsComment (t : Tok) : Prop := (∃ ts, t = .oneLineComment ts) ∨ ∃ ts, t = .multilineComment ts

/-- String literals. -/
def IsString (t : Tok) : Prop := ∃ ts n, t = .stringLiteral ts n

/-- Comments and string literals do not contain comments or string literals. -/
def NotNested (t : Tok) : Prop :=
  (∀ ts, t = .oneLineComment ts → ∀ x ∈ ts, ¬ IsComment x ∧ ¬ IsString x) ∧
  (∀ ts, t = .multilineComment ts → ∀ x ∈ ts, ¬ IsComment x ∧ ¬ IsString x) ∧
  (∀ ts n, t = .stringLiteral ts n → ∀ x ∈ ts, ¬ IsComment x ∧ ¬ IsString x)

end Verif.Spec
