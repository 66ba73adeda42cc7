import Verif.Spec.Tokens
/-!
# Specification of the options that leave parts of the text out
-/
namespace Verif.Spec
open Verif

/-- A comment becomes the token `<comment>`; all other tokens stay. -/
def hideComment : Tok → Tok
  | .oneLineComment _ => .specialToken "<comment>".toList
  | .multilineComment _ => .specialToken "<comment>".toList
  | t => t

/-- A string literal becomes the token `<str-literal>`; all other tokens stay. -/
def hideString : Tok → Tok
  | .stringLiteral _ _ => .specialToken "<str-literal>".toList
  | t => t

mutual
/-- Leave newlines and tabs out inside of comments and, unless literals are treated as a whole, inside of literals. -/
def dropSpaces (wholeLiterals : Bool) : Tok → Tok
  | .oneLineComment ts => .oneLineComment (dropSpacesList wholeLiterals ts)
  | .multilineComment ts => .multilineComment (dropSpacesList wholeLiterals ts)
  | .stringLiteral ts n => if wholeLiterals then .stringLiteral ts n else .stringLiteral (dropSpacesList wholeLiterals ts) n
  | t => t

/-- Leave newlines and tabs out. -/
def dropSpacesList (wholeLiterals : Bool) : List Tok → List Tok
  | [] => []
  | .newLine :: r => dropSpacesList wholeLiterals r
  | .tab :: r => dropSpacesList wholeLiterals r
  | t :: r => dropSpaces wholeLiterals t :: dropSpacesList wholeLiterals r
end

end Verif.Spec
