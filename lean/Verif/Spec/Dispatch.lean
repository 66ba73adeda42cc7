import Verif.Model.Parse
/-!
# What becomes of a lexer token, by its type
-/
namespace Verif.Spec
open Verif

/-- How a piece of text is treated. -/
inductive Kind where
  | operator | number | words | keyword | string | lineComment | blockComment
deriving DecidableEq, Repr

/-- The treatment depends on the type the lexer gave. -/
def kindOf : TokType → Kind
  | ["Operator"] => .operator
  | "Punctuation" :: _ => .operator
  | "Literal" :: "Number" :: _ => .number
  | "Literal" :: "String" :: _ => .string
  | "Keyword" :: _ => .keyword
  | ["Comment", "Single"] => .lineComment
  | "Comment" :: _ => .blockComment
  | _ => .words

/-- Operators and punctuation. -/
def operatorToken (v : Str) : Tok :=
  if v = ";".toList then .semicolon
  else if v = "{".toList then .openingCurly
  else if v = "}".toList then .closingCurly
  else if v = "(".toList then .openingBracket
  else if v = ")".toList then .closingBracket
  else .operator v

/-- Numbers. -/
def numberToken (u : Ucd) (v : Str) : Tok :=
  if v = "0".toList then .zero else if v = "1".toList then .one else .number (u.toLower v)

/-- The tokens of a piece of text of a kind. -/
def tokensOf (u : Ucd) (v : Str) : Kind → Except PyErr (List Tok)
  | .operator => .ok [operatorToken v]
  | .number => .ok [numberToken u v]
  | .words => splitIntoWords u v
  | .keyword => .ok [.keyWord v]
  | .string => (splitString u v).map fun ts => [.stringLiteral ts v.length]
  | .lineComment => (splitIntoWords u v).map fun ts => [.oneLineComment ts]
  | .blockComment => (splitIntoWords u v).map fun ts => [.multilineComment ts]

end Verif.Spec
