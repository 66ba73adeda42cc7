import Verif.Model.Tokens
import Verif.Model.Regex
/-!
# Model of `codeprep/parse/subtokens.py`, `codeprep/parse/matchers.py` and `codeprep/parse/core.py`

The lexers of pygments are not modelled: what they deliver is an arbitrary list of pairs of a token type and a text.
-/
namespace Verif

/-! ## `regex.finditer` -/

/-- `[m[0] for m in regex.finditer(p, s)]`.  `m s` is the length (at least 1) of the match of the pattern at the start of
`s`, if there is one; if there is none the search goes on at the next character.  The first argument bounds the number of
steps; `length s` is enough. -/
def finditer (m : Str → Option Nat) : Nat → Str → List Str
  | 0, _ => []
  | _ + 1, [] => []
  | n + 1, c :: r =>
    match m (c :: r) with
    | none => finditer m n r
    | some k => (c :: r).take k :: finditer m n ((c :: r).drop k)

/-- Does the text start with a character of the class? -/
def startsWithClass (p : Char → Bool) : Str → Bool
  | [] => false
  | c :: _ => p c

/-- `[[:upper:]]?[[:lower:]]+` at the start of a text: with the optional capital if a lower-case letter follows it, else
without (backtracking). -/
def matchCapitalised (u : Ucd) : Str → Option Nat
  | [] => none
  | c :: r =>
    if u.reUpper c && startsWithClass u.reLower r then some (1 + (r.takeWhile u.reLower).length)
    else if u.reLower c then some ((c :: r).takeWhile u.reLower).length
    else none

/-- `[[:upper:]]+(?![[:lower:]])`: as many capitals as possible, such that no lower-case letter follows (backtracking). -/
def matchCapitals (u : Ucd) : Str → Option Nat
  | [] => none
  | c :: r =>
    if u.reUpper c then
      match matchCapitals u r with
      | some n => some (n + 1)
      | none => if startsWithClass u.reLower r then none else some 1
    else none

/-- subtokens.py 20: `(_|[0-9]+|[[:upper:]]?[[:lower:]]+|[[:upper:]]+(?![[:lower:]])|[^ ])`. -/
def identMatch (u : Ucd) : Str → Option Nat
  | [] => none
  | c :: r =>
    if c = '_' then some 1
    else if asciiDigit c then some ((c :: r).takeWhile asciiDigit).length
    else match matchCapitalised u (c :: r) with
      | some n => some n
      | none => match matchCapitals u (c :: r) with
        | some n => some n
        | none => if c ≠ ' ' then some 1 else none

/-- subtokens.py 19-20: `parts`. -/
def identParts (u : Ucd) (s : Str) : List Str := finditer (identMatch u) s.length s

/-- subtokens.py 22: `Word.from_(p) if p != '_' else Underscore()`. -/
def partToSubtok (u : Ucd) (p : Str) : Except PyErr Subtok :=
  if p ≠ ['_'] then wordFrom u p else .ok .underscore

/-- subtokens.py 18-24 `split_identifier`. -/
def splitIdentifier (u : Ucd) (s : Str) : Except PyErr Tok := do
  let subs ← (identParts u s).mapM (partToSubtok u)
  .ok (if isNonEng s then .nonEng subs else .split subs)

/-! ## Numbers -/

namespace NumRe
/-- `[0-9]`. -/
def digit : Re := .cls asciiDigit
/-- `[0-9a-fA-F]`. -/
def hexDigit : Re := .cls fun c => asciiDigit c || (97 ≤ c.toNat && c.toNat ≤ 102) || (65 ≤ c.toNat && c.toNat ≤ 70)
/-- `[01]`. -/
def binDigit : Re := Re.oneOf ['0', '1']
/-- `[lL]?`. -/
def longSuffix : Re := Re.opt (Re.oneOf ['l', 'L'])
/-- `[fFdD]?`. -/
def floatSuffix : Re := Re.opt (Re.oneOf ['f', 'F', 'd', 'D'])
/-- `[eE][-+]?[0-9]+`. -/
def exponent : Re := .seq (Re.oneOf ['e', 'E']) (.seq (Re.opt (Re.oneOf ['-', '+'])) (Re.plus digit))
/-- subtokens.py 30 `HEX_REGEX`: `0x([0-9a-fA-F]+_)*[0-9a-fA-F]+[lL]?`. -/
def hex : Re := .seq (Re.ch '0') (.seq (Re.ch 'x')
  (.seq (.star (.seq (Re.plus hexDigit) (Re.ch '_'))) (.seq (Re.plus hexDigit) longSuffix)))
/-- subtokens.py 31 `BIN_REGEX`: `0b([01]+_)*[01]+[lL]?`. -/
def bin : Re := .seq (Re.ch '0') (.seq (Re.ch 'b')
  (.seq (.star (.seq (Re.plus binDigit) (Re.ch '_'))) (.seq (Re.plus binDigit) longSuffix)))
/-- subtokens.py 32 `IR_REGEX`: `([0-9]+_)*[0-9]+[lLfFdD]?`. -/
def ir : Re := .seq (.star (.seq (Re.plus digit) (Re.ch '_')))
  (.seq (Re.plus digit) (Re.opt (Re.oneOf ['l', 'L', 'f', 'F', 'd', 'D'])))
/-- subtokens.py 33 `DBL_REGEXA`: `[0-9]+\.[0-9]+([eE][-+]?[0-9]+)?[fFdD]?`. -/
def dblA : Re := .seq (Re.plus digit) (.seq (Re.ch '.') (.seq (Re.plus digit) (.seq (Re.opt exponent) floatSuffix)))
/-- subtokens.py 34 `DBL_REGEXB`: `[0-9]+\.([eE][-+]?[0-9]+)?[fFdD]?`. -/
def dblB : Re := .seq (Re.plus digit) (.seq (Re.ch '.') (.seq (Re.opt exponent) floatSuffix))
/-- subtokens.py 35 `DBL_REGEXC`: `\.[0-9]+([eE][-+]?[0-9]+)?[fFdD]?`. -/
def dblC : Re := .seq (Re.ch '.') (.seq (Re.plus digit) (.seq (Re.opt exponent) floatSuffix))
/-- subtokens.py 36 `DBL_REGEXD`: `[0-9]+[eE][-+]?[0-9]+[fFdD]?`. -/
def dblD : Re := .seq (Re.plus digit) (.seq exponent floatSuffix)
/-- subtokens.py 38 `NUMBER_PATTERN`. -/
def number : Re := .alt hex (.alt bin (.alt ir (.alt dblA (.alt dblB (.alt dblC dblD)))))
end NumRe

/-- subtokens.py 41-112 `is_number`. -/
def isNumber (w : Str) : Bool := NumRe.number.fullmatch w

/-! ## Words -/

/-- numeric.py 13-15: `Number(s)` lower-cases its value. -/
def mkNumber (u : Ucd) (s : Str) : Tok := .number (u.toLower s)

/-- `regex.fullmatch("\\w+", s)`. -/
def isWordText (u : Ucd) (s : Str) : Bool := s ≠ [] && s.all u.reWord

/-- subtokens.py 115-125 `to_parsed_token`. -/
def toParsedToken (u : Ucd) (s : Str) : Except PyErr Tok :=
  if s = ['\n'] then .ok .newLine
  else if s = ['\t'] then .ok .tab
  else if isNumber s then .ok (mkNumber u s)
  else if isWordText u s then splitIdentifier u s
  else .ok (.nonCodeChar s)

/-- The pattern `(\w+|[^ ]|( )+)` of subtokens.py 137. -/
def stringMatch (u : Ucd) : Str → Option Nat
  | [] => none
  | c :: r =>
    if u.reWord c then some ((c :: r).takeWhile u.reWord).length
    else if c ≠ ' ' then some 1
    else some ((c :: r).takeWhile (· == ' ')).length

/-- `regex.fullmatch("( )+", s)`. -/
def isSpaces (s : Str) : Bool := s ≠ [] && s.all (· == ' ')

/-- subtokens.py 138-141: one piece of a string literal. -/
def stringPiece (u : Ucd) (p : Str) : Except PyErr Tok :=
  if isSpaces p then .ok (.spaceInString p.length) else toParsedToken u p

/-- subtokens.py 128-142 `split_string`. -/
def splitString (u : Ucd) (s : Str) : Except PyErr (List Tok) :=
  (finditer (stringMatch u) s.length s).mapM (stringPiece u)

/-- The pattern `(\w+|[^ ]|    )` of subtokens.py 153. -/
def wordMatch (u : Ucd) : Str → Option Nat
  | [] => none
  | c :: r =>
    if u.reWord c then some ((c :: r).takeWhile u.reWord).length
    else if c ≠ ' ' then some 1
    else if (c :: r).take 4 = [' ', ' ', ' ', ' '] then some 4
    else none

/-- subtokens.py 154-157: one piece of a text. -/
def wordPiece (u : Ucd) (p : Str) : Except PyErr Tok :=
  if p = [' ', ' ', ' ', ' '] then .ok .tab else toParsedToken u p

/-- subtokens.py 145-158 `split_into_words`. -/
def splitIntoWords (u : Ucd) (s : Str) : Except PyErr (List Tok) :=
  (finditer (wordMatch u) s.length s).mapM (wordPiece u)

/-! ## Matchers -/

/-- A pygments token type, given by its path from `Token`. -/
abbrev TokType := List String

/-- `token in parent` for pygments token types: `parent` is `token` or one of its ancestors. -/
def TokType.isIn (token parent : TokType) : Bool := parent.isPrefixOf token

/-- The matchers of parse/matchers.py (`WordOperatorMatcher`, 138-143, is not used). -/
inductive Matcher where
  | newLine | tab | whitespace | operator | number | word | genericLiteral | keyword | string
  | oneLineComment | multiLineComment | generic | default
deriving DecidableEq, Repr

/-- core.py 18-31: the list `matchers`. -/
def matchers : List Matcher :=
  [.newLine, .tab, .whitespace, .operator, .number, .word, .genericLiteral, .keyword, .string, .oneLineComment,
   .multiLineComment, .generic]

/-- The methods `match` of parse/matchers.py. -/
def Matcher.matches (u : Ucd) (m : Matcher) (token : TokType) (value : Str) : Bool :=
  match m with
  | .newLine => value = ['\n']                                                                -- 83-84
  | .tab => value = ['\t']                                                                    -- 99-100
  | .whitespace => u.isBlank value                                                            -- 91-92
  | .operator => token = ["Operator"] || token.isIn ["Punctuation"]                           -- 120-121
  | .number => token.isIn ["Literal", "Number"]                                               -- 107-108
  | .word => token.isIn ["Name"]                                                              -- 59-60
  | .genericLiteral => token = ["Literal"] || token = ["Literal", "Date"]                     -- 67-68
  | .keyword => token.isIn ["Keyword"]                                                        -- 75-76
  | .string => token.isIn ["Literal", "String"]                                               -- 35-36
  | .oneLineComment => token = ["Comment", "Single"]                                          -- 43-44
  | .multiLineComment => token.isIn ["Comment"] && token ≠ ["Comment", "Single"]              -- 51-52
  | .generic => token.isIn ["Generic"]                                                        -- 27-28
  | .default => true                                                                          -- 19-20

/-- The methods `transform` of parse/matchers.py. -/
def Matcher.transform (u : Ucd) (m : Matcher) (value : Str) : Except PyErr (List Tok) :=
  match m with
  | .newLine => .ok [.newLine]                                                                -- 86-87
  | .tab => .ok [.tab]                                                                        -- 102-103
  | .whitespace => .ok (List.replicate (value.length / 4) .tab)                               -- 94-95
  | .operator => .ok                                                                          -- 123-135
      (if value = [';'] then [.semicolon]
       else if value = ['{'] then [.openingCurly]
       else if value = ['}'] then [.closingCurly]
       else if value = ['('] then [.openingBracket]
       else if value = [')'] then [.closingBracket]
       else [.operator value])
  | .number => .ok                                                                            -- 110-116
      (if value = ['0'] then [.zero]
       else if value = ['1'] then [.one]
       else [mkNumber u value])
  | .word => splitIntoWords u value                                                           -- 62-63
  | .genericLiteral => splitIntoWords u value                                                 -- 70-71
  | .keyword => .ok [.keyWord value]                                                          -- 78-79
  | .string => do                                                                             -- 38-39
      let ts ← splitString u value
      .ok [.stringLiteral ts value.length]
  | .oneLineComment => do                                                                     -- 46-47
      let ts ← splitIntoWords u value
      .ok [.oneLineComment ts]
  | .multiLineComment => do                                                                   -- 54-55
      let ts ← splitIntoWords u value
      .ok [.multilineComment ts]
  | .generic => splitIntoWords u value                                                        -- 30-31
  | .default => splitIntoWords u value                                                        -- 22-23

/-- core.py 34-42 `_convert`: the first matcher that matches, else the default matcher. -/
def convertWith (u : Ucd) (token : TokType) (value : Str) : List Matcher → Except PyErr (List Tok)
  | [] =>
    if Matcher.default.matches u token value then Matcher.default.transform u value
    else .error .assertionError
  | m :: r => if m.matches u token value then m.transform u value else convertWith u token value r

/-- core.py 34-42 `_convert`. -/
def convert (u : Ucd) (token : TokType) (value : Str) : Except PyErr (List Tok) := convertWith u token value matchers

/-- core.py 45-58 `convert_text`, given the pairs delivered by the lexer. -/
def convertText (u : Ucd) : List (TokType × Str) → Except PyErr (List Tok)
  | [] => .ok []
  | (token, value) :: r => do
    let ts ← convert u token value
    let rest ← convertText u r
    .ok (ts ++ rest)

end Verif
