import Verif.Model.Parse
import Verif.Model.Api
/-!
# Model of `preprocess` in `codeprep/api/text.py`

The lexer's output is given; loading the BPE data (`init_bpe_data`) is a parameter.
-/
namespace Verif

/-- `token == NewLine()` (whitespace.py 16-17: equality of classes). -/
def Tok.isNewLine : Tok → Bool
  | .newLine => true
  | _ => false

/-- text.py 21-22 `remove_trailing_newline`. -/
def removeTrailingNewline (ts : List Tok) : List Tok :=
  match ts.getLast? with
  | some t => if t.isNewLine then ts.dropLast else ts
  | none => ts

/-- text.py 29-31: what is done with the parsed tokens before they are represented. -/
def finishParsed (ts : List Tok) (appendEof : Bool) : List Tok :=
  let ts := removeTrailingNewline ts
  if appendEof then ts ++ [.specialToken Ph.ect] else ts

/-- text.py 25-40 `preprocess`, given what the lexer delivers.  `load` stands for `init_bpe_data` with the configuration
found for the id; `assert bpe_codes_id` fails for `None` and for the empty string. -/
def preprocessText (env : Env) (load : Str → Except PyErr BpeData) (lexed : List (TokType × Str)) (c : PrepConfig)
    (bpeCodesId : Option Str) (appendEof : Bool) : Except PyErr (List Str × Meta) := do
  let parsed ← convertText env.ucd lexed
  let parsed := finishParsed parsed appendEof
  if c.isBpe then
    match bpeCodesId with
    | none => .error .assertionError
    | some [] => .error .assertionError
    | some (ch :: r) => do
      let bd ← load (ch :: r)
      toRepr env c parsed (some bd)
  else toRepr env c parsed none

/-- text.py 43-455: the functions `nosplit`, `chars`, `basic` and `bpe` of `codeprep.api.text`. -/
def textApi (env : Env) (load : Str → Except PyErr BpeData) (call : ApiCall) (lexed : List (TokType × Str))
    (appendEof : Bool) : Except PyErr (List Str × Meta) := do
  let c ← textConfig call
  preprocessText env load lexed c (apiBpeCodesId call) appendEof

end Verif
