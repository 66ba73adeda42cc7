import Verif.Model.Cli
/-!
# Model of what the commands print: `print(prep_text)` for a list of strings
-/
namespace Verif

/-- CPython's `unicode_repr`: the quote. -/
def strQuote (s : Str) : Char := if '\'' ∈ s ∧ '"' ∉ s then '"' else '\''

/-- CPython's `unicode_repr`: one character.  `printable` is `str.isprintable` for characters outside of ASCII. -/
def reprChar (printable : Char → Bool) (q c : Char) : Str :=
  let n := c.toNat
  if c = q ∨ c = '\\' then ['\\', c]
  else if c = '\t' then ['\\', 't']
  else if c = '\n' then ['\\', 'n']
  else if c = '\r' then ['\\', 'r']
  else if n < 32 ∨ n = 127 then '\\' :: 'x' :: hexN 2 n
  else if n < 127 then [c]
  else if printable c then [c]
  else if n ≤ 255 then '\\' :: 'x' :: hexN 2 n
  else if n ≤ 65535 then '\\' :: 'u' :: hexN 4 n
  else '\\' :: 'U' :: hexN 8 n

/-- `repr(s)` for a string. -/
def strRepr (printable : Char → Bool) (s : Str) : Str :=
  strQuote s :: (s.flatMap (reprChar printable (strQuote s)) ++ [strQuote s])

/-- CPython's `list_repr` for a list of strings; `str` and `format` of a list give the same. -/
def listRepr (printable : Char → Bool) (ts : List Str) : Str :=
  '[' :: (pyJoin ", ".toList (ts.map (strRepr printable)) ++ [']'])

/-- impl.py 64-81: what `handle_splitting` prints (73), if the standard output takes all characters (UTF-8); errors are logged or raised,
corpora are preprocessed with nothing printed but the progress. -/
def SplitOutcome.stdout (printable : Char → Bool) : SplitOutcome → Str
  | .printed ts => listRepr printable ts ++ ['\n']
  | .preprocessed _ => []
  | .logged => []
  | .raised _ => []

end Verif
