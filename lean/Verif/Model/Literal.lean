import Verif.Model.Merge
/-!
# Model of `to_literal_str` / `to_non_literal_str` (`codeprep/util.py` 238-243)

The `unicode-escape` codec of CPython (`Objects/unicodeobject.c`) is modelled on code points, and Python's
`int(str)` / `str(int)` for decimal numerals as they occur in the files written by codeprep.
-/
namespace Verif

/-! ## Numerals -/

/-- The lower-case hexadecimal digit of `n < 16` (CPython's `Py_hexdigits`). -/
def hexDigit (n : Nat) : Char := if n < 10 then Char.ofNat (48 + n) else Char.ofNat (87 + n)

/-- `w` hexadecimal digits of `n`, most significant first. -/
def hexN : Nat → Nat → Str
  | 0, _ => []
  | w + 1, n => hexN w (n / 16) ++ [hexDigit (n % 16)]

/-- The value of a hexadecimal digit (either case). -/
def hexVal (c : Char) : Option Nat :=
  let n := c.toNat
  if 48 ≤ n ∧ n ≤ 57 then some (n - 48)
  else if 97 ≤ n ∧ n ≤ 102 then some (n - 87)
  else if 65 ≤ n ∧ n ≤ 70 then some (n - 55)
  else none

/-- Reads exactly `k` hexadecimal digits, accumulating onto `acc`. -/
def takeHex : Nat → Nat → Str → Option (Nat × Str)
  | 0, acc, r => some (acc, r)
  | _ + 1, _, [] => none
  | k + 1, acc, c :: r => match hexVal c with
    | none => none
    | some v => takeHex k (acc * 16 + v) r

/-- The value of an octal digit. -/
def octVal (c : Char) : Option Nat :=
  let n := c.toNat
  if 48 ≤ n ∧ n ≤ 55 then some (n - 48) else none

/-- Reads up to `k` further octal digits. -/
def takeOct : Nat → Nat → Str → Nat × Str
  | 0, acc, r => (acc, r)
  | _ + 1, acc, [] => (acc, [])
  | k + 1, acc, c :: r => match octVal c with
    | none => (acc, c :: r)
    | some v => takeOct k (acc * 8 + v) r

/-! ## The encoder -/

/-- util.py 242-243, one code point of `word.encode("unicode-escape")`. -/
def litChar (c : Char) : Str :=
  let n := c.toNat
  if c = '\\' then ['\\', '\\']
  else if c = '\t' then ['\\', 't']
  else if c = '\n' then ['\\', 'n']
  else if c = '\r' then ['\\', 'r']
  else if 32 ≤ n ∧ n < 127 then [c]
  else if n < 256 then '\\' :: 'x' :: hexN 2 n
  else if n < 65536 then '\\' :: 'u' :: hexN 4 n
  else '\\' :: 'U' :: hexN 8 n

/-- util.py 242-243 `to_literal_str(word) = word.encode("unicode-escape").decode()`. -/
def toLiteral (s : Str) : Str := s.flatMap litChar

/-! ## The decoder -/

/-- `word.encode()`, each UTF-8 byte seen as the character with that number, which is how the `unicode-escape`
decoder reads its input. -/
def utf8AsLatin1 (s : Str) : Str :=
  s.flatMap fun c => (String.utf8EncodeChar c).map fun b => Char.ofNat b.toNat

/-- The character with number `n`; `none` if there is none (`n > 0x10ffff`, a `UnicodeDecodeError`, or a lone
surrogate, which Python would return and which the model rejects). -/
def charOf? (n : Nat) : Option Char := if n.isValidChar then some (Char.ofNat n) else none

/-- What follows a backslash: the decoded characters and the rest of the input.
`\N{name}` is not modelled (rejected): neither codeprep's encoder nor its data files use it. -/
def decodeEscape : Str → Option (Str × Str)
  | [] => none                                   -- "\ at end of string"
  | c :: r =>
    if c = '\n' then some ([], r)
    else if c = '\\' then some (['\\'], r)
    else if c = '\'' then some (['\''], r)
    else if c = '"' then some (['"'], r)
    else if c = 'b' then some ([Char.ofNat 8], r)
    else if c = 'f' then some ([Char.ofNat 12], r)
    else if c = 't' then some (['\t'], r)
    else if c = 'n' then some (['\n'], r)
    else if c = 'r' then some (['\r'], r)
    else if c = 'v' then some ([Char.ofNat 11], r)
    else if c = 'a' then some ([Char.ofNat 7], r)
    else if c = 'x' then (takeHex 2 0 r).bind fun e => (charOf? e.1).map fun d => ([d], e.2)
    else if c = 'u' then (takeHex 4 0 r).bind fun e => (charOf? e.1).map fun d => ([d], e.2)
    else if c = 'U' then (takeHex 8 0 r).bind fun e => (charOf? e.1).map fun d => ([d], e.2)
    else if c = 'N' then none
    else match octVal c with
      | some v =>
        let e := takeOct 2 v r
        (charOf? e.1).map fun d => ([d], e.2)
      | none => some (['\\', c], r)              -- unknown escapes are kept (with a DeprecationWarning)

/-- The loop of the `unicode-escape` decoder; every round consumes at least one character, so the length of the
input is enough fuel. -/
def decodeLoop : Nat → Str → Except PyErr Str
  | _, [] => .ok []
  | 0, _ :: _ => .error .outOfFuel
  | n + 1, c :: r =>
    if c = '\\' then
      match decodeEscape r with
      | none => .error .valueError               -- UnicodeDecodeError is a ValueError
      | some (d, r') => do
        let t ← decodeLoop n r'
        .ok (d ++ t)
    else do
      let t ← decodeLoop n r
      .ok (c :: t)

/-- util.py 238-239 `to_non_literal_str(word) = word.encode().decode("unicode-escape")`. -/
def toNonLiteral (s : Str) : Except PyErr Str :=
  let b := utf8AsLatin1 s
  decodeLoop b.length b

/-! ## Decimal numbers -/

/-- `str(n)` for a natural number; `n + 1` rounds are enough. -/
def natStrAux : Nat → Nat → Str
  | 0, _ => []
  | f + 1, n => (if n < 10 then [] else natStrAux f (n / 10)) ++ [Char.ofNat (48 + n % 10)]

/-- `str(n)`. -/
def natStr (n : Nat) : Str := natStrAux (n + 1) n

/-- `str(i)` for an integer. -/
def intStr : Int → Str
  | .ofNat n => natStr n
  | .negSucc n => '-' :: natStr (n + 1)

/-- `str(x)` for an optional integer (`None` prints as `None`), used by f-strings. -/
def optIntStr : Option Int → Str
  | none => "None".toList
  | some i => intStr i

/-- ASCII characters stripped by `int(...)`. -/
def isAsciiSpace (c : Char) : Bool :=
  c = ' ' || (9 ≤ c.toNat && c.toNat ≤ 13) || (28 ≤ c.toNat && c.toNat ≤ 31)

/-- The digits of a numeral: at least one digit, single underscores allowed between digits.  `prev` tells whether the
previous character was a digit. -/
def parseDigits : Bool → Nat → Str → Option Nat
  | prev, acc, [] => if prev then some acc else none
  | prev, acc, c :: r =>
    if 48 ≤ c.toNat ∧ c.toNat ≤ 57 then parseDigits true (acc * 10 + (c.toNat - 48)) r
    else if c = '_' ∧ prev = true then parseDigits false acc r
    else none

/-- `int(s)` for ASCII text: surrounding white space, an optional sign, digits. -/
def pyInt (s : Str) : Except PyErr Int :=
  let t := ((s.dropWhile isAsciiSpace).reverse.dropWhile isAsciiSpace).reverse
  let r := match t with
    | '-' :: r => (parseDigits false 0 r).map fun n => -(n : Int)
    | '+' :: r => (parseDigits false 0 r).map fun n => (n : Int)
    | r => (parseDigits false 0 r).map fun n => (n : Int)
  match r with
  | some i => .ok i
  | none => .error .valueError

end Verif
