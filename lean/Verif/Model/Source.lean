import Verif.Model.Text
import Verif.Model.Files
import Verif.Model.FileList
/-!
# Model of what happens to one source file, in bytes

`codeprep/fileutils.py`, `preprocess_and_write` in `codeprep/pipeline/parse_projects.py` and `codeprep/pipeline/to_repr.py`,
`convert_text` in `codeprep/parse/core.py`.  How the files appear on the disk is in `Verif.Model.Workers`; here it is what is in them.
Pickling is assumed to be lossless.  The lexers of Pygments are parameters.
-/
namespace Verif.Source
open Verif

/-! ## Decoding -/

/-- A continuation byte. -/
def isCont (b : UInt8) : Bool := 128 ≤ b.toNat && b.toNat < 192

/-- The codec `'utf-8'` with `errors='strict'`, as `open` and `bytes.decode` use it (CPython, `Objects/stringlib/codecs.h`): `none` is
`UnicodeDecodeError`.  Longer encodings than necessary, surrogates and numbers above 0x10FFFF are errors. -/
def decodeUtf8 : Bytes → Option Str
  | [] => some []
  | a :: r =>
    if a.toNat < 128 then (Char.ofNat a.toNat :: ·) <$> decodeUtf8 r
    else match r with
      | [] => none
      | b :: r =>
        if 194 ≤ a.toNat ∧ a.toNat < 224 ∧ isCont b then
          (Char.ofNat ((a.toNat - 192) * 64 + (b.toNat - 128)) :: ·) <$> decodeUtf8 r
        else match r with
          | [] => none
          | c :: r =>
            if 224 ≤ a.toNat ∧ a.toNat < 240 ∧ isCont b ∧ isCont c ∧ (a.toNat = 224 → 160 ≤ b.toNat) ∧ (a.toNat = 237 → b.toNat < 160) then
              (Char.ofNat ((a.toNat - 224) * 4096 + (b.toNat - 128) * 64 + (c.toNat - 128)) :: ·) <$> decodeUtf8 r
            else match r with
              | [] => none
              | d :: r =>
                if 240 ≤ a.toNat ∧ a.toNat < 245 ∧ isCont b ∧ isCont c ∧ isCont d ∧ (a.toNat = 240 → 144 ≤ b.toNat) ∧
                    (a.toNat = 244 → b.toNat < 144) then
                  (Char.ofNat ((a.toNat - 240) * 262144 + (b.toNat - 128) * 4096 + (c.toNat - 128) * 64 + (d.toNat - 128)) :: ·)
                    <$> decodeUtf8 r
                else none

/-- The codec `'ISO-8859-1'`: every byte is a character. -/
def decodeLatin1 (b : Bytes) : Str := b.map fun x => Char.ofNat x.toNat

/-- fileutils.py 36-48 `read_file_contents`, `read_file_with_encoding`.  The second decoder never fails, so lines 42-43 are dead.
Lines are collected before anything is returned, so nothing of a first attempt that fails is used. -/
def readContents (b : Bytes) : List Str :=
  match decodeUtf8 b with
  | some s => readFileContents s
  | none => readFileContents (decodeLatin1 b)

/-- parse_projects.py 42: the text that is parsed. -/
def parsedText (b : Bytes) : Str := pyJoin ['\n'] (readContents b)

/-! ## The extension and the lexer -/

/-- The part of a path after the last slash (47). -/
def lastPart (p : Bytes) : Bytes := (p.reverse.takeWhile (· ≠ 47)).reverse

/-- `os.path.splitext(p)[1]` (CPython, `genericpath._splitext`): from the last dot (46) of the last part on, unless there are only dots
before it. -/
def splitext (p : Bytes) : Bytes :=
  let suf := ((lastPart p).reverse.takeWhile (· ≠ 46)).reverse
  match (lastPart p).reverse.dropWhile (· ≠ 46) with
  | [] => []
  | dot :: pre => if pre.any (· ≠ 46) then dot :: suf else []

/-- parse_projects.py 41: `os.path.splitext(src_file_path)[1].decode()[1:]`; `UnicodeDecodeError` is a `ValueError`. -/
def extensionOf (p : Bytes) : Except PyErr Str :=
  match decodeUtf8 (splitext p) with
  | some s => .ok (s.drop 1)
  | none => .error .valueError

/-- A lexer of Pygments. -/
abbrev Lexer := Str → List (TokType × Str)

/-- `get_lexer_by_name`, `none` is `ClassNotFound`, and `guess_lexer`. -/
structure Lexers where
  byName : Str → Option Lexer
  guess : Str → Lexer

/-- parse/core.py 45-55: choosing the lexer and running it. -/
def lexText (L : Lexers) (text : Str) (ext : Option Str) : List (TokType × Str) :=
  let ext := match ext with
    | none => "java".toList
    | some [] => "java".toList
    | some (c :: r) => c :: r
  match L.byName ext with
  | some l => l text
  | none => L.guess text text

/-! ## The stages -/

/-- parse_projects.py 34-43: what is parsed of a file; `none` is a file that is not there (lines 36-40), for which nothing is written. -/
def parseFile (u : Ucd) (L : Lexers) (path : Bytes) (file : Option Bytes) : Except PyErr (Option (List Tok)) :=
  match file with
  | none => .ok none
  | some b => do
    let ext ← extensionOf path
    let ts ← convertText u (lexText L (parsedText b) (some ext))
    .ok (some ts)

/-- to_repr.py 72-76: what is written for the parsed tokens.  All characters are ASCII characters, so that every encoding which
extends ASCII gives these bytes. -/
def reprFile (env : Env) (c : PrepConfig) (bd : Option BpeData) (ts : List Tok) : Except PyErr Bytes := do
  let r ← toRepr env c (ts ++ [.specialToken Ph.ect]) bd
  .ok (encodeUtf8 (prepText r.1))

/-- Both stages. -/
def fileResult (env : Env) (L : Lexers) (c : PrepConfig) (bd : Option BpeData) (path : Bytes) (file : Option Bytes) :
    Except PyErr (Option Bytes) := do
  match ← parseFile env.ucd L path file with
  | none => .ok none
  | some ts => do
    let r ← reprFile env c bd ts
    .ok (some r)

/-- text.py 25-40 `preprocess` on a text, with the extension that is passed to it. -/
def textResult (env : Env) (load : Str → Except PyErr BpeData) (L : Lexers) (c : PrepConfig) (id : Option Str) (text : Str)
    (ext : Option Str) (appendEof : Bool) : Except PyErr (List Str × Meta) :=
  preprocessText env load (lexText L text ext) c id appendEof

/-- corpus.py 26-32 and vocab.py 206-213: the words of a result, which are counted. -/
def resultWords (b : Bytes) : List Str := (readContents b).flatMap (pySplit ' ')

end Verif.Source
