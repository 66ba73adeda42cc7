import Verif.Model.Unicode
/-!
# Reading the output of basic splitting
-/
namespace Verif.Spec
open Verif

/-- The first letter as a capital. -/
def capFirst : Str → Str
  | [] => []
  | c :: r => asciiToUpper c :: r

/-- Read a list of subtokens: `<w>` and `</w>` are left out, `<Cap>` and `<CAPS>` say how the next subtoken was written.
`f` is what remains to be done with the next subtoken. -/
def decodeFrom (f : Str → Str) : List Str → Str
  | [] => []
  | t :: r =>
    if t = "<w>".toList ∨ t = "</w>".toList then decodeFrom f r
    else if t = "<Cap>".toList then decodeFrom capFirst r
    else if t = "<CAPS>".toList then decodeFrom (fun s => s.map asciiToUpper) r
    else f t ++ decodeFrom id r

/-- The identifier a list of subtokens stands for. -/
def decodeWord (l : List Str) : Str := decodeFrom id l

/-- The subtokens without `<w>` and `</w>`, joined. -/
def joinPieces (l : List Str) : Str := (l.filter fun t => t ≠ "<w>".toList && t ≠ "</w>".toList).flatten

/-- How basic splitting shows one piece of an identifier: with `noCase` in lower case, after a mark for its capitals. -/
def markPiece (noCase : Bool) (p : Str) : List Str :=
  if noCase then
    if p.all asciiUpper then ["<CAPS>".toList, p.map asciiToLower]
    else if (p.take 1).all asciiUpper then ["<Cap>".toList, p.map asciiToLower]
    else [p]
  else [p]

/-- How basic splitting shows an identifier: between `<w>` and `</w>` unless there is only one piece. -/
def markWord (noCase : Bool) : List Str → List Str
  | [p] => markPiece noCase p
  | ps => ["<w>".toList] ++ ps.flatMap (markPiece noCase) ++ ["</w>".toList]

/-- How basic splitting shows a number. -/
def markNumber (splitNumbers : Bool) (v : Str) : List Str :=
  if splitNumbers ∧ 1 < v.length then ["<w>".toList] ++ v.map (fun c => [c]) ++ ["</w>".toList] else [v]

/-- One piece of an identifier if words are split further by `f`: an underscore stays, a word is split; with `noCase` the word
is lower-cased first and a mark for its capitals is put before its parts. -/
def markPieceWith (f : Str → List Str) (noCase : Bool) (p : Str) : List Str :=
  if p = ['_'] then [p]
  else if noCase then
    if p.all asciiUpper then "<CAPS>".toList :: f (p.map asciiToLower)
    else if (p.take 1).all asciiUpper then "<Cap>".toList :: f (p.map asciiToLower)
    else f p
  else f p

/-- A list of subtokens between `<w>` and `</w>`, unless it is one subtoken, possibly after a mark for capitals. -/
def wrapWord (l : List Str) : List Str :=
  match l with
  | [x] => [x]
  | [m, x] => if m = "<Cap>".toList ∨ m = "<CAPS>".toList then [m, x] else ["<w>".toList, m, x, "</w>".toList]
  | l => ["<w>".toList] ++ l ++ ["</w>".toList]

/-- A stem with the capitals of the word it comes from. -/
def likeCase (u : Ucd) (w stem : Str) : Str :=
  if u.isUpper w then u.toUpper stem
  else if u.isUpper (w.take 1) then u.capitalize stem
  else stem

end Verif.Spec
