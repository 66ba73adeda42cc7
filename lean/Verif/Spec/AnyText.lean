import Verif.Spec.Reference
import Verif.Spec.Case
/-!
# The reference description for texts with any characters

As in `Spec/Reference`, but words may contain any characters: their capitals are made anew (`recased`), and with `no_unicode` words
with other characters than ASCII are replaced.
-/
namespace Verif.Spec
open Verif

/-- A piece of an identifier in small letters, with the mark for its capitals. -/
def loweredPiece (u : Ucd) (p : Str) : List Str × Str :=
  match p with
  | [] => ([], [])
  | c :: r =>
    if u.isUpper p then (["<CAPS>".toList], u.toLower p)
    else if u.isLower p = false ∧ u.isUpper [c] = true then (["<Cap>".toList], u.toLower [c] ++ r)
    else ([], p)

/-- One piece of an identifier if words are split further by `f`. -/
def markAny (u : Ucd) (f : Str → List Str) (noCase : Bool) (p : Str) : List Str :=
  if p = ['_'] then [p]
  else if noCase then (loweredPiece u p).1 ++ f (loweredPiece u p).2
  else f (recased u p)

/-- An identifier: word characters that are not a number. -/
def IsIdentifier (u : Ucd) (p : Str) : Prop := p ≠ [] ∧ (∀ c ∈ p, u.reWord c = true) ∧ ¬ IsNumber p

/-- All characters are ASCII. -/
def AllAscii (p : Str) : Prop := ∀ c ∈ p, c.toNat < 128

/-- The piece for a part of a text.  With `nu` (`no_unicode`) an identifier that is not ASCII is left out; with BPE its characters
that are not ASCII are replaced, and its capitals are made anew once more. -/
inductive AnyPiece (u : Ucd) (nu : Bool) (o : PieceOpts) : Str → Piece → Prop
  | plain {p} : (IsIdentifier u p → nu = true → AllAscii p) → AnyPiece u nu o p (codePiece u p)
  | hidden {p} : IsIdentifier u p → nu = true → ¬ AllAscii p → o.literals ≠ .bpe →
      AnyPiece u nu o p ⟨.nonEng, "<non-en>".toList, .constant⟩
  | replaced {p qs x} : IsIdentifier u p → nu = true → ¬ AllAscii p → o.literals = .bpe → IdentSplit u p qs →
      Replaced "÷".toList (qs.map (recased u)).flatten x → AnyPiece u nu o p ⟨.splitContainer, recased u x, .literal⟩

/-- The pieces for the parts of a text. -/
inductive AnyPieces (u : Ucd) (nu : Bool) (o : PieceOpts) : List Str → List Piece → Prop
  | nil : AnyPieces u nu o [] []
  | cons {p q ps qs} : AnyPiece u nu o p q → AnyPieces u nu o ps qs → AnyPieces u nu o (p :: ps) (q :: qs)

/-- `out` is the text of a literal with every maximal run of characters that are neither ASCII nor non-breaking spaces replaced by
the mark for such runs. -/
inductive HiddenText : Str → Str → Prop
  | nil : HiddenText [] []
  | keep {c w out} : (c.toNat < 128 ∨ c = '\u00a0') → HiddenText w out → HiddenText (c :: w) (c :: out)
  | run {r w out} : r ≠ [] → (∀ c ∈ r, 128 ≤ c.toNat ∧ c ≠ '\u00a0') → (∀ c, w.head? = some c → c.toNat < 128 ∨ c = '\u00a0') →
      HiddenText w out → HiddenText (r ++ w) ('÷' :: out)

/-- Texts of the lexer in which no words are looked for: white space, operators, numbers, keywords, and what is left out. -/
def NoWords (u : Ucd) (o : PieceOpts) (e : TokType × Str) : Prop :=
  (∀ c ∈ e.2, u.space c = true) ∨ kindOf e.1 = .operator ∨ kindOf e.1 = .number ∨ kindOf e.1 = .keyword ∨
    ((kindOf e.1 = .lineComment ∨ kindOf e.1 = .blockComment) ∧ o.noCom = true) ∨
    (kindOf e.1 = .string ∧ (o.noStr = true ∨ o.limit < e.2.length))

/-- `DescribedAny u nu o (ty, v) ps`: the text `v`, to which the lexer gave the type `ty`, consists of the pieces `ps`. -/
inductive DescribedAny (u : Ucd) (nu : Bool) (o : PieceOpts) : TokType × Str → List Piece → Prop
  | same {e ps} : NoWords u o e → Described u o e ps → DescribedAny u nu o e ps
  | words {ty v ps qs} : (∃ c ∈ v, u.space c = false) → kindOf ty = .words → TextSplit u v ps → AnyPieces u nu o ps qs →
      DescribedAny u nu o (ty, v) qs
  | lineComment {ty v ps qs} : (∃ c ∈ v, u.space c = false) → kindOf ty = .lineComment → o.noCom = false → TextSplit u v ps →
      AnyPieces u nu o ps qs →
      DescribedAny u nu o (ty, v) (qs.map (Piece.within .oneLineComment) ++ [⟨.oneLineComment, "<EOL>".toList, .constant⟩])
  | blockComment {ty v ps qs} : (∃ c ∈ v, u.space c = false) → kindOf ty = .blockComment → o.noCom = false → TextSplit u v ps →
      AnyPieces u nu o ps qs → DescribedAny u nu o (ty, v) (qs.map (Piece.within .multilineComment))
  | splitLiteral {ty v ps qs} : (∃ c ∈ v, u.space c = false) → kindOf ty = .string → o.noStr = false → v.length ≤ o.limit →
      o.literals = .split → LiteralSplit u v ps → AnyPieces u nu o (ps.filter fun p => !p.contains ' ') qs →
      DescribedAny u nu o (ty, v) (qs.map (Piece.within .stringLiteral))
  | wholeLiteral {ty v ps xs x} : (∃ c ∈ v, u.space c = false) → kindOf ty = .string → o.noStr = false → v.length ≤ o.limit →
      o.literals ≠ .split → LiteralSplit u v ps → ShownLiterals u ps xs → (nu = false → x = xs.flatten) →
      (nu = true → HiddenText xs.flatten x) → DescribedAny u nu o (ty, v) [⟨.stringLiteral, x, .literal⟩]

/-- The pieces of everything the lexer delivers. -/
inductive DescribedAnyAll (u : Ucd) (nu : Bool) (o : PieceOpts) : List (TokType × Str) → List Piece → Prop
  | nil : DescribedAnyAll u nu o [] []
  | cons {e r ps qs} : DescribedAny u nu o e ps → DescribedAnyAll u nu o r qs → DescribedAnyAll u nu o (e :: r) (ps ++ qs)

/-- `SpelledAny u m p l`: in the mode `m` the piece `p` is written as the strings `l`. -/
inductive SpelledAny (u : Ucd) : Mode → Piece → List Str → Prop
  | same {m p l} : p.form ≠ .word → Spelled u m p l → SpelledAny u m p l
  | wordWhole {ty s ps} : IdentSplit u s ps → SpelledAny u .nosplit ⟨ty, s, .word⟩ [(ps.map (recased u)).flatten]
  | wordBasic {sn f nc ty s ps} : IdentSplit u s ps →
      SpelledAny u (.basic sn f nc) ⟨ty, s, .word⟩ (wrapWord (ps.flatMap (markAny u f nc)))
  | wordBpe {d ty s ps l} : IdentSplit u s ps → getBpeSubwords (ps.map (recased u)).flatten d = .ok l →
      SpelledAny u (.bpe d) ⟨ty, s, .word⟩ l

/-- The pieces of a text written down one after the other; with `noSpaces` white space is left out. -/
inductive SpelledAnyAll (u : Ucd) (m : Mode) (noSpaces : Bool) : List Piece → List FullTok → Prop
  | nil : SpelledAnyAll u m noSpaces [] []
  | skip {p ps us} : noSpaces = true → p.form = .space → SpelledAnyAll u m noSpaces ps us → SpelledAnyAll u m noSpaces (p :: ps) us
  | cons {p l ps us} : (noSpaces = false ∨ p.form ≠ .space) → SpelledAny u m p l → SpelledAnyAll u m noSpaces ps us →
      SpelledAnyAll u m noSpaces (p :: ps) (⟨p.ty, l, p.recorded⟩ :: us)

end Verif.Spec
