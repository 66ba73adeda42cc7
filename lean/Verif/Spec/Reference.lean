import Verif.Spec.Dispatch
import Verif.Spec.Parse
import Verif.Spec.Decode
import Verif.Spec.Meta
import Verif.Spec.Api
import Verif.Model.PrepConfig
/-!
# A reference description of the text functions

The output of `nosplit`, `chars`, `basic` and `bpe` described in two steps, without parsed tokens: what the lexer delivers is a
list of *pieces* (a type, a text and a form), and every piece is spelled as a list of strings, according to its form and the
splitting mode.
-/
namespace Verif.Spec
open Verif

/-- How a piece is treated: white space, texts that are never split (and recorded as such), constant texts, numbers, words,
string literals as a whole, and the two quotes of a literal that is left out. -/
inductive Form where
  | space | fixed | constant | number | word | literal | quotes
deriving DecidableEq, Repr

/-- A piece of a text. -/
structure Piece where
  ty : Ty
  text : Str
  form : Form
deriving DecidableEq, Repr

open Classical in
/-- A piece of code. -/
noncomputable def codePiece (u : Ucd) (p : Str) : Piece :=
  if p = "\n".toList then ⟨.newLine, p, .space⟩
  else if p = "\t".toList ∨ p = "    ".toList then ⟨.tab, "\t".toList, .space⟩
  else if IsNumber p then ⟨.number, p.map asciiToLower, .number⟩
  else if p ≠ [] ∧ ∀ c ∈ p, u.reWord c = true then ⟨.splitContainer, p, .word⟩
  else ⟨.nonCodeChar, p, .fixed⟩

/-- The same piece within a comment or a string literal. -/
def Piece.within (ty : Ty) (p : Piece) : Piece := { p with ty := ty }

/-- The types of operators and punctuation. -/
def operatorType (v : Str) : Ty :=
  if v = ";".toList then .semicolon
  else if v = "{".toList then .openingCurly
  else if v = "}".toList then .closingCurly
  else if v = "(".toList then .openingBracket
  else if v = ")".toList then .closingBracket
  else .operator

/-- Numbers the lexer has found: 0 and 1 have types of their own and are never split. -/
def numberPiece (u : Ucd) (v : Str) : Piece :=
  if v = "0".toList then ⟨.zero, v, .constant⟩
  else if v = "1".toList then ⟨.one, v, .constant⟩
  else ⟨.number, u.toLower v, .number⟩

/-- What is done with string literals: split, kept as one text, or kept as one text and split by BPE. -/
inductive Literals where
  | split | full | bpe
deriving DecidableEq, Repr

/-- The options that matter for pieces. -/
structure PieceOpts where
  noCom : Bool
  noStr : Bool
  limit : Nat
  literals : Literals

/-- `Described u o (ty, v) ps`: the text `v`, to which the lexer gave the type `ty`, consists of the pieces `ps`. -/
inductive Described (u : Ucd) (o : PieceOpts) : TokType × Str → List Piece → Prop
  | newline (ty) : Described u o (ty, "\n".toList) [⟨.newLine, "\n".toList, .space⟩]
  | tab (ty) : Described u o (ty, "\t".toList) [⟨.tab, "\t".toList, .space⟩]
  | blank {ty v} : (∀ c ∈ v, u.space c = true) → v ≠ "\n".toList → v ≠ "\t".toList →
      Described u o (ty, v) (List.replicate (v.length / 4) ⟨.tab, "\t".toList, .space⟩)
  | operator {ty v} : (∃ c ∈ v, u.space c = false) → kindOf ty = .operator → Described u o (ty, v) [⟨operatorType v, v, .fixed⟩]
  | number {ty v} : (∃ c ∈ v, u.space c = false) → kindOf ty = .number → Described u o (ty, v) [numberPiece u v]
  | keyword {ty v} : (∃ c ∈ v, u.space c = false) → kindOf ty = .keyword → Described u o (ty, v) [⟨.keyWord, v, .fixed⟩]
  | words {ty v ps} : (∃ c ∈ v, u.space c = false) → kindOf ty = .words → TextSplit u v ps →
      Described u o (ty, v) (ps.map (codePiece u))
  | lineComment {ty v ps} : (∃ c ∈ v, u.space c = false) → kindOf ty = .lineComment → o.noCom = false → TextSplit u v ps →
      Described u o (ty, v) ((ps.map (codePiece u)).map (Piece.within .oneLineComment) ++
        [⟨.oneLineComment, "<EOL>".toList, .constant⟩])
  | blockComment {ty v ps} : (∃ c ∈ v, u.space c = false) → kindOf ty = .blockComment → o.noCom = false → TextSplit u v ps →
      Described u o (ty, v) ((ps.map (codePiece u)).map (Piece.within .multilineComment))
  | hiddenLine {ty v} : (∃ c ∈ v, u.space c = false) → kindOf ty = .lineComment → o.noCom = true →
      Described u o (ty, v) [⟨.oneLineComment, "<comment>".toList, .constant⟩]
  | hiddenBlock {ty v} : (∃ c ∈ v, u.space c = false) → kindOf ty = .blockComment → o.noCom = true →
      Described u o (ty, v) [⟨.multilineComment, "<comment>".toList, .constant⟩]
  | hiddenString {ty v} : (∃ c ∈ v, u.space c = false) → kindOf ty = .string → o.noStr = true →
      Described u o (ty, v) [⟨.stringLiteral, "<str-literal>".toList, .constant⟩]
  | long {ty v} : (∃ c ∈ v, u.space c = false) → kindOf ty = .string → o.noStr = false → o.limit < v.length →
      Described u o (ty, v) [⟨.stringLiteral, "\"\"".toList, if o.literals = .full then .constant else .quotes⟩]
  | splitLiteral {ty v ps} : (∃ c ∈ v, u.space c = false) → kindOf ty = .string → o.noStr = false → v.length ≤ o.limit →
      o.literals = .split → LiteralSplit u v ps →
      Described u o (ty, v) (((ps.filter fun p => !p.contains ' ').map (codePiece u)).map (Piece.within .stringLiteral))
  | wholeLiteral {ty v ps} : (∃ c ∈ v, u.space c = false) → kindOf ty = .string → o.noStr = false → v.length ≤ o.limit →
      o.literals ≠ .split → LiteralSplit u v ps →
      Described u o (ty, v) [⟨.stringLiteral, (ps.map shownLiteral).flatten, .literal⟩]

/-- The pieces of everything the lexer delivers. -/
inductive DescribedAll (u : Ucd) (o : PieceOpts) : List (TokType × Str) → List Piece → Prop
  | nil : DescribedAll u o [] []
  | cons {e r ps qs} : Described u o e ps → DescribedAll u o r qs → DescribedAll u o (e :: r) (ps ++ qs)

/-- A newline at the very end is left out, and the end of the text is marked on request. -/
def finishPieces (eof : Bool) (ps : List Piece) : List Piece :=
  (if (ps.getLast?.map (·.ty)) = some .newLine then ps.dropLast else ps) ++
    (if eof then [⟨.specialToken, "<EOF>".toList, .fixed⟩] else [])

/-- Splitting modes: nothing is split; words (after splitting identifiers, further by `f`) and perhaps numbers are split;
BPE. -/
inductive Mode where
  | nosplit
  | basic (splitNumbers : Bool) (f : Str → List Str) (noCase : Bool)
  | bpe (d : BpeData)

/-- `Spelled u m p l`: in the mode `m` the piece `p` is written as the strings `l`. -/
inductive Spelled (u : Ucd) : Mode → Piece → List Str → Prop
  | space {m ty s} : Spelled u m ⟨ty, s, .space⟩ [s]
  | fixed {m ty s} : Spelled u m ⟨ty, s, .fixed⟩ [s]
  | constant {m ty s} : Spelled u m ⟨ty, s, .constant⟩ [s]
  | quotes {m ty s} : Spelled u m ⟨ty, s, .quotes⟩ ["\"".toList, "\"".toList]
  | numberWhole {ty s} : Spelled u .nosplit ⟨ty, s, .number⟩ [s]
  | wordWhole {ty s} : Spelled u .nosplit ⟨ty, s, .word⟩ [s]
  | literalWhole {ty s} : Spelled u .nosplit ⟨ty, s, .literal⟩ [s]
  | numberBasic {sn f nc ty s} : Spelled u (.basic sn f nc) ⟨ty, s, .number⟩ (markNumber sn s)
  | wordBasic {sn f nc ty s ps} : IdentSplit u s ps →
      Spelled u (.basic sn f nc) ⟨ty, s, .word⟩ (wrapWord (ps.flatMap (markPieceWith f nc)))
  | numberBpe {d ty s l} : getBpeSubwords s d = .ok l → Spelled u (.bpe d) ⟨ty, s, .number⟩ l
  | wordBpe {d ty s l} : getBpeSubwords s d = .ok l → Spelled u (.bpe d) ⟨ty, s, .word⟩ l
  | literalBpe {d ty s l} : getBpeSubwords s d = .ok l → Spelled u (.bpe d) ⟨ty, s, .literal⟩ l

/-- The strings of a piece that are recorded as not to be processed further. -/
def Piece.recorded (p : Piece) : List Str :=
  match p.form with
  | .space => [p.text]
  | .fixed => [p.text]
  | .quotes => ["\"".toList]
  | _ => []

/-- The pieces of a text written down one after the other; with `noSpaces` white space is left out. -/
inductive SpelledAll (u : Ucd) (m : Mode) (noSpaces : Bool) : List Piece → List FullTok → Prop
  | nil : SpelledAll u m noSpaces [] []
  | skip {p ps us} : noSpaces = true → p.form = .space → SpelledAll u m noSpaces ps us → SpelledAll u m noSpaces (p :: ps) us
  | cons {p l ps us} : (noSpaces = false ∨ p.form ≠ .space) → Spelled u m p l → SpelledAll u m noSpaces ps us →
      SpelledAll u m noSpaces (p :: ps) (⟨p.ty, l, p.recorded⟩ :: us)

/-- The end-of-token mark. -/
def markEnd : List Str → List Str
  | [] => []
  | [x] => [x ++ "</t>".toList]
  | x :: y :: r => x :: markEnd (y :: r)

/-- Whether a call uses BPE. -/
def usesBpe : ApiCall → Bool
  | .chars _ => true
  | .bpe _ _ => true
  | _ => false

/-- The limit for string literals: limits below 2 count as 2, limits of 62 and more (and negative ones) are ignored. -/
def limitOf (m : Int) : Nat := if 0 ≤ m ∧ m < 2 then 2 else if 2 ≤ m ∧ m < 62 then m.toNat else sysMaxsize

/-- The options of a call that matter for pieces. -/
def pieceOpts (call : ApiCall) : PieceOpts where
  noCom := (optsOf call).noCom
  noStr := (optsOf call).noStr
  limit := limitOf (optsOf call).maxStrLength
  literals := match call with
    | .nosplit _ fs => if fs then .full else .split
    | .basic _ _ _ _ _ => .split
    | .chars _ => .bpe
    | .bpe _ _ => .bpe

/-- Ronin splitting and stemming: every part that ronin delivers is replaced by its stem, with the same capitals. -/
def wordParts (env : Env) (ronin stem : Bool) (s : Str) : List Str :=
  if stem then (env.ronin s).map fun w => if w = [] then w else likeCase env.ucd w (env.porter w)
  else if ronin then env.ronin s
  else [s]

/-- The splitting mode of a call; `load` delivers BPE data. -/
inductive ModeOf (env : Env) (load : Str → Except PyErr BpeData) : ApiCall → Mode → Prop
  | nosplit {o fs} : ModeOf env load (.nosplit o fs) .nosplit
  | basic {o sn ro st nc} : ModeOf env load (.basic o sn ro st nc) (.basic (sn || ro || st) (wordParts env ro st) nc)
  | chars {o d} : load "0".toList = .ok d → ModeOf env load (.chars o) (.bpe d)
  | bpe {i o d} : load i = .ok d → ModeOf env load (.bpe i o) (.bpe d)

/-- What the text functions deliver for a list of full tokens. -/
def outputOf (call : ApiCall) (us : List FullTok) : List Str × Meta :=
  (us.flatMap fun x => if usesBpe call then markEnd x.subs else x.subs, (flatForm us).2)

end Verif.Spec
