import Verif.Model.NonEng
import Verif.Model.Files
/-!
# Model of `codeprep/tokens/*.py`, `codeprep/preprocess/core.py`, `metadata.py` and `reprconfig.py`

The splitters of a `ReprConfig` are functions without side effects; `get_bpe_subwords` has one only if a word is found in
the merges cache (see `Model/BpeEncode.lean` and C04; `Model/Wear.lean` has the same functions with this effect, C63).
-/
namespace Verif

/-- The classes of tokens (`type(token)`). -/
inductive Ty where
  | number | one | zero
  | newLine | tab | spaceInString
  | keyWord | operator | semicolon | openingCurly | closingCurly | openingBracket | closingBracket
  | nonCodeChar | specialToken
  | splitContainer | nonEng
  | oneLineComment | multilineComment | stringLiteral
  | underscore | word
deriving DecidableEq, Repr

/-- word.py 34-38 `Word.Capitalization`. -/
inductive Cap where
  | undefined | none | firstLetter | all
deriving DecidableEq, Repr

/-- `ParsedSubtoken`s: word.py 14 `Underscore`, 28 `Word`. -/
inductive Subtok where
  | underscore
  | word (canonic : Str) (cap : Cap)
deriving DecidableEq, Repr

/-- `ParsedToken`s. -/
inductive Tok where
  /-- numeric.py 13-15 `Number` with its (already lower-cased) value. -/
  | number (val : Str)
  /-- numeric.py 40-47 `One`, `Zero`. -/
  | one
  | zero
  /-- whitespace.py 26-46. -/
  | newLine
  | tab
  | spaceInString (n : Nat)
  /-- word.py 120-179 `NonProcessibleToken` and its subclasses. -/
  | keyWord (s : Str)
  | operator (s : Str)
  | semicolon
  | openingCurly
  | closingCurly
  | openingBracket
  | closingBracket
  | nonCodeChar (s : Str)
  | specialToken (s : Str)
  /-- containers.py 46-48 `SplitContainer`. -/
  | split (subs : List Subtok)
  /-- noneng.py (tokens) 15-20 `NonEng`. -/
  | nonEng (subs : List Subtok)
  /-- containers.py 100-118 comments. -/
  | oneLineComment (ts : List Tok)
  | multilineComment (ts : List Tok)
  /-- containers.py 121-124 `StringLiteral`. -/
  | stringLiteral (ts : List Tok) (len : Nat)

/-- `type(token)`. -/
def Tok.ty : Tok → Ty
  | .number _ => .number
  | .one => .one
  | .zero => .zero
  | .newLine => .newLine
  | .tab => .tab
  | .spaceInString _ => .spaceInString
  | .keyWord _ => .keyWord
  | .operator _ => .operator
  | .semicolon => .semicolon
  | .openingCurly => .openingCurly
  | .closingCurly => .closingCurly
  | .openingBracket => .openingBracket
  | .closingBracket => .closingBracket
  | .nonCodeChar _ => .nonCodeChar
  | .specialToken _ => .specialToken
  | .split _ => .splitContainer
  | .nonEng _ => .nonEng
  | .oneLineComment _ => .oneLineComment
  | .multilineComment _ => .multilineComment
  | .stringLiteral _ _ => .stringLiteral

/-! ## Metadata -/

/-- metadata.py 18-25 `PreprocessingMetadata`; the set of non-processable tokens is a duplicate-free list. -/
structure Meta where
  nonproc : List Str
  bounds : List Nat
  types : List Ty
deriving DecidableEq, Repr

/-- metadata.py 19-25: `PreprocessingMetadata()`. -/
def Meta.empty : Meta := ⟨[], [0], []⟩

/-- metadata.py 32-33 `set_all_tokens_type`. -/
def Meta.setAllTypes (m : Meta) (t : Ty) : Meta := { m with types := List.replicate (m.bounds.length - 1) t }

/-- metadata.py 35-56 `update`; `pop` from an empty list raises `IndexError`. -/
def Meta.update (m m' : Meta) : Except PyErr Meta :=
  match m.bounds.getLast? with
  | none => .error .indexError
  | some n => .ok
    { nonproc := m'.nonproc.foldl setAdd m.nonproc
      bounds := m.bounds.dropLast ++ m'.bounds.map (n + ·)
      types := m.types ++ m'.types }

/-- rootclasses.py 11-19 `wrap_in_metadata_for_full_word`. -/
def fullWord (ty : Ty) (tokens : List Str) (nonproc : List Str := []) : List Str × Meta :=
  (tokens, ⟨nonproc, [0, tokens.length], [ty]⟩)

/-! ## Representation -/

/-- reprconfig.py 13-27 `ReprConfig`.  `bpe` tells whether `bpe_data` is set; the splitters have the BPE data built in. -/
structure ReprConfig where
  types : List Ty
  bpe : Bool
  lowercase : Bool
  numberSplitter : Str → Except PyErr (List Str)
  wordSplitter : Option (Str → Except PyErr (List Str))
  fullStrings : Bool
  maxStrLength : Option Nat

/-- Calling `repr_config.word_splitter`: calling `None` raises `TypeError`. -/
def ReprConfig.splitWord (rc : ReprConfig) (s : Str) : Except PyErr (List Str) :=
  match rc.wordSplitter with
  | none => .error .typeError
  | some f => f s

/-- word.py 85-93 `__with_preserved_case`. -/
def withPreservedCase (u : Ucd) (canonic : Str) : Cap → Str
  | .undefined => canonic
  | .none => canonic
  | .firstLetter => u.capitalize canonic
  | .all => u.toUpper canonic

/-- word.py 65-74 `__with_capitalization_prefixes`. -/
def withCapPrefixes (cap : Cap) (subwords : List Str) : List Str :=
  match cap with
  | .undefined => subwords
  | .none => subwords
  | .firstLetter => Ph.capital :: subwords
  | .all => Ph.capitals :: subwords

/-- word.py 52-54 `_is_strictly_upper`. -/
def isStrictlyUpper (u : Ucd) (s : Str) : Bool := u.isUpper s && !u.isUpper (u.toLower s)

/-- word.py 43-47, 56-60: `Word(canonic_form, capitalization)`. -/
def mkWord (u : Ucd) (canonic : Str) (cap : Cap) : Except PyErr Subtok :=
  if isStrictlyUpper u canonic || (match canonic with | [] => false | c :: _ => isStrictlyUpper u [c])
  then .error .assertionError
  else .ok (.word canonic cap)

/-- word.py 105-117 `Word.from_`. -/
def wordFrom (u : Ucd) (s : Str) : Except PyErr Subtok :=
  match s with
  | [] => .error .valueError
  | c :: r =>
    if u.isLower s then mkWord u s .none
    else if u.isUpper s then mkWord u (u.toLower s) .all
    else if u.isUpper [c] then mkWord u (u.toLower [c] ++ r) .firstLetter
    else mkWord u s .undefined

/-- `str(subtoken)`: word.py 21-22, 24-25, 62-63, 95-96 (also `torepr(subtoken, None)[0][0]`). -/
def Subtok.str (u : Ucd) : Subtok → Str
  | .underscore => ['_']
  | .word c cap => withPreservedCase u c cap

/-- core.py 23-33 for a subtoken; word.py 76-83.  `Underscore` has no `preprocessed_repr`. -/
def Subtok.repr (u : Ucd) (rc : ReprConfig) : Subtok → Except PyErr (List Str)
  | .underscore => if Ty.underscore ∈ rc.types then .error .attributeError else .ok [['_']]
  | .word c cap =>
    if Ty.word ∈ rc.types then
      if rc.lowercase then do
        let subwords ← rc.splitWord c
        .ok (withCapPrefixes cap subwords)
      else rc.splitWord (withPreservedCase u c cap)
    else .ok [withPreservedCase u c cap]

/-- containers.py 39-43. -/
def wrapInWordBoundaries (res : List Str) : List Str :=
  if res.length = 1 || (res.length = 2 && (match res.head? with
      | some h => h ∈ [Ph.capitals, Ph.capital]
      | none => false))
  then res
  else [Ph.wordStart] ++ res ++ [Ph.wordEnd]

/-- containers.py 64-68: the loop over the subtokens. -/
def subtoksRepr (u : Ucd) (rc : ReprConfig) : List Str → List Subtok → Except PyErr (List Str)
  | acc, [] => .ok acc
  | acc, s :: r => do
    let x ← s.repr u rc
    subtoksRepr u rc (acc ++ x) r

/-- containers.py 57: `"".join(map(lambda s: torepr(s, repr_config)[0][0], self.subtokens))`. -/
def subtoksJoin (u : Ucd) (rc : ReprConfig) : List Subtok → Except PyErr Str
  | [] => .ok []
  | s :: r => do
    let x ← s.repr u rc
    match x with
    | [] => .error .indexError
    | h :: _ => do
      let t ← subtoksJoin u rc r
      .ok (h ++ t)

/-- `str(SplitContainer)`: containers.py 35-36, 56-58 with `repr_config=None`. -/
def splitStr (u : Ucd) (subs : List Subtok) : Str := concat (subs.map (Subtok.str u))

/-- core.py 23-33 for a `SplitContainer`; containers.py 56-69. -/
def splitRepr (u : Ucd) (rc : ReprConfig) (subs : List Subtok) : Except PyErr (List Str × Meta) :=
  if Ty.splitContainer ∈ rc.types then
    if rc.bpe then do
      let ws ← rc.splitWord (splitStr u subs)
      .ok (fullWord .splitContainer ws)
    else do
      let res ← subtoksRepr u rc [] subs
      .ok (fullWord .splitContainer (wrapInWordBoundaries res))
  else do
    let s ← subtoksJoin u rc subs
    .ok (fullWord .splitContainer [s])

/-- core.py 23-33 for a `NonEng`; noneng.py (tokens) 22-30; containers.py 71-73. -/
def nonEngRepr (u : Ucd) (rc : ReprConfig) (subs : List Subtok) : Except PyErr (List Str × Meta) :=
  if Ty.nonEng ∈ rc.types then
    if rc.bpe then do
      let token ← replaceNonAsciiSeqs (splitStr u subs) Ph.nonAsciiSeq
      let w ← wordFrom u token
      splitRepr u rc [w]
    else .ok (fullWord .nonEng [Ph.nonEng])
  else splitRepr u rc subs

/-- core.py 23-33 for numbers; numeric.py 23-34. -/
def numberRepr (rc : ReprConfig) (ty : Ty) (val : Str) : Except PyErr (List Str × Meta) :=
  if ty ∈ rc.types then do
    let subwords ← rc.numberSplitter val
    .ok (fullWord ty (if subwords.length > 1 && !rc.bpe then [Ph.wordStart] ++ subwords ++ [Ph.wordEnd] else subwords))
  else .ok (fullWord ty [val])

/-- core.py 23-33 for `NewLine` and `Tab`; whitespace.py 26-39. -/
def whitespaceRepr (rc : ReprConfig) (ty : Ty) (s : Str) : List Str × Meta :=
  if ty ∈ rc.types then ([], Meta.empty) else fullWord ty [s] [s]

/-- core.py 23-33 for `NonProcessibleToken`s, which have no `preprocessed_repr`; word.py 133-134. -/
def nonProcRepr (rc : ReprConfig) (ty : Ty) (s : Str) : Except PyErr (List Str × Meta) :=
  if ty ∈ rc.types then .error .attributeError else .ok (fullWord ty [s] [s])

/-! ### `str(token)` -/

mutual
/-- The list `token.non_preprocessed_repr()[0]` (no `repr_config`), on which `str(token)` is based. -/
def Tok.plain (u : Ucd) : Tok → List Str
  | .number v => [v]
  | .one => [['1']]
  | .zero => [['0']]
  | .newLine => [['\n']]
  | .tab => [['\t']]
  | .spaceInString n => [(List.replicate n Ph.spaceInStr).flatten]
  | .keyWord s => [s]
  | .operator s => [s]
  | .semicolon => [[';']]
  | .openingCurly => [['{']]
  | .closingCurly => [['}']]
  | .openingBracket => [['(']]
  | .closingBracket => [[')']]
  | .nonCodeChar s => [s]
  | .specialToken s => [s]
  | .split subs => [splitStr u subs]
  | .nonEng subs => [splitStr u subs]
  | .oneLineComment ts => plainList u ts ++ [Ph.olcEnd]
  | .multilineComment ts => plainList u ts
  | .stringLiteral ts _ => [strList u ts]

/-- core.py 12-20 with `repr_config=None`: only the strings. -/
def plainList (u : Ucd) : List Tok → List Str
  | [] => []
  | t :: r => Tok.plain u t ++ plainList u r

/-- containers.py 134: `"".join(map(lambda t: str(t), self.subtokens))`; `str(t)` joins the strings with spaces
(containers.py 36). -/
def strList (u : Ucd) : List Tok → Str
  | [] => []
  | t :: r => pyJoin [' '] (Tok.plain u t) ++ strList u r
end

/-- `str(token)`. -/
def Tok.str (u : Ucd) (t : Tok) : Str := pyJoin [' '] (Tok.plain u t)

/-- containers.py 126-130 `_replace_non_ascii_seqs_if_necessary`, for the text `s` of the literal. -/
def replaceInString (rc : ReprConfig) (s : Str) : Except PyErr Str :=
  if Ty.nonEng ∈ rc.types then do
    let parts ← (pySplit '\u00a0' s).mapM fun t => replaceNonAsciiSeqs t Ph.nonAsciiSeq
    .ok (pyJoin Ph.spaceInStr parts)
  else .ok s

mutual
/-- core.py 23-33 `torepr(token, repr_config)` with a configuration. -/
def Tok.torepr (u : Ucd) (rc : ReprConfig) : Tok → Except PyErr (List Str × Meta)
  | .number v => numberRepr rc .number v
  | .one => numberRepr rc .one ['1']
  | .zero => numberRepr rc .zero ['0']
  | .newLine => .ok (whitespaceRepr rc .newLine ['\n'])
  | .tab => .ok (whitespaceRepr rc .tab ['\t'])
  | .spaceInString n =>
    if Ty.spaceInString ∈ rc.types then .error .attributeError
    else .ok (fullWord .spaceInString [(List.replicate n Ph.spaceInStr).flatten])
  | .keyWord s => nonProcRepr rc .keyWord s
  | .operator s => nonProcRepr rc .operator s
  | .semicolon => nonProcRepr rc .semicolon [';']
  | .openingCurly => nonProcRepr rc .openingCurly ['{']
  | .closingCurly => nonProcRepr rc .closingCurly ['}']
  | .openingBracket => nonProcRepr rc .openingBracket ['(']
  | .closingBracket => nonProcRepr rc .closingBracket [')']
  | .nonCodeChar s => nonProcRepr rc .nonCodeChar s
  | .specialToken s => nonProcRepr rc .specialToken s
  | .split subs => splitRepr u rc subs
  | .nonEng subs => nonEngRepr u rc subs
  | .oneLineComment ts =>                                   -- containers.py 96-108
    if Ty.oneLineComment ∈ rc.types then .ok (fullWord .oneLineComment [Ph.comment])
    else do
      let (toks, md) ← toreprFrom u rc false [] Meta.empty ts
      let md ← md.update ⟨[], [0, 1], [.oneLineComment]⟩
      .ok (toks ++ [Ph.olcEnd], md.setAllTypes .oneLineComment)
  | .multilineComment ts =>                                 -- containers.py 96-97, 115-118
    if Ty.multilineComment ∈ rc.types then .ok (fullWord .multilineComment [Ph.comment])
    else do
      let (toks, md) ← toreprFrom u rc false [] Meta.empty ts
      .ok (toks, md.setAllTypes .multilineComment)
  | .stringLiteral ts len =>                                -- containers.py 132-151
    if Ty.stringLiteral ∈ rc.types then .ok (fullWord .stringLiteral [Ph.stringLiteral])
    else match rc.maxStrLength with
      | none => .error .typeError                           -- `int > None`
      | some n =>
        if len > n then
          if rc.fullStrings then .ok (fullWord .stringLiteral [['"', '"']])
          else .ok (fullWord .stringLiteral [['"'], ['"']] [['"']])
        else if rc.bpe then do
          let s ← replaceInString rc (strList u ts)
          let ws ← rc.splitWord s
          .ok (fullWord .stringLiteral ws)
        else if rc.fullStrings then do
          let s ← replaceInString rc (strList u ts)
          .ok (fullWord .stringLiteral [s])
        else do
          let (toks, md) ← toreprFrom u rc true [] Meta.empty ts
          .ok (toks, md.setAllTypes .stringLiteral)

/-- core.py 14-20: the loop of `to_repr_list` with its two accumulators.  With `skipSpaces` the `SpaceInString` tokens
are left out (containers.py 146). -/
def toreprFrom (u : Ucd) (rc : ReprConfig) (skipSpaces : Bool) (acc : List Str) (md : Meta) :
    List Tok → Except PyErr (List Str × Meta)
  | [] => .ok (acc, md)
  | t :: r =>
    match skipSpaces, t with
    | true, .spaceInString _ => toreprFrom u rc skipSpaces acc md r
    | _, t => do
      let (x, m) ← Tok.torepr u rc t
      let md' ← md.update m
      toreprFrom u rc skipSpaces (acc ++ x) md' r
end

/-- core.py 12-20 `to_repr_list`. -/
def toReprList (u : Ucd) (rc : ReprConfig) (ts : List Tok) : Except PyErr (List Str × Meta) :=
  toreprFrom u rc false [] Meta.empty ts

end Verif
