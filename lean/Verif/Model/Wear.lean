import Verif.Model.BpeState
/-!
# Model of whole calls with a cache of splits (`codeprep/bpepkg/bpe_encode.py`, `codeprep/preprocess/core.py`, `tokens/*.py`)

`get_bpe_subwords` changes the entry of the cache that it finds (bpe_encode.py 43).  In `Verif.Model.Tokens` the splitters of a
configuration are functions of the word.  Here they have a state, which is passed on from one lookup to the next one, through all tokens
of a text, all texts of a process and also if an exception is raised.

The functions are those of `Verif.Model.Tokens`, with the same citations, for the configurations with byte-pair encoding: both
splitters are the function `look` (prepconfig.py 137-164).
-/
namespace Verif.Wear
open Verif

/-- Python code that uses a mutable object `σ`: what was done to the object before an exception remains. -/
def Comp (σ α : Type) : Type := σ → Except PyErr α × σ

/-- Sequence: after an exception nothing more is done. -/
def Comp.bind {σ α β : Type} (m : Comp σ α) (k : α → Comp σ β) : Comp σ β := fun s =>
  match m s with
  | (.ok a, s') => k a s'
  | (.error e, s') => (.error e, s')

instance {σ : Type} : Monad (Comp σ) where
  pure a := fun s => (.ok a, s)
  bind := Comp.bind

/-- Code that does not use the object. -/
def lift {σ α : Type} (x : Except PyErr α) : Comp σ α := fun s => (x, s)

/-- bpe_encode.py 150-159 `get_bpe_subwords` with its effect on the global data: the entry of the word is replaced by what `unescape` made
of it; nothing is changed if `unescape` raises. -/
def lookUp (word : Str) : Comp BpeState (List Str) := fun s =>
  match s.cache with
  | none => (.error .typeError, s)
  | some cache =>
    match cache.get? (escape word true) with
    | some entry =>
      match unescape entry with
      | .ok (res, modified) => (.ok res, { s with cache := some (cache.set (escape word true) modified) })
      | .error e => (.error e, s)
    | none =>
      match s.merges with
      | some m => ((do let r ← encodeWord (escape word true) m; let x ← unescape r; .ok x.1), s)
      | none => ((do let r ← encodeNoMerges (escape word true); let x ← unescape r; .ok x.1), s)

variable {σ : Type} (look : Str → Comp σ (List Str))

/-- core.py 23-33 for a subtoken; word.py 76-83. -/
def subRepr (u : Ucd) (rc : ReprConfig) : Subtok → Comp σ (List Str)
  | .underscore => if Ty.underscore ∈ rc.types then lift (.error .attributeError) else pure [['_']]
  | .word c cap =>
    if Ty.word ∈ rc.types then
      if rc.lowercase then do
        let subwords ← look c
        pure (withCapPrefixes cap subwords)
      else look (withPreservedCase u c cap)
    else pure [withPreservedCase u c cap]

/-- containers.py 64-68: the loop over the subtokens. -/
def subtoksRepr (u : Ucd) (rc : ReprConfig) : List Str → List Subtok → Comp σ (List Str)
  | acc, [] => pure acc
  | acc, s :: r => do
    let x ← subRepr look u rc s
    subtoksRepr u rc (acc ++ x) r

/-- containers.py 57. -/
def subtoksJoin (u : Ucd) (rc : ReprConfig) : List Subtok → Comp σ Str
  | [] => pure []
  | s :: r => do
    let x ← subRepr look u rc s
    match x with
    | [] => lift (.error .indexError)
    | h :: _ => do
      let t ← subtoksJoin u rc r
      pure (h ++ t)

/-- core.py 23-33 for a `SplitContainer`; containers.py 56-69. -/
def splitRepr (u : Ucd) (rc : ReprConfig) (subs : List Subtok) : Comp σ (List Str × Meta) :=
  if Ty.splitContainer ∈ rc.types then
    if rc.bpe then do
      let ws ← look (splitStr u subs)
      pure (fullWord .splitContainer ws)
    else do
      let res ← subtoksRepr look u rc [] subs
      pure (fullWord .splitContainer (wrapInWordBoundaries res))
  else do
    let s ← subtoksJoin look u rc subs
    pure (fullWord .splitContainer [s])

/-- core.py 23-33 for a `NonEng`; noneng.py (tokens) 22-30; containers.py 71-73. -/
def nonEngRepr (u : Ucd) (rc : ReprConfig) (subs : List Subtok) : Comp σ (List Str × Meta) :=
  if Ty.nonEng ∈ rc.types then
    if rc.bpe then do
      let token ← lift (replaceNonAsciiSeqs (splitStr u subs) Ph.nonAsciiSeq)
      let w ← lift (wordFrom u token)
      splitRepr look u rc [w]
    else pure (fullWord .nonEng [Ph.nonEng])
  else splitRepr look u rc subs

/-- core.py 23-33 for numbers; numeric.py 23-34. -/
def numberRepr (rc : ReprConfig) (ty : Ty) (val : Str) : Comp σ (List Str × Meta) :=
  if ty ∈ rc.types then do
    let subwords ← look val
    pure (fullWord ty (if subwords.length > 1 && !rc.bpe then [Ph.wordStart] ++ subwords ++ [Ph.wordEnd] else subwords))
  else pure (fullWord ty [val])

mutual
/-- core.py 23-33 `torepr(token, repr_config)`; containers.py 96-151. -/
def torepr (u : Ucd) (rc : ReprConfig) : Tok → Comp σ (List Str × Meta)
  | .number v => numberRepr look rc .number v
  | .one => numberRepr look rc .one ['1']
  | .zero => numberRepr look rc .zero ['0']
  | .newLine => pure (whitespaceRepr rc .newLine ['\n'])
  | .tab => pure (whitespaceRepr rc .tab ['\t'])
  | .spaceInString n =>
    if Ty.spaceInString ∈ rc.types then lift (.error .attributeError)
    else pure (fullWord .spaceInString [(List.replicate n Ph.spaceInStr).flatten])
  | .keyWord s => lift (nonProcRepr rc .keyWord s)
  | .operator s => lift (nonProcRepr rc .operator s)
  | .semicolon => lift (nonProcRepr rc .semicolon [';'])
  | .openingCurly => lift (nonProcRepr rc .openingCurly ['{'])
  | .closingCurly => lift (nonProcRepr rc .closingCurly ['}'])
  | .openingBracket => lift (nonProcRepr rc .openingBracket ['('])
  | .closingBracket => lift (nonProcRepr rc .closingBracket [')'])
  | .nonCodeChar s => lift (nonProcRepr rc .nonCodeChar s)
  | .specialToken s => lift (nonProcRepr rc .specialToken s)
  | .split subs => splitRepr look u rc subs
  | .nonEng subs => nonEngRepr look u rc subs
  | .oneLineComment ts =>
    if Ty.oneLineComment ∈ rc.types then pure (fullWord .oneLineComment [Ph.comment])
    else do
      let (toks, md) ← toreprFrom u rc false [] Meta.empty ts
      let md ← lift (md.update ⟨[], [0, 1], [.oneLineComment]⟩)
      pure (toks ++ [Ph.olcEnd], md.setAllTypes .oneLineComment)
  | .multilineComment ts =>
    if Ty.multilineComment ∈ rc.types then pure (fullWord .multilineComment [Ph.comment])
    else do
      let (toks, md) ← toreprFrom u rc false [] Meta.empty ts
      pure (toks, md.setAllTypes .multilineComment)
  | .stringLiteral ts len =>
    if Ty.stringLiteral ∈ rc.types then pure (fullWord .stringLiteral [Ph.stringLiteral])
    else match rc.maxStrLength with
      | none => lift (.error .typeError)
      | some n =>
        if len > n then
          if rc.fullStrings then pure (fullWord .stringLiteral [['"', '"']])
          else pure (fullWord .stringLiteral [['"'], ['"']] [['"']])
        else if rc.bpe then do
          let s ← lift (replaceInString rc (strList u ts))
          let ws ← look s
          pure (fullWord .stringLiteral ws)
        else if rc.fullStrings then do
          let s ← lift (replaceInString rc (strList u ts))
          pure (fullWord .stringLiteral [s])
        else do
          let (toks, md) ← toreprFrom u rc true [] Meta.empty ts
          pure (toks, md.setAllTypes .stringLiteral)

/-- core.py 14-20: the loop of `to_repr_list`. -/
def toreprFrom (u : Ucd) (rc : ReprConfig) (skipSpaces : Bool) (acc : List Str) (md : Meta) : List Tok → Comp σ (List Str × Meta)
  | [] => pure (acc, md)
  | t :: r =>
    match skipSpaces, t with
    | true, .spaceInString _ => toreprFrom u rc skipSpaces acc md r
    | _, t => do
      let (x, m) ← torepr u rc t
      let md' ← lift (md.update m)
      toreprFrom u rc skipSpaces (acc ++ x) md' r
end

/-- to_repr.py 47-53 `to_repr` for a configuration with byte-pair encoding. -/
def toReprBpe (u : Ucd) (rc : ReprConfig) (ts : List Tok) : Comp σ (List Str × Meta) := do
  let (l, md) ← toreprFrom look u rc false [] Meta.empty ts
  let l' ← lift (insertWordEnds l (md.bounds.drop 1))
  pure (l', md)

/-- to_repr.py 47-53 `to_repr`, with the global data before and after it (`none`: the variable is not set). -/
def toReprIn (env : Env) (c : PrepConfig) (ts : List Tok) : Comp (Option BpeState) (List Str × Meta) := fun g =>
  match g with
  | some s =>
    if c.isBpe then
      match c.reprConfigSt env (some s) with
      | .error e => (.error e, some s)
      | .ok rc => let r := toReprBpe lookUp env.ucd rc ts s; (r.1, some r.2)
    else (toReprSt env c ts (some s), some s)
  | none => (toReprSt env c ts none, none)

/-- text.py 25-40 `preprocess`, with the global data before and after the call. -/
def preprocess (env : Env) (d : BpeDisk) (c : PrepConfig) (id : Option Str) (t : TextCall) : Comp (Option BpeState) (List Str × Meta) := do
  let parsed ← lift (convertText env.ucd t.lexed)
  let ts := finishParsed parsed t.appendEof
  if c.isBpe then do
    (fun g => loadForText env.ucd d c id t.forced g : Comp (Option BpeState) Unit)
    toReprIn env c ts
  else toReprIn env c ts

/-- text.py 43-455: a call of the API, with the global data before and after it. -/
def textApi (env : Env) (d : BpeDisk) (t : TextCall) : Comp (Option BpeState) (List Str × Meta) := do
  let c ← lift (textConfig t.api)
  preprocess env d c (apiBpeCodesId t.api) t

/-- to_repr.py 60-81, 139-140, 163-170: the files that one worker process gets, one after the other; the worker has its own copy of the global data.  Reading
and writing are in `Verif.Model.Workers`.  An exception in one file ends the whole run. -/
def worker (env : Env) (c : PrepConfig) : List (List Tok) → Comp (Option BpeState) (List (List Str × Meta))
  | [] => pure []
  | ts :: r => do
    let x ← toReprIn env c ts
    let xs ← worker env c r
    pure (x :: xs)

end Verif.Wear
