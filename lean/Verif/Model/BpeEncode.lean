import Verif.Model.Merge
/-!
# Model of `codeprep/bpepkg/bpe_encode.py`
-/
namespace Verif

/-- bpe_encode.py 26: `ESCAPE_CHAR`. -/
def escChar : Char := '@'

/-- `word.replace('@', '@@')` (bpe_encode.py 32). -/
def doubleEsc (w : Str) : Str := w.flatMap fun c => if c = escChar then [escChar, escChar] else [c]

/-- bpe_encode.py 31-36 `escape(word, merged)`. -/
def escape (w : Str) (merged : Bool) : Str :=
  if merged then doubleEsc w ++ [escChar] else doubleEsc w ++ [' ', escChar]

/-- `p.replace('@@', '@')`: non-overlapping occurrences from left to right (bpe_encode.py 44). -/
def undoubleEsc : Str → Str
  | [] => []
  | [c] => [c]
  | c :: d :: r =>
    if c = escChar ∧ d = escChar then escChar :: undoubleEsc r
    else c :: undoubleEsc (d :: r)

/-- bpe_encode.py 39-44 `unescape(parts)`.  Returns the result and the argument list as it is after the in-place
modification `parts[-1] = parts[-1][:-1]`. -/
def unescape (parts : List Str) : Except PyErr (List Str × List Str) :=
  match parts.getLast? with
  | none => .error .indexError                    -- parts[-1] on an empty list
  | some l =>
    match l.getLast? with
    | none => .error .indexError                  -- ''[-1]
    | some c =>
      if c ≠ escChar then .error .valueError
      else
        let parts' := parts.dropLast ++ [l.dropLast]
        .ok (parts'.map undoubleEsc, parts')

/-- bpe_encode.py 47-59 `to_char_list`. -/
def toCharList : Str → Except PyErr (List Str)
  | [] => .ok []
  | [c] => .ok [[c]]                              -- i + 1 == len(word)
  | c :: d :: r =>
    if c ≠ escChar then do
      let t ← toCharList (d :: r); .ok ([c] :: t)
    else if d = escChar then do
      let t ← toCharList r; .ok ([c, d] :: t)
    else .error .valueError

/-- `sys.maxsize` on a 64-bit platform. -/
def sysMaxsize : Nat := 9223372036854775807

/-- State of the scan over neighbouring subwords: `merge_indices`, `merge_candidate_priority`. -/
abbrev ScanState := List Nat × Nat

/-- bpe_encode.py 81-89: body of the scan loop for index `i` and candidate `(a, b)`. -/
def scanStep (m : MergeList) (i : Nat) (a b : Str) (st : ScanState) : ScanState :=
  match m.priority? (a, b) with
  | none => st
  | some p =>
    if p < st.2 then ([i], p)
    else if p = st.2 then
      (if st.1 = [] ∨ st.1.getLast?.map (· + 1) ≠ some i then (st.1 ++ [i], st.2) else st)
    else st

/-- bpe_encode.py 80: the loop `for i in range(len(subwords) - 1)`. -/
def scanFrom (m : MergeList) : Nat → List Str → ScanState → ScanState
  | i, a :: b :: r, st => scanFrom m (i + 1) (b :: r) (scanStep m i a b st)
  | _, _, st => st

/-- bpe_encode.py 94-103: rebuild the list of subwords; indexing errors are modelled. -/
def applyIndices (subs : List Str) : List Nat → Nat → List Str → Except PyErr (List Str)
  | [], start, acc => .ok (acc ++ subs.drop start)
  | mi :: r, start, acc =>
    match subs[mi]?, subs[mi + 1]? with
    | some a, some b =>
      applyIndices subs r (mi + 2) (acc ++ ((subs.drop start).take (mi - start)) ++ [a ++ b])
    | _, _ => .error .indexError

/-- bpe_encode.py 77-106: the `while True` loop.  Every round but the last shortens the list, so the number of
subwords is enough fuel (proved in `Proofs`). -/
def encodeLoop (m : MergeList) : Nat → List Str → Except PyErr (List Str)
  | fuel, subs =>
    let st := scanFrom m 0 subs ([], sysMaxsize)
    if st.1 = [] then .ok subs
    else match fuel with
      | 0 => .error .outOfFuel
      | fuel + 1 => do
        let subs' ← applyIndices subs st.1 0 []
        encodeLoop m fuel subs'

/-- bpe_encode.py 62-112 and 115-147: `encode({word: 0}, merges)` followed by `split(" ")`.
Going through the space-joined text is modelled literally; `encode` for any dictionary is in `EncodeDict.lean`, and
`C96_one` proves that this is the call with one word. -/
def encodeWord (word : Str) (m : MergeList) : Except PyErr (List Str) := do
  let cl ← toCharList word
  let subs := pySplit ' ' (pyJoin [' '] cl)
  let res ← encodeLoop m subs.length subs
  .ok (pySplit ' ' (pyJoin [' '] res))

/-- The merges cache: word → list of subwords. -/
abbrev BpeCache := Dict Str (List Str)

/-- bpe_encode.py 20-23 `BpeData`. -/
structure BpeData where
  cache : BpeCache
  merges : MergeList

/-- bpe_encode.py 150-159 `get_bpe_subwords`, with the state of the cache after the call: the list that
`unescape` modifies in place is the one stored in the cache when the word was found there. -/
def getBpeSubwordsSt (word : Str) (d : BpeData) : Except PyErr (List Str × BpeData) :=
  let w := escape word true
  match d.cache.get? w with
  | some result => do
    let (res, modified) ← unescape result
    .ok (res, { d with cache := d.cache.set w modified })
  | none => do
    let result ← encodeWord w d.merges
    let (res, _) ← unescape result
    .ok (res, d)

/-- `get_bpe_subwords` without its side effect. -/
def getBpeSubwords (word : Str) (d : BpeData) : Except PyErr (List Str) :=
  (getBpeSubwordsSt word d).map (·.1)

end Verif
