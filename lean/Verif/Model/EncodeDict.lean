import Verif.Model.BpeEncode
/-!
# Model of `encode` for a whole dictionary of words (codeprep/bpepkg/bpe_encode.py)

`BpeEncode.lean` models `encode_word`, the call of `encode` with one word; here `encode` is modelled for
any dictionary, with both of its intermediate dictionaries.
-/
namespace Verif

/-- bpe_encode.py 63: the dictionary comprehension `{" ".join(to_char_list(k)): v for k, v in words.items()}`;
the second argument is the dictionary built so far. -/
def lettersDict : Dict Str Int → Dict Str Int → Except PyErr (Dict Str Int)
  | [], acc => .ok acc
  | (k, v) :: r, acc => do
    let cl ← toCharList k
    lettersDict r (acc.set (pyJoin [' '] cl) v)

/-- bpe_encode.py 66-111: the loop over `letters_list.items()`; the second argument is `new_letters_list`.
The warning and the progress bar for long words (69-76, 104-109) have no effect on the result and are left out. -/
def encodeItems (m : MergeList) : Dict Str Int → Dict Str Int → Except PyErr (Dict Str Int)
  | [], acc => .ok acc
  | (letters, freq) :: r, acc => do
    let subs := pySplit ' ' letters
    let res ← encodeLoop m subs.length subs
    encodeItems m r (acc.set (pyJoin [' '] res) freq)

/-- bpe_encode.py 62-112 `encode(words, merges)`. -/
def encodeDict (words : Dict Str Int) (m : MergeList) : Except PyErr (Dict Str Int) := do
  let letters ← lettersDict words []
  encodeItems m letters []

/-- bpe_encode.py 115-147 `encode_word`, literally: `encode({word: 0}, merges).popitem()` and `split(" ")`;
`popitem` takes the last entry and raises `KeyError` if there is none. -/
def encodeWordByDict (word : Str) (m : MergeList) : Except PyErr (List Str) := do
  let d ← encodeDict [(word, 0)] m
  match d.getLast? with
  | none => .error .keyError
  | some (encWord, _) => .ok (pySplit ' ' encWord)

end Verif
