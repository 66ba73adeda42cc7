import Verif.Model.Unicode
import Verif.Model.Merge
/-!
# Model of `codeprep/noneng.py` and `codeprep/preprocess/placeholders.py`
-/
namespace Verif

namespace Ph
/-- placeholders.py 6. -/
def comment : Str := "<comment>".toList
/-- placeholders.py 7. -/
def stringLiteral : Str := "<str-literal>".toList
/-- placeholders.py 8. -/
def wordStart : Str := "<w>".toList
/-- placeholders.py 9. -/
def wordEnd : Str := "</w>".toList
/-- placeholders.py 10. -/
def capital : Str := "<Cap>".toList
/-- placeholders.py 11. -/
def capitals : Str := "<CAPS>".toList
/-- placeholders.py 12. -/
def ect : Str := "<EOF>".toList
/-- placeholders.py 13. -/
def nonEng : Str := "<non-en>".toList
/-- placeholders.py 14. -/
def nonAsciiSeq : Str := ['\u00f7']
/-- placeholders.py 15. -/
def nonEngContent : Str := "<non-en-content>".toList
/-- placeholders.py 16. -/
def olcEnd : Str := "<EOL>".toList
/-- placeholders.py 17. -/
def compoundWordEnd : Str := "</t>".toList
/-- placeholders.py 18. -/
def spaceInStr : Str := ['\u00a0']

/-- `placeholders.values()`. -/
def all : List Str := [comment, stringLiteral, wordStart, wordEnd, capital, capitals, ect, nonEng, nonAsciiSeq,
  nonEngContent, olcEnd, compoundWordEnd, spaceInStr]
end Ph

/-- noneng.py 10-19 `is_non_eng`. -/
def isNonEng (w : Str) : Bool := !w.all isAscii

/-- noneng.py 47-60: the loop of `replace_non_ascii_seqs` with its two variables `ongoing_non_ascii_seq` and
`new_word`. -/
def replaceLoop (ph : Str) : Bool → Str → Str → Str
  | ongoing, acc, [] => if ongoing then acc ++ ph else acc
  | ongoing, acc, c :: r =>
    if c.toNat < 128 then
      replaceLoop ph false ((if ongoing then acc ++ ph else acc) ++ [c]) r
    else replaceLoop ph true acc r

/-- noneng.py 22-60 `replace_non_ascii_seqs`. -/
def replaceNonAsciiSeqs (w ph : Str) : Except PyErr Str :=
  if ph.length ≠ 1 then .error .valueError else .ok (replaceLoop ph false [] w)

end Verif
