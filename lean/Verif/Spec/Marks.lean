import Verif.Model.PrepConfig
import Verif.Spec.Tokens
/-!
# Specification of end-of-token marks
-/
namespace Verif.Spec
open Verif

/-- `BpeText u noUnicode t s`: in BPE mode the text of the token `t`, to which BPE is applied as a whole, is `s`. -/
inductive BpeText (u : Ucd) (noUnicode : Bool) : Tok → Str → Prop where
  | number (v) : BpeText u noUnicode (.number v) v
  | identifier (subs) : BpeText u noUnicode (.split subs) (splitStr u subs)
  | nonEnglish (subs) : noUnicode = false → BpeText u noUnicode (.nonEng subs) (splitStr u subs)
  | replaced (subs token w) : noUnicode = true → replaceNonAsciiSeqs (splitStr u subs) Ph.nonAsciiSeq = .ok token →
      wordFrom u token = .ok w → BpeText u noUnicode (.nonEng subs) (w.str u)
  | literal (ts n) : noUnicode = false → BpeText u noUnicode (.stringLiteral ts n) (strList u ts)
  | literalReplaced (ts n parts) : noUnicode = true →
      (pySplit '\u00a0' (strList u ts)).mapM (fun t => replaceNonAsciiSeqs t Ph.nonAsciiSeq) = .ok parts →
      BpeText u noUnicode (.stringLiteral ts n) (pyJoin Ph.spaceInStr parts)

/-- The last string of a full token, and no other one, ends with the end-of-token mark. -/
def MarksAgree (l : List Str) (bounds : List Nat) : Prop :=
  ∀ i (h : i < l.length), (∃ p, l[i] = p ++ "</t>".toList) ↔ i + 1 ∈ bounds

/-- Everything cached is a split of the word it is cached for. -/
def CacheSplits (d : BpeData) : Prop :=
  ∀ w l, d.cache.get? (escape w true) = some l → ∃ r, unescape l = .ok r ∧ r.1.flatten = w

end Verif.Spec
