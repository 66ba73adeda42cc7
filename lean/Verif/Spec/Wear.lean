import Verif.Model.Wear
import Verif.Spec.Reference
import Verif.Spec.BpeState
/-!
# Specification of calls with a cache of splits
-/
namespace Verif.Spec
open Verif

/-- The word is in the cache, in its escaped form. -/
def InCache (s : BpeState) (w : Str) : Prop := ∃ c l, s.cache = some c ∧ c.get? (escape w true) = some l

/-- Some word that is in the cache is needed twice. -/
def Repeats (s : BpeState) (words : List Str) : Prop := ∃ w, InCache s w ∧ 2 ≤ words.count w

/-- What is in the cache for a word is a split of the word, and the word does not end with the escape character. -/
def SoundFor (s : BpeState) (w : Str) : Prop :=
  (∀ c l, s.cache = some c → c.get? (escape w true) = some l → ∃ r, unescape l = .ok r ∧ r.1.flatten = w) ∧ w.getLast? ≠ some '@'

/-- A text in which runs of characters outside of ASCII are replaced. -/
def replaced (s : Str) : List Str :=
  match replaceNonAsciiSeqs s Ph.nonAsciiSeq with
  | .ok t => [t]
  | .error _ => []

mutual
/-- The words of a token that are split by byte-pair encoding: numbers (except for `0` and `1`), names, and whole string literals.  The flags say
whether strings and comments are replaced by placeholders and characters outside of ASCII are removed; literals longer than `max` are left out. -/
def asks (u : Ucd) (noStr noCom noUnicode : Bool) (max : Nat) : Tok → List Str
  | .number v => [v]
  | .split subs => [concat (subs.map (Subtok.str u))]
  | .nonEng subs =>
    if noUnicode then
      (replaced (concat (subs.map (Subtok.str u)))).flatMap fun t =>
        match wordFrom u t with
        | .ok w => [w.str u]
        | .error _ => []
    else [concat (subs.map (Subtok.str u))]
  | .oneLineComment ts => if noCom then [] else asksAll u noStr noCom noUnicode max ts
  | .multilineComment ts => if noCom then [] else asksAll u noStr noCom noUnicode max ts
  | .stringLiteral ts len =>
    if noStr || decide (max < len) then []
    else if noUnicode then [pyJoin Ph.spaceInStr ((pySplit '\u00a0' (strList u ts)).flatMap replaced)]
    else [strList u ts]
  | _ => []

/-- The words of tokens, in their order. -/
def asksAll (u : Ucd) (noStr noCom noUnicode : Bool) (max : Nat) : List Tok → List Str
  | [] => []
  | t :: r => asks u noStr noCom noUnicode max t ++ asksAll u noStr noCom noUnicode max r
end

/-- The words that a call with these options splits by byte-pair encoding. -/
def needed (u : Ucd) (o : CommonOpts) (ts : List Tok) : List Str := asksAll u o.noStr o.noCom o.noUnicode (limitOf o.maxStrLength) ts

/-- The data with the codes. -/
def fresh (d : BpeData) : BpeState := ⟨some d.cache, some d.merges⟩

/-- The call fails because of the cache. -/
def CacheError {α : Type} (x : Except PyErr α) : Prop := x = .error .valueError ∨ x = .error .indexError

/-- A call of `bpe` or `chars`. -/
def IsBpe : ApiCall → Prop
  | .bpe _ _ => True
  | .chars _ => True
  | _ => False

end Verif.Spec
