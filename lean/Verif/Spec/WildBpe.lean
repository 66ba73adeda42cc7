import Verif.Model.WildBpe
import Verif.Spec.BpeLearn
/-!
# What `wild_bpe` should deliver
-/
namespace Verif.Spec
open Verif

/-- The pair `p` is to be merged next in the text `s`: it occurs, no pair occurs more often, and among the pairs that occur as
often it is the one that occurs first. -/
def IsBest (s : List Str) (p : Str × Str) : Prop :=
  Adjacent p s ∧ ∀ q, Adjacent q s → pairCount q s < pairCount p s ∨
    (pairCount q s = pairCount p s ∧
      (p = q ∨ ∃ pre post, s = pre ++ p.1 :: p.2 :: post ∧ ¬ Adjacent q (pre ++ [p.1])))

/-- `l` are the first `n` merges of the text `s` (fewer if the text has become a single token), each with the number of
replaced occurrences. -/
inductive Merges : Nat → List Str → List (Str × Int) → Prop
  | zero (s) : Merges 0 s []
  | done (n s) : s.length ≤ 1 → Merges n s []
  | step {n s a b l} : IsBest s (a, b) → Merges n (replaceAll (a, b) s) l →
      Merges (n + 1) s ((a ++ ' ' :: b, (s.length : Int) - (replaceAll (a, b) s).length) :: l)

/-- The characters of a text as tokens; spaces become no-break spaces. -/
def charTokens (t : Str) : List Str := t.map fun c => if c = ' ' then [Char.ofNat 0xA0] else [c]

/-- The text of a file: what it is in UTF-8, or, if it is not UTF-8, what it is in ISO-8859-1. -/
def textOf (f : Wild.File) : Str := if none ∈ f.blocks then f.latin else (f.blocks.map fun b => b.getD []).flatten

/-- The text of a directory: of every file whose name ends with `.py`, followed by three newlines. -/
def dirText : List (Str × Wild.File) → Str
  | [] => []
  | (name, f) :: r => if name.reverse.take 3 = ['y', 'p', '.'] then textOf f ++ ['\n', '\n', '\n'] ++ dirText r else dirText r

/-- A file that is not UTF-8 is found to be so before anything of it has been used: in its first block. -/
def EarlyFailure (f : Wild.File) : Prop := none ∈ f.blocks → f.blocks.head? = some none

/-- A set may be iterated over in any order. -/
def AnyOrder {ε : Type} (o : Wild.Order ε) : Prop := ∀ l, (o.iter l).Perm l

/-- A heap delivers one of the smallest entries and keeps the others. -/
def IsHeap (o : Wild.Order Wild.Entry) : Prop :=
  o.pop [] = none ∧ ∀ l, l ≠ [] → ∃ e r, o.pop l = some (e, r) ∧ (e :: r).Perm l ∧
    ∀ e' ∈ l, e.prio < e'.prio ∨ (e.prio = e'.prio ∧ e.count ≤ e'.count)

end Verif.Spec
