import Verif.Model.Registry
/-!
# What the registry of learnt merges promises
-/
namespace Verif.Spec

/-- A directory has `k` learnt merges: one of its subdirectories is the number `k`. -/
def Learnt (d : BpeDir) (k : Int) : Prop := ∃ s ∈ d.subdirs, pyInt s = .ok k

/-- An identifier that the file it is stored in gives back: not empty, no white space at its ends, no carriage return. -/
def Storable (u : Ucd) (s : Str) : Prop :=
  s ≠ [] ∧ '\r' ∉ s ∧ (∀ c ∈ s.head?, u.space c = false) ∧ ∀ c ∈ s.getLast?, u.space c = false

/-- A string in which the characters with a meaning in patterns do not occur, except the dot. -/
def NoSpecial (s : Str) : Prop := ∀ c ∈ s, c ∉ "\\^$*+?{}[]|()".toList

/-- What a single character of a pattern stands for: a dot stands for anything but a new line, other characters for themselves. -/
def Fits (c d : Char) : Prop := if c = '.' then d ≠ '\n' else d = c

/-- `Reads p s`: the string `s` is described by `p` read as a pattern in which only the dot and the three quantifiers `+`, `*`
and `?` have a meaning. -/
inductive Reads : Str → Str → Prop
  | nil : Reads [] []
  | one {c d : Char} {p s : Str} (hc : c ∉ "\\^$*+?{}[]|()".toList) (h : Fits c d) (hr : Reads p s) : Reads (c :: p) (d :: s)
  | plus {c : Char} {ds p s : Str} (hc : c ∉ "\\^$*+?{}[]|()".toList) (hd : ds ≠ []) (h : ∀ d ∈ ds, Fits c d) (hr : Reads p s) :
      Reads (c :: '+' :: p) (ds ++ s)
  | star {c : Char} {ds p s : Str} (hc : c ∉ "\\^$*+?{}[]|()".toList) (h : ∀ d ∈ ds, Fits c d) (hr : Reads p s) :
      Reads (c :: '*' :: p) (ds ++ s)
  | opt {c : Char} {ds p s : Str} (hc : c ∉ "\\^$*+?{}[]|()".toList) (hd : ds.length ≤ 1) (h : ∀ d ∈ ds, Fits c d) (hr : Reads p s) :
      Reads (c :: '?' :: p) (ds ++ s)

/-- Decimal digits that stand for a number, maybe with zeros in front of it. -/
def Numeral (ds : Str) (n : Nat) : Prop := ∃ k, ds = List.replicate k '0' ++ natStr n

/-- An identifier can be made for a dataset: the user has given one that is not in use, or the name of the dataset gives one. -/
inductive CanName (u : Ucd) (reg : Registry) (path : Str) (b : BpeConfig) : Option Str → Prop
  | given {id : Str} (hs : Storable u id) (hf : ∀ d ∈ reg, d.codesId u ≠ some id) : CanName u reg path b (some id)
  | made (hs : Storable u (idBase path b)) (hn : NoSpecial (idBase path b)) : CanName u reg path b none

/-- The registry after learning merges for datasets one after another, without crashes, and with identifiers chosen by the user only if
they are not in use.  `d` is the name of the directory of the dataset.  The first run for a dataset finds at least one merge.  The
order in which the directories are listed does not matter. -/
inductive LearnHistory (u : Ucd) : Registry → Prop
  | nil : LearnHistory u []
  | learn {reg reg' : Registry} (h : LearnHistory u reg) (path : Str) (b : BpeConfig) (given : Option Str) (d : Str) (n : Nat)
      (hn : d ∉ reg.map (·.name) → 1 ≤ n ∧ n ≤ sysMaxsize ∧ CanName u reg path b given)
      (hreg : prepareLearning u reg path b given d = .ok reg') : LearnHistory u (saveMerges reg' d n)
  | reorder {reg reg' : Registry} (h : LearnHistory u reg) (hp : reg'.Perm reg) : LearnHistory u reg'

/-- A string does not occur in another one. -/
def Absent (t s : Str) : Prop := ¬ ∃ p q, s = p ++ t ++ q

/-- A configuration that can be made. -/
def IsBpeConfig (b : BpeConfig) : Prop := ∃ c w ba un, BpeConfig.make c w ba un = .ok b

end Verif.Spec
