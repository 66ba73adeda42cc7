import Verif.Base.Str
/-!
# Model of `codeprep/bpepkg/merge.py` (in-memory part)
-/
namespace Verif

/-- merge.py 13-17: `Merge(pair, freq, priority)`. -/
structure Merge where
  pair : Str × Str
  freq : Option Int
  priority : Option Nat
deriving DecidableEq, Repr

/-- Exceptions that occur in the modelled code. -/
inductive PyErr where
  | valueError
  | indexError
  | keyError
  | typeError
  | assertionError
  | attributeError
  | stopIteration
  | fileNotFound
  | zeroDivision
  | eofError
  | unpicklingError
  | syntaxError
  | invalidBpeCodesId   -- bperegistry.py 32-33 `InvalidBpeCodesIdError`
  | regexError          -- `regex.error`
  | systemExit
  | osError
  | runtimeError
  | nameError
  | notSupported        -- bpe_config.py 11-12 `BpeConfigNotSupported`
  | outOfFuel          -- not a Python exception: a loop of the model ran out of fuel
deriving DecidableEq, Repr

/-- merge.py 102-103: `MergeList` holds a dict from pairs to merges.
In the dict the priority is always set (`append` sets it), so values are (freq, priority). -/
abbrev MergeList := Dict (Str × Str) (Option Int × Nat)

namespace MergeList

/-- merge.py 105-106 `__contains__`. -/
def contains (m : MergeList) (p : Str × Str) : Bool := m.has p

/-- merge.py 145-146 `get_priority`; `none` models the `KeyError`. -/
def priority? (m : MergeList) (p : Str × Str) : Option Nat := (m.get? p).map (·.2)

/-- merge.py 134-143 `append`. -/
def append (m : MergeList) (mg : Merge) : Except PyErr MergeList :=
  match mg.priority with
  | none => .ok (m.set mg.pair (mg.freq, m.length))
  | some pr =>
    if pr ≠ m.length then .error .valueError
    else .ok (m.set mg.pair (mg.freq, pr))

/-- merge.py 111-119 `__iter__` / `_get_sorted_merges`: dict values in insertion order. -/
def toMerges (m : MergeList) : List Merge := m.map fun e => ⟨e.1, e.2.1, some e.2.2⟩

/-- Appending all merges of a list in order. -/
def appendAll (m : MergeList) : List Merge → Except PyErr MergeList
  | [] => .ok m
  | mg :: r => do let m' ← m.append mg; appendAll m' r

/-- merge.py 121-132 `__add__` for two `MergeList`s (the deep copies are irrelevant for immutable values):
every merge of `other` is appended with its priority shifted by the length of `self`. -/
def add (m other : MergeList) : Except PyErr MergeList :=
  m.appendAll (other.toMerges.map fun mg => { mg with priority := mg.priority.map (· + m.length) })

end MergeList
end Verif
