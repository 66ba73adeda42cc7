import Verif.Model.MetaObj
import Verif.Model.Files
/-!
# Lists of merges as objects

Model of `Merge` and `MergeList` (merge.py 13-17, 101-156) with object identity: a list of merges is a dictionary of references
to `Merge` objects, `append` changes the list and the merge in place, and one merge may be in several lists.  The value model
is `MergeList` (Model/Merge).
-/
namespace Verif.MObj
open Verif Obj

/-- The `Merge` and `MergeList` objects of a Python program.  Addresses from `nextMerge` and from `nextList` on are not in
use. -/
structure Heap where
  merges : Nat → Merge
  lists : Nat → Dict (Str × Str) Nat
  nextMerge : Nat
  nextList : Nat

/-- merge.py 14-17 `Merge.__init__`. -/
def Heap.newMerge (h : Heap) (mg : Merge) : Nat × Heap :=
  (h.nextMerge, { h with merges := assign h.merges h.nextMerge mg, nextMerge := h.nextMerge + 1 })

/-- A new object with this dictionary. -/
def Heap.newListOf (h : Heap) (d : Dict (Str × Str) Nat) : Nat × Heap :=
  (h.nextList, { h with lists := assign h.lists h.nextList d, nextList := h.nextList + 1 })

/-- merge.py 102-103 `MergeList.__init__`. -/
def Heap.newList (h : Heap) : Nat × Heap := h.newListOf []

/-- merge.py 142: `self.merges[merge.pair] = merge`. -/
def Heap.put (h : Heap) (l m : Nat) : Heap :=
  { h with lists := assign h.lists l ((h.lists l).set (h.merges m).pair m) }

/-- merge.py 137, 129: assignment to `merge.priority`. -/
def Heap.setPriority (h : Heap) (m : Nat) (p : Nat) : Heap :=
  { h with merges := assign h.merges m { h.merges m with priority := some p } }

/-- merge.py 134-143 `append`. -/
def Heap.append (h : Heap) (l m : Nat) : Except PyErr Unit × Heap :=
  match (h.merges m).priority with
  | none => (.ok (), (h.setPriority m (h.lists l).length).put l m)
  | some p => if p ≠ (h.lists l).length then (.error .valueError, h) else (.ok (), h.put l m)

/-- merge.py 125-126: `copy.deepcopy` of the dictionary of a list.  `memo` has the merges that were copied already, each one is
copied once. -/
def copyEntries : Heap → (memo : List (Nat × Nat)) → Dict (Str × Str) Nat → Dict (Str × Str) Nat × Heap
  | h, _, [] => ([], h)
  | h, memo, e :: es =>
    match memo.lookup e.2 with
    | some r =>
      let (d, h) := copyEntries h memo es
      ((e.1, r) :: d, h)
    | none =>
      let (r, h') := h.newMerge (h.merges e.2)
      let (d, h) := copyEntries h' ((e.2, r) :: memo) es
      ((e.1, r) :: d, h)

/-- merge.py 125-126: `copy.deepcopy` of a list of merges. -/
def Heap.deepCopy (h : Heap) (l : Nat) : Nat × Heap :=
  let (d, h) := copyEntries h [] (h.lists l)
  h.newListOf d

/-- merge.py 128-130: the loop of `__add__` over the merges of the copy; `None + n` raises `TypeError`. -/
def Heap.addLoop (h : Heap) (dst n : Nat) : List Nat → Except PyErr Unit × Heap
  | [] => (.ok (), h)
  | r :: rs =>
    match (h.merges r).priority with
    | none => (.error .typeError, h)
    | some p =>
      match (h.setPriority r (p + n)).append dst r with
      | (.error e, h) => (.error e, h)
      | (.ok _, h) => h.addLoop dst n rs

/-- merge.py 121-132 `__add__` of two lists of merges (for anything else a `TypeError` is raised).  The copy of the second
list is seen by nobody else, only its dictionary is modelled. -/
def Heap.add (h : Heap) (a b : Nat) : Except PyErr Nat × Heap :=
  let (c, h) := h.deepCopy a
  let (d, h) := copyEntries h [] (h.lists b)
  match h.addLoop c (h.lists c).length (d.map (·.2)) with
  | (.error e, h) => (.error e, h)
  | (.ok _, h) => (.ok c, h)

end Verif.MObj
