import Verif.Model.Merge
/-!
# Model of `PriorityCounter` (`codeprep/util.py` 123-159), with automatic counting

The heap `pq` is modelled by the list of its entries; `heapq.heappop` returns a smallest entry and removes it
(trusted library behaviour).  An entry is a Python list `[(priority, count), key]` that is shared between `pq`
and `entry_finder`; overwriting its last component with `REMOVED` is visible in both, which is modelled by
marking the entry with the same `count` in `pq` (counts are unique).
-/
namespace Verif

/-- One heap entry `[(prio, count), key]`; `key = none` models the `REMOVED` mark. -/
structure PQEntry (α : Type) where
  prio : Int
  count : Nat
  key : Option α
deriving DecidableEq, Repr

/-- Order of heap entries: tuples `(prio, count)` are compared lexicographically (counts are unique, so the keys are
never compared). -/
def PQEntry.before {α : Type} (a b : PQEntry α) : Bool :=
  a.prio < b.prio || (a.prio = b.prio && a.count ≤ b.count)

/-- `heapq.heappop`: remove and return a smallest entry. -/
def heapPop {α : Type} : List (PQEntry α) → Option (PQEntry α × List (PQEntry α))
  | [] => none
  | e :: r =>
    match heapPop r with
    | none => some (e, r)
    | some (e', r') => if e.before e' then some (e, r) else some (e', e :: r')

/-- util.py 126-130: the state of a `PriorityCounter`. -/
structure PriorityCounter (α : Type) where
  next : Nat
  pq : List (PQEntry α)
  finder : Dict α (Int × Nat)

namespace PriorityCounter
variable {α : Type} [DecidableEq α]

/-- The entries created by `__init__` (util.py 128) for the items of `d`, numbered from `n`. -/
def initEntries : Nat → List (α × Int) → List (PQEntry α)
  | _, [] => []
  | n, (k, v) :: r => ⟨-v, n, some k⟩ :: initEntries (n + 1) r

/-- util.py 126-130 `__init__` with `automatic_count=True`. -/
def init (d : Dict α Int) : PriorityCounter α :=
  let pq := initEntries 0 d
  { next := d.length
    pq := pq
    finder := pq.filterMap fun e => e.key.map fun k => (k, (e.prio, e.count)) }

/-- util.py 147-150 `remove_task`; `none` models the `KeyError`. -/
def removeTask (c : PriorityCounter α) (k : α) : Option (PriorityCounter α) :=
  match c.finder.get? k with
  | none => none
  | some (_, cnt) =>
    some { c with
      finder := c.finder.del k
      pq := c.pq.map fun e => if e.count = cnt then { e with key := none } else e }

/-- util.py 132-145 `add(pair, to_add)` with automatic counting (the `ValueError` of line 134 cannot occur:
the counter is set and no count is passed). -/
def add (c : PriorityCounter α) (k : α) (toAdd : Int) : Option (PriorityCounter α) :=
  let count := c.next
  let c := { c with next := c.next + 1 }
  let toAdd := -toAdd
  match c.finder.get? k with
  | some (pr, _) =>
    match c.removeTask k with
    | none => none
    | some c' =>
      let toAdd := pr + toAdd
      if toAdd ≠ 0 then
        some { c' with finder := c'.finder.set k (toAdd, count), pq := ⟨toAdd, count, some k⟩ :: c'.pq }
      else some c'
  | none =>
    if toAdd ≠ 0 then
      some { c with finder := c.finder.set k (toAdd, count), pq := ⟨toAdd, count, some k⟩ :: c.pq }
    else some c

/-- util.py 152-159 `pop_pair`; `none` models the `KeyError` raised when the queue is empty.
The fuel is the number of heap entries. -/
def popLoop : Nat → PriorityCounter α → Option (α × Int × PriorityCounter α)
  | 0, _ => none
  | n + 1, c =>
    match heapPop c.pq with
    | none => none
    | some (e, r) =>
      match e.key with
      | some k => some (k, -e.prio, { c with pq := r, finder := c.finder.del k })
      | none => popLoop n { c with pq := r }

/-- util.py 152-159 `pop_pair`. -/
def popPair (c : PriorityCounter α) : Option (α × Int × PriorityCounter α) := popLoop c.pq.length c

end PriorityCounter
end Verif
