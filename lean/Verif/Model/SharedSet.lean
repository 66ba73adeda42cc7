import Verif.Model.SharedCounter
/-!
# Model of the setter of `AtomicInteger.value` (codeprep/util.py 115-120)

The setter makes a new queue and stores it in the object.  After a process has been started, it has its own copy of the object: the
copies share the lock and the queue, but storing another queue in one copy does not change the others.  Here methods are single
steps (`C62_linear` says that they can be seen as such), and a queue is its number of items.
-/
namespace Verif

/-- All queues that were ever made, and which one the copy of every process refers to. -/
structure CopiedCounter where
  queues : List Nat
  refs : List Nat
deriving DecidableEq, Repr

namespace CopiedCounter

/-- util.py 82-86: the counter is made, and `n` processes are started. -/
def start (v : Int) (n : Nat) : CopiedCounter := ⟨[v.toNat], List.replicate n 0⟩

/-- The number of items in the queue that a process knows; `none`: there is no such process. -/
def size (c : CopiedCounter) (k : Nat) : Option Nat := do
  let q ← c.refs[k]?
  c.queues[q]?

/-- util.py 115-120, called by process `k`: a new queue with `range(v)` items. -/
def setValue (c : CopiedCounter) (k : Nat) (v : Int) : CopiedCounter :=
  ⟨c.queues ++ [v.toNat], c.refs.set k c.queues.length⟩

/-- util.py 88-113, a method called by process `k`; `none`: it waits for an item (or there is no such process). -/
def call (c : CopiedCounter) (k : Nat) (op : CounterOp) : Option (CopiedCounter × CounterRes) := do
  let q ← c.refs[k]?
  let n ← c.queues[q]?
  match op with
  | .value => some (c, op.answer n)
  | .inc => some (⟨c.queues.set q (n + 1), c.refs⟩, op.answer (n + 1))
  | .dec =>
    match n with
    | 0 => none
    | m + 1 => some (⟨c.queues.set q m, c.refs⟩, op.answer m)
  | .compareAndDec _ | .getAndDec =>
    match n with
    | 0 => none
    | m + 1 => some (⟨c.queues.set q m, c.refs⟩, op.answer (m + 1))

end CopiedCounter
end Verif
