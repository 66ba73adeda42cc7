import Verif.Model.Vocab
/-!
# Model of the counters of `codeprep/util.py`

`NonAtomicCounter` (lines 34-78) is used by one process only.  `AtomicInteger` (lines 81-120) is shared by processes: its value
is the number of items in a queue, and a lock is held during every operation.  Here the operations are not atomic: taking
the lock, every access to the queue and giving the lock back are separate steps, and the steps of the processes are
interleaved in any order.

A `multiprocessing.Queue` consists of a semaphore, which counts the items, a pipe, and, in every process, a buffer, from
which a thread moves items to the pipe.  `put` adds to the semaphore and to the buffer and returns; `get` waits for an item in
the pipe, takes it and then takes one from the semaphore; `qsize` reads the semaphore.  (The bound of the semaphore, 2^31 - 1, is
not modelled.)

The setter of `AtomicInteger.value` (lines 115-120), which nothing uses, is modelled in `SharedSet.lean`.
-/
namespace Verif

/-- The operations of both counters. -/
inductive CounterOp where
  | inc
  | dec
  | compareAndDec (v : Int)
  | getAndDec
  | value
deriving DecidableEq, Repr

/-- What an operation returns. -/
inductive CounterRes where
  | int (n : Int)
  | bool (b : Bool)
deriving DecidableEq, Repr

/-! ## The counter for one process -/

/-- util.py 34-52 `NonAtomicCounter`. -/
structure NonAtomicCounter where
  val : Int
deriving DecidableEq, Repr

namespace NonAtomicCounter

/-- util.py 54-56. -/
def inc (c : NonAtomicCounter) : NonAtomicCounter × Int :=
  let c' : NonAtomicCounter := ⟨c.val + 1⟩
  (c', c'.val)

/-- util.py 58-60. -/
def dec (c : NonAtomicCounter) : NonAtomicCounter × Int :=
  let c' : NonAtomicCounter := ⟨c.val - 1⟩
  (c', c'.val)

/-- util.py 62-65. -/
def compareAndDec (c : NonAtomicCounter) (v : Int) : NonAtomicCounter × Bool :=
  let result := decide (c.val = v)
  (c.dec.1, result)

/-- util.py 67-70. -/
def getAndDec (c : NonAtomicCounter) : NonAtomicCounter × Int :=
  let result := c.val
  (c.dec.1, result)

/-- util.py 72-74. -/
def value (c : NonAtomicCounter) : Int := c.val

/-- util.py 76-78, the setter of `value`. -/
def setValue (_ : NonAtomicCounter) (v : Int) : NonAtomicCounter := ⟨v⟩

/-- One call of a method. -/
def run (c : NonAtomicCounter) : CounterOp → NonAtomicCounter × CounterRes
  | .inc => (c.inc.1, .int c.inc.2)
  | .dec => (c.dec.1, .int c.dec.2)
  | .compareAndDec v => ((c.compareAndDec v).1, .bool (c.compareAndDec v).2)
  | .getAndDec => (c.getAndDec.1, .int c.getAndDec.2)
  | .value => (c, .int c.value)

end NonAtomicCounter

/-! ## The counter that is shared by processes -/

/-- The accesses to the queue.  `queue.get()` is `recv`, followed by `drop`. -/
inductive QInstr where
  | put    -- `self._queue.put(1)`
  | recv   -- `self._queue.get()`, taking an item from the pipe
  | drop   -- `self._queue.get()`, taking one from the semaphore
  | qsize  -- `self._queue.qsize()`
deriving DecidableEq, Repr

/-- util.py 88-113: what the methods do while they hold the lock. -/
def CounterOp.body : CounterOp → List QInstr
  | .inc => [.put, .qsize]                      -- 90-91
  | .dec => [.recv, .drop, .qsize]              -- 95-96
  | .compareAndDec _ => [.qsize, .recv, .drop]  -- 100-102
  | .getAndDec => [.qsize, .recv, .drop]        -- 106-108
  | .value => [.qsize]                          -- 113

/-- util.py 91, 96, 100-102, 106-108, 113: what the methods return, depending on the size they saw. -/
def CounterOp.answer : CounterOp → Nat → CounterRes
  | .inc, n => .int n
  | .dec, n => .int n
  | .compareAndDec v, n => .bool (decide ((n : Int) = v))
  | .getAndDec, n => .int n
  | .value, n => .int n

/-- What the processes share: who holds the lock, the semaphore, the pipe, and the buffers (one entry for every buffered item; it
says which process has the item, `none` is the process that made the counter). -/
structure AtomicInteger where
  lock : Option Nat
  size : Nat
  pipe : Nat
  buffers : List (Option Nat)
deriving DecidableEq, Repr

/-- util.py 82-86 `AtomicInteger.__init__`; `range` of a negative number is empty. -/
def AtomicInteger.new (v : Int) : AtomicInteger :=
  { lock := none, size := v.toNat, pipe := 0, buffers := List.replicate v.toNat none }

/-- One access to the queue by a process; `read` is the size it has seen.  `none`: the process has to wait.  (The semaphore is never 0 at a
`drop`, see `C62_returns`.) -/
def AtomicInteger.exec (c : AtomicInteger) (pid : Nat) (read : Option Nat) : QInstr → Option (AtomicInteger × Option Nat)
  | .put => some ({ c with size := c.size + 1, buffers := c.buffers ++ [some pid] }, read)
  | .recv =>
    match c.pipe with
    | 0 => none
    | n + 1 => some ({ c with pipe := n }, read)
  | .drop =>
    match c.size with
    | 0 => none
    | n + 1 => some ({ c with size := n }, read)
  | .qsize => some (c, some c.size)

/-- Where a process is: not in a method; waiting for the lock; in a method, with the lock; or it was killed. -/
inductive CProc where
  | free
  | waiting (op : CounterOp)
  | inside (op : CounterOp) (todo : List QInstr) (read : Option Nat)
  | dead
deriving DecidableEq, Repr

/-- The processes, numbered by their positions, the counter, and the calls that have returned, in the order in which they did. -/
structure CWorld where
  counter : AtomicInteger
  procs : List CProc
  log : List (Nat × CounterOp × CounterRes)
deriving DecidableEq, Repr

/-- The counter has just been made, and `n` processes have been started. -/
def CWorld.start (v : Int) (n : Nat) : CWorld := ⟨AtomicInteger.new v, List.replicate n .free, []⟩

/-- A process calls a method. -/
inductive CCall : CWorld → CWorld → Prop where
  | call {c l r log} (op : CounterOp) : CCall ⟨c, l ++ .free :: r, log⟩ ⟨c, l ++ .waiting op :: r, log⟩

/-- A process goes on in a method, or an item is moved from a buffer to the pipe. -/
inductive CStep : CWorld → CWorld → Prop where
  | acquire {c l r log op} : c.lock = none →
      CStep ⟨c, l ++ .waiting op :: r, log⟩ ⟨{ c with lock := some l.length }, l ++ .inside op op.body none :: r, log⟩
  | exec {c l r log op i todo read c' read'} : c.exec l.length read i = some (c', read') →
      CStep ⟨c, l ++ .inside op (i :: todo) read :: r, log⟩ ⟨c', l ++ .inside op todo read' :: r, log⟩
  | leave {c l r log op n} :
      CStep ⟨c, l ++ .inside op [] (some n) :: r, log⟩
        ⟨{ c with lock := none }, l ++ .free :: r, log ++ [(l.length, op, op.answer n)]⟩
  | flush {c ps log b o b'} : c.buffers = b ++ o :: b' →
      CStep ⟨c, ps, log⟩ ⟨{ c with pipe := c.pipe + 1, buffers := b ++ b' }, ps, log⟩

/-- A process is killed: a lock that it holds is never given back, and what is in its buffer is lost. -/
inductive CKill : CWorld → CWorld → Prop where
  | kill {c l p r log} : p ≠ .dead →
      CKill ⟨c, l ++ p :: r, log⟩
        ⟨{ c with buffers := c.buffers.filter (fun o => !decide (o = some l.length)) }, l ++ .dead :: r, log⟩

/-- Anything that can happen, as long as no process is killed. -/
inductive CGo : CWorld → CWorld → Prop where
  | call {w w'} : CCall w w' → CGo w w'
  | step {w w'} : CStep w w' → CGo w w'

/-- Anything that can happen. -/
inductive CAny : CWorld → CWorld → Prop where
  | go {w w'} : CGo w w' → CAny w w'
  | kill {w w'} : CKill w w' → CAny w w'

end Verif
