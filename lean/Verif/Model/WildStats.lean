import Verif.Model.WildBpe
/-!
# `wild_bpe.run` with performance statistics

What `Model/WildBpe` leaves out of `run`: the statistics that are delivered together with the merges, and the end of the run when too
much memory is used.  Times are not modelled.  The memory of the three objects (`getsize`, see `Model/ObjSize`) is a parameter: a
function of the state, in bytes.
-/
namespace Verif.Wild
open Verif

/-- wild_bpe.py 399-401: the memory of the three objects, in bytes (the code divides by 10^6). -/
structure Memory where
  location : Nat
  neighbour : Nat
  queue : Nat
deriving DecidableEq, Repr

/-- wild_bpe.py 20-34 `BpePerformanceStatsEntry`, without the time. -/
structure StatEntry where
  mergesDone : Nat
  queueEntries : Nat
  indexEntries : Nat
  memory : Memory
deriving DecidableEq, Repr

/-- How memory is measured. -/
abbrev Measure := Loc → Nb → Queue → Memory

/-- wild_bpe.py 392-401, 423-444: one entry of the statistics. -/
def statEntry (mem : Measure) (done : Nat) (loc : Loc) (nb : Nb) (q : Queue) : StatEntry :=
  ⟨done, q.pq.length, loc.length, mem loc nb q⟩

/-- wild_bpe.py 421: whether the state is measured after merge `i`. -/
def measured (every : Int) (i : Nat) : Bool := decide (0 < every) && (decide (i = 1) || decide ((i : Int) % every = 0))

/-- wild_bpe.py 450: more than 3072 megabytes (the code adds up floating point numbers, here the sum is exact). -/
def tooMuch (m : Memory) : Bool := decide (3072 * 1000000 < m.location + m.neighbour + m.queue)

/-- wild_bpe.py 420-446: the statistics after merge `i`, and the last measured memory (`none`: the variables are unset). -/
def takeStats (mem : Measure) (every : Int) (i : Nat) (loc : Loc) (nb : Nb) (q : Queue) (stats : Option (List StatEntry))
    (last : Option Memory) : Except PyErr (Option (List StatEntry) × Option Memory) :=
  if measured every i then
    match stats with
    | none => .error .attributeError
    | some l => .ok (some (l ++ [statEntry mem i loc nb q]), some (mem loc nb q))
  else .ok (stats, last)

/-- wild_bpe.py 450-451: whether the run ends. -/
def isFull (every : Int) (last : Option Memory) : Except PyErr Bool :=
  if 0 < every then
    match last with
    | none => .error .nameError
    | some m => .ok (tooMuch m)
  else .ok false

/-- wild_bpe.py 404-451: `n` merges, beginning with merge `i`. -/
def runStatsLoop (o : Order Entry) (mem : Measure) (every : Int) : Nat → Nat → Loc → Nb → Queue → Option (List StatEntry) →
    Option Memory → Except PyErr (List (Str × Int × Option (List StatEntry)))
  | 0, _, _, _, _, _, _ => .ok []
  | n + 1, i, loc, nb, q, stats, last =>
    match q.popPair o with
    | none => .ok []
    | some (pair, occ, q) => do
      let r ← updateLocation o loc nb pair
      let a := applyChanges pair r.2 q occ
      let nb ← updateNb o r.1 nb pair
      let s ← takeStats mem every i r.1 nb a.1 stats last
      let full ← isFull every s.2
      let rest ← if full then .ok [] else runStatsLoop o mem every n (i + 1) r.1 nb a.1 s.1 s.2
      return (pair, a.2, s.1) :: rest

/-- wild_bpe.py 375-451 `run(generator, n_merges, include_performance_stats_every_n_merges)`.  The list of statistics is the one at
the time of the yield (the code delivers the same list again and again, which grows). -/
def runStats (o : Order Entry) (mem : Measure) (every : Int) (chars : List Str) (n : Nat) :
    Except PyErr (List (Str × Int × Option (List StatEntry))) := do
  let idx ← buildIndices chars
  let es ← idx.1.mapM queueEntry
  let q := Queue.init es
  runStatsLoop o mem every n 0 idx.1 idx.2 q (if every ≠ 0 then some [statEntry mem 0 idx.1 idx.2 q] else none) none

end Verif.Wild
