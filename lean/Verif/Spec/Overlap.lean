import Verif.Model.Overlap
import Verif.Spec.Workers
/-!
# Specification for programs that overlap
-/
namespace Verif.Overlap
open Verif Verif.Pool

/-- The worker is writing the result for a job. -/
def Writes (s : WSt) (j : Job) : Prop := ∃ i pos, s = .writing j i pos

/-- No program ends, by an exception or killed, while one of its workers is writing a result. -/
inductive Careful (c : Setup) (jobs : List Job) (prog : Nat → Nat) : World → World → Prop where
  | go {w w' : World} (h : Go c jobs w w') : Careful c jobs prog w w'
  | stop {w : World} (p : Nat) (hn : ∀ n j, prog n = p → ¬ Writes (w.workers n) j) : Careful c jobs prog w (w.stop prog p)

/-- Where the programs begin: results are complete or not there; there may be unfinished files of programs that were killed. -/
structure Begins (jobs : List Job) (w : World) : Prop where
  idle : ∀ n, w.workers n = .idle
  files : ∀ p q i, w.disk.dir p = some i → w.disk.dir q = some i → p = q
  numbers : ∀ p i, w.disk.dir p = some i → i < w.disk.next
  complete : ∀ j ∈ jobs, ∀ s t, j.res = .ok s t → w.disk.dir (.out j.dest) = none ∨ w.disk.Has (.out j.dest) s

end Verif.Overlap
