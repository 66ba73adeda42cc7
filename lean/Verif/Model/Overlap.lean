import Verif.Model.Workers
/-!
# Model of programs that preprocess the same dataset at the same time

`codeprep/pipeline/parse_projects.py`, `codeprep/pipeline/to_repr.py`.  The workers of all programs are numbered.  A worker does what it
does in `Verif.Model.Workers`; in addition, renaming a file raises an exception if another worker has already done it.  An exception of a
worker ends its program, and leaving `with Pool()` terminates its other workers (parse_projects.py 69-72, to_repr.py 164-167).

Simplifications: the source files do not change, and the time stamps in the headers of parsed files are taken to be equal, so all programs
write the same content for a file.  A program that has ended and one that is started later have the same number.
-/
namespace Verif.Overlap
open Verif Verif.Pool

/-- One step of a worker among others. -/
inductive OStep (c : Setup) : Disk → WSt → Disk → WSt → Prop where
  /-- to_repr.py 60-81, parse_projects.py 22-45. -/
  | work {d d' : Disk} {s s' : WSt} (h : WStep c d s d' s') (hm : ∀ j, s = .moving j → d.dir (partOf j.dest) ≠ none) : OStep c d s d' s'
  /-- to_repr.py 81, parse_projects.py 45: `os.rename` raises `FileNotFoundError`. -/
  | gone {d : Disk} {j : Job} (h : d.dir (partOf j.dest) = none) : OStep c d (.moving j) d (.raised j)

/-- The disk and the workers of all programs. -/
structure World where
  disk : Disk
  workers : Nat → WSt

/-- A worker changes its state. -/
def World.set (w : World) (n : Nat) (s : WSt) : World := { w with workers := fun x => if x = n then s else w.workers x }

/-- A program ends; `prog` tells which program a worker belongs to. -/
def World.stop (prog : Nat → Nat) (p : Nat) (w : World) : World :=
  { w with workers := fun x => if prog x = p then .idle else w.workers x }

/-- What workers do. -/
inductive Go (c : Setup) (jobs : List Job) : World → World → Prop where
  /-- parse_projects.py 69-72, to_repr.py 164-167: the pool of a program hands out a file. -/
  | take {w : World} {n : Nat} {j : Job} (hi : w.workers n = .idle) (hj : j ∈ jobs) : Go c jobs w (w.set n (.start j))
  /-- A worker does something. -/
  | work {w : World} {n : Nat} {d : Disk} {s : WSt} (h : OStep c w.disk (w.workers n) d s) : Go c jobs w ({ w with disk := d }.set n s)

/-- What happens if no program is killed. -/
inductive Act (c : Setup) (jobs : List Job) (prog : Nat → Nat) : World → World → Prop where
  | go {w w' : World} (h : Go c jobs w w') : Act c jobs prog w w'
  /-- parse_projects.py 69-72, to_repr.py 164-167: a worker has raised an exception. -/
  | abort {w : World} {n : Nat} {j : Job} (h : w.workers n = .raised j) : Act c jobs prog w (w.stop prog (prog n))

/-- The same with programs that are killed. -/
inductive Any (c : Setup) (jobs : List Job) (prog : Nat → Nat) : World → World → Prop where
  | act {w w' : World} (h : Act c jobs prog w w') : Any c jobs prog w w'
  | kill {w : World} (p : Nat) : Any c jobs prog w (w.stop prog p)

end Verif.Overlap
