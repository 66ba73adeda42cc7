import Verif.Model.Files
import Verif.Model.Registry
/-!
# Model of the stored size of a corpus (`PreprocessedCorpus.get_corpus_size` in `codeprep/api/corpus.py`)

Any number of processes that call the function are a transition system.  A process can be killed at any time.  The number is written
with a single access to the disk: the text is short, so it stays in the buffer of the file until the file is closed.
-/
namespace Verif

/-- dataset.py 257-259 `path_to_prep_corpus_size_file`: the name of the file in the folder with sizes; `pre` is the directory
in which the preprocessed dataset is, `name` its name. -/
def sizeFileName (pre name : Str) : Str := basename (pre ++ '/' :: name)

/-- Where a process is: not in the function, or the function has returned; before line 49, before opening the file for writing,
before writing the number, before reading. -/
inductive SizeSt where
  | idle
  | start
  | counting
  | writing
  | reading
  | done (r : Except PyErr Int)

/-- The process is not inside of the function. -/
def SizeSt.quiet : SizeSt → Prop
  | .idle => True
  | .done _ => True
  | _ => False

/-- The file and the processes. -/
structure SizeWorld where
  file : Option Str
  procs : Nat → SizeSt

/-- A process gets to another point. -/
def SizeWorld.set (s : SizeWorld) (w : Nat) (p : SizeSt) : SizeWorld := { s with procs := fun v => if v = w then p else s.procs v }

/-- corpus.py 48-54 `get_corpus_size`; `texts w` are the files of the corpus of process `w`.  `solo` and `safe` are not part of the
program: they restrict the histories to calls that do not overlap, and to processes that are not killed before the number is
written. -/
inductive SizeStep (texts : Nat → List Str) (solo safe : Bool) : SizeWorld → SizeWorld → Prop where
  /-- The function is called. -/
  | call {s : SizeWorld} (w : Nat) (h : (s.procs w).quiet) (hs : solo = true → ∀ v, v ≠ w → (s.procs v).quiet) :
      SizeStep texts solo safe s (s.set w .start)
  /-- corpus.py 49: there is no file. -/
  | missing {s : SizeWorld} {w : Nat} (h : s.procs w = .start) (hf : s.file = none) : SizeStep texts solo safe s (s.set w .counting)
  /-- corpus.py 49: there is a file. -/
  | found {s : SizeWorld} {w : Nat} (h : s.procs w = .start) (hf : s.file ≠ none) : SizeStep texts solo safe s (s.set w .reading)
  /-- corpus.py 50-51: after counting the file is opened. -/
  | create {s : SizeWorld} {w : Nat} (h : s.procs w = .counting) : SizeStep texts solo safe s { s.set w .writing with file := some [] }
  /-- corpus.py 52: the number is written; the results of the files were added in any order. -/
  | write {s : SizeWorld} {w : Nat} {order : List Str} (h : s.procs w = .writing) (ho : order.Perm (texts w)) :
      SizeStep texts solo safe s { s.set w .reading with file := some (natStr (calcCorpusSize order)) }
  /-- corpus.py 53-54. -/
  | read {s : SizeWorld} {w : Nat} {t : Str} (h : s.procs w = .reading) (hf : s.file = some t) :
      SizeStep texts solo safe s (s.set w (.done (pyInt t)))
  /-- The process is killed. -/
  | crash {s : SizeWorld} {w : Nat} (h : safe = true → s.procs w ≠ .writing) : SizeStep texts solo safe s (s.set w .idle)

/-- No size has been stored. -/
def SizeWorld.init : SizeWorld := ⟨none, fun _ => .idle⟩

end Verif
