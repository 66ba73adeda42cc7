import Verif.Model.FileList
/-!
# Model of the workers that parse and preprocess files

`codeprep/pipeline/parse_projects.py`, `codeprep/pipeline/to_repr.py`, `SubDataset` of `codeprep/pipeline/dataset.py`.

The workers of a pool and the disk are a transition system.  Every transition is one access to the disk.  A crash, which is also
how a run ends when a worker raises an exception, can happen at any time; what was handed to the operating system stays.  Source
files do not change, so what a worker computes from a file is fixed.  The order in which the pool hands out files is arbitrary.
-/
namespace Verif

/-! ## Names of files -/

/-- Splitting at slashes (47). -/
def splitSlash : Bytes → List Bytes
  | [] => [[]]
  | c :: r =>
    if c = 47 then [] :: splitSlash r
    else match splitSlash r with
      | [] => [[c]]
      | p :: ps => (c :: p) :: ps

/-- Joining with slashes. -/
def joinSlash : List Bytes → Bytes
  | [] => []
  | [p] => p
  | p :: q :: r => p ++ 47 :: joinSlash (q :: r)

/-- `os.path.relpath(os.path.join(path, f), path)` for a relative path without `..`: empty components and dots (46) are left out. -/
def normRel (f : Bytes) : Bytes :=
  match (splitSlash f).filter fun p => p ≠ [] ∧ p ≠ [46] with
  | [] => [46]
  | ps => joinSlash ps

/-- dataset.py 54-61 `file_iterator`: what is joined with the path of the directory. -/
def iterName (suffix f : Bytes) : Bytes := f ++ suffix

/-- dataset.py 63-69 `get_new_file_name` for a file of a directory, given by its path relative to that directory; the result is
relative to the new directory. -/
def newName (suffix newSuffix file : Bytes) : Bytes :=
  let rel := normRel file
  (if suffix.length ≠ 0 then rel.take (rel.length - suffix.length) else rel) ++ newSuffix

/-- dataset.py 26 `PARSED_EXTENSION`. -/
def parsedExt : Bytes := encodeUtf8 ".parsed".toList

/-- dataset.py 27 `PREPROCESSED_EXTENSION`. -/
def prepExt : Bytes := encodeUtf8 ".prep".toList

/-- dataset.py 28 `NOT_FINISHED_EXTENSION`. -/
def partExt : Bytes := encodeUtf8 ".part".toList

end Verif

namespace Verif.Pool

/-! ## The disk -/

/-- A path: in the directory of the results, or in the folder with the metadata. -/
inductive Path where
  | out (p : Bytes)
  | side (p : Str)
deriving DecidableEq, Repr

/-- A disk: which file is at a path, what the files contain, the number of the next new file. -/
structure Disk where
  dir : Path → Option Nat
  data : Nat → Str
  next : Nat

/-- Changing the contents of a file. -/
def Disk.put (d : Disk) (i : Nat) (s : Str) : Disk := { d with data := fun n => if n = i then s else d.data n }

/-- `open(p, 'w')`: an existing file is emptied, otherwise a new one is made. -/
def Disk.create (d : Disk) (p : Path) : Disk × Nat :=
  match d.dir p with
  | some i => (d.put i [], i)
  | none => ({ (d.put d.next []) with dir := fun q => if q = p then some d.next else d.dir q, next := d.next + 1 }, d.next)

/-- `os.rename(p, q)`. -/
def Disk.rename (d : Disk) (p q : Path) : Disk :=
  { d with dir := fun x => if x = q then d.dir p else if x = p then none else d.dir x }

/-- Writing at a position of an open file; a gap is filled with zeros. -/
def pwrite (old : Str) (pos : Nat) (chunk : Str) : Str :=
  old.take pos ++ List.replicate (pos - old.length) (Char.ofNat 0) ++ chunk ++ old.drop (pos + chunk.length)

/-! ## The workers -/

/-- What comes out for a source file: it is missing, processing it raises an exception, or the text that is written and the
tokens that are saved with it. -/
inductive Res where
  | missing
  | fails
  | ok (content tokens : Str)
deriving DecidableEq, Repr

/-- A file to be processed. -/
structure Job where
  dest : Bytes
  res : Res
deriving DecidableEq, Repr

/-- Which of the two functions called `preprocess_and_write` it is. -/
inductive Stage where
  | parse
  | repr
deriving DecidableEq, Repr

/-- The settings of a run: `saveTokens` if `part_nonbpe_vocab_folder` is given.  `fresh` is not part of the program: if it is true,
no two files with tokens get the same name. -/
structure Setup where
  stage : Stage
  saveTokens : Bool
  fresh : Bool
deriving DecidableEq, Repr

/-- Where a worker is: waiting, before the check in line 67 (parse_projects.py 29), before opening the unfinished file, writing it
(the open file and the position), before saving the tokens, writing them, before renaming; or it has raised an exception. -/
inductive WSt where
  | idle
  | start (j : Job)
  | opening (j : Job)
  | writing (j : Job) (i pos : Nat)
  | saving (j : Job)
  | tokens (j : Job) (i pos : Nat)
  | moving (j : Job)
  | raised (j : Job)
deriving DecidableEq, Repr

/-- to_repr.py 71, parse_projects.py 33 `not_finished_dest_file_path`. -/
def partOf (dest : Bytes) : Path := .out (dest ++ partExt)

/-- to_repr.py 79: the name of the file with tokens; `time` is what is printed for `time.time()`.  The base name is a byte string,
so its `repr` is used. -/
def tokensName (dest : Bytes) (time : Str) : Path :=
  .side (bytesRepr ((dest.reverse.takeWhile (· ≠ 47)).reverse) ++ "_-_".toList ++ time)

/-- to_repr.py 60-81, parse_projects.py 22-45: one step of a worker. -/
inductive WStep (c : Setup) : Disk → WSt → Disk → WSt → Prop where
  /-- to_repr.py 67-69, parse_projects.py 29-31: the result is there. -/
  | skip {d : Disk} {j : Job} (h : d.dir (.out j.dest) ≠ none) : WStep c d (.start j) d .idle
  /-- to_repr.py 67, parse_projects.py 29. -/
  | check {d : Disk} {j : Job} (h : d.dir (.out j.dest) = none) : WStep c d (.start j) d (.opening j)
  /-- to_repr.py 72: the source is opened first. -/
  | noSource {d : Disk} {j : Job} (h : c.stage = .repr) (hr : j.res = .missing) : WStep c d (.opening j) d (.raised j)
  /-- to_repr.py 72, parse_projects.py 34: opening the unfinished file. -/
  | openPart {d : Disk} {j : Job} (h : ¬ (c.stage = .repr ∧ j.res = .missing)) :
      WStep c d (.opening j) (d.create (partOf j.dest)).1 (.writing j (d.create (partOf j.dest)).2 0)
  /-- parse_projects.py 37-40: the source is missing; something is in the unfinished file. -/
  | ignore {d : Disk} {j : Job} {i : Nat} (h : c.stage = .parse) (hr : j.res = .missing) (junk : Str) :
      WStep c d (.writing j i 0) (d.put i junk) .idle
  /-- to_repr.py 73-75, parse_projects.py 36-42: an exception. -/
  | fail {d : Disk} {j : Job} {i : Nat} (hr : j.res = .fails) : WStep c d (.writing j i 0) d (.raised j)
  /-- to_repr.py 76, parse_projects.py 43: a part of the text is written. -/
  | write {d : Disk} {j : Job} {i pos : Nat} {s t : Str} (n : Nat) (hr : j.res = .ok s t) (hn : 0 < n) (hp : pos + n ≤ s.length) :
      WStep c d (.writing j i pos) (d.put i (pwrite (d.data i) pos ((s.drop pos).take n))) (.writing j i (pos + n))
  /-- The file is closed. -/
  | close {d : Disk} {j : Job} {i pos : Nat} {s t : Str} (hr : j.res = .ok s t) (hp : pos = s.length) :
      WStep c d (.writing j i pos) d (if c.saveTokens then .saving j else .moving j)
  /-- metadata.py 69. -/
  | openTokens {d : Disk} {j : Job} (time : Str) (hf : c.fresh = true → d.dir (tokensName j.dest time) = none) :
      WStep c d (.saving j) (d.create (tokensName j.dest time)).1 (.tokens j (d.create (tokensName j.dest time)).2 0)
  /-- metadata.py 70-71. -/
  | writeTokens {d : Disk} {j : Job} {i pos : Nat} {s t : Str} (n : Nat) (hr : j.res = .ok s t) (hn : 0 < n) (hp : pos + n ≤ t.length) :
      WStep c d (.tokens j i pos) (d.put i (pwrite (d.data i) pos ((t.drop pos).take n))) (.tokens j i (pos + n))
  /-- The file is closed. -/
  | closeTokens {d : Disk} {j : Job} {i pos : Nat} {s t : Str} (hr : j.res = .ok s t) (hp : pos = t.length) :
      WStep c d (.tokens j i pos) d (.moving j)
  /-- to_repr.py 81, parse_projects.py 45. -/
  | rename {d : Disk} {j : Job} : WStep c d (.moving j) (d.rename (partOf j.dest) (.out j.dest)) .idle

/-- parse_projects.py 48-51: the files to be parsed; `source` tells what comes out for a file of the dataset. -/
def parseJobs (source : Bytes → Res) (files : List Bytes) : List Job :=
  files.map fun f => ⟨newName [] parsedExt (iterName [] f), source f⟩

/-- to_repr.py 72-76: what comes out for a parsed file with a content. -/
def fromParsed (compute : Str → Res) (parsed : Disk) (src : Bytes) : Res :=
  match parsed.dir (.out (normRel src)) with
  | none => .missing
  | some i => compute (parsed.data i)

/-- to_repr.py 118-121: the files to be preprocessed after parsing. -/
def reprJobs (compute : Str → Res) (parsed : Disk) (files : List Bytes) : List Job :=
  files.map fun f => ⟨newName parsedExt prepExt (iterName parsedExt f), fromParsed compute parsed (iterName parsedExt f)⟩

/-! ## Runs -/

/-- A run: the files that have not been handed out, and the workers. -/
structure Run where
  pending : List Job
  workers : Nat → WSt

/-- The disk, whether the results are marked as ready, and the current run. -/
structure World where
  disk : Disk
  ready : Bool
  run : Option Run

/-- A worker changes its state. -/
def Run.set (r : Run) (w : Nat) (s : WSt) : Run := { r with workers := fun x => if x = w then s else r.workers x }

/-- to_repr.py 131-175 and parse_projects.py 54-74 `run` with `n` workers, and stages.py 19-39: there is a run until one comes to its
end. -/
inductive Step (c : Setup) (jobs : List Job) (n : Nat) : World → World → Prop where
  /-- The program is started. -/
  | start {d : Disk} : Step c jobs n ⟨d, false, none⟩ ⟨d, false, some ⟨jobs, fun _ => .idle⟩⟩
  /-- The pool hands out a file. -/
  | take {d : Disk} {r : Run} {w : Nat} {j : Job} {a b : List Job} (hw : w < n) (hi : r.workers w = .idle) (hp : r.pending = a ++ j :: b) :
      Step c jobs n ⟨d, false, some r⟩ ⟨d, false, some ({ r with pending := a ++ b }.set w (.start j))⟩
  /-- A worker does something. -/
  | work {d d' : Disk} {r : Run} {w : Nat} {s : WSt} (hw : w < n) (h : WStep c d (r.workers w) d' s) :
      Step c jobs n ⟨d, false, some r⟩ ⟨d', false, some (r.set w s)⟩
  /-- The program is killed, or it ends because of an exception. -/
  | crash {d : Disk} {r : Run} : Step c jobs n ⟨d, false, some r⟩ ⟨d, false, none⟩
  /-- to_repr.py 175, parse_projects.py 73-74: the end of a run. -/
  | finish {d : Disk} {r : Run} (hp : r.pending = []) (hi : ∀ w, w < n → r.workers w = .idle) :
      Step c jobs n ⟨d, false, some r⟩ ⟨d, true, none⟩

/-- Nothing has been written yet. -/
def World.init : World := ⟨⟨fun _ => none, fun _ => [], 0⟩, false, none⟩

end Verif.Pool
