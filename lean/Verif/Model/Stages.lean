import Verif.Model.FileList
/-!
# Model of a stage of the pipeline (`codeprep/pipeline/stages.py`, the markers of `codeprep/pipeline/dataset.py`)

`run_parsing` and the second half of `run_until_preprocessing` do the same with different directories.  A call, with the creation
of the directory before it, is a sequence of accesses to the disk; it can be killed between any two of them.  Between calls, and also
during them, users can change the directory with the results.  The files lie directly in the directory and are not links.  A file
that is computed appears at once: that unfinished files are not seen is proved in `Verif.Props.Workers`.
-/
namespace Verif.Stage

/-- A file with a result: its name, its contents and when it was modified, in seconds. -/
structure RFile where
  name : Bytes
  content : Str
  mtime : Nat
deriving DecidableEq, Repr

/-- A directory with results: when it was modified itself, and its files in the order of `os.walk`. -/
structure RDir where
  own : Nat
  files : List RFile
deriving DecidableEq, Repr

/-- config.py 47 `LIMIT_FILES_ON_LAST_MODIFICATION_CHECK`. -/
def timeLimit : Nat := 1000

/-- dirutils.py 55-82 `get_timestamp`; the time of a directory is only used if it is empty.  The text that is made from the time is
taken to be the time itself, that is, texts of different times are different. -/
def timestamp (d : RDir) : Except PyErr Nat :=
  if d.files = [] then .ok d.own else dirLastModification timeLimit [⟨[], d.files.map fun f => some f.mtime⟩]

/-- Where a call is: outside of the function; before `is_path_ready`, `is_path_outdated`, the two renamings of `archive_path`; in `run`
with files that have not been looked at; before opening and before writing the marker; at the end, or after an exception. -/
inductive Pc where
  | off
  | ready
  | compare
  | archive
  | archiveMarker
  | run (pending : List (Bytes × Str))
  | mark
  | stamp
  | done
  | raised (e : PyErr)
deriving DecidableEq, Repr

/-- The directory with results, the marker next to it (`some none` is an empty file), the archived directories with their times, the
current time, the call. -/
structure World where
  dir : Option RDir
  marker : Option (Option Nat)
  archived : List (Nat × RDir)
  now : Nat
  pc : Pc
deriving DecidableEq, Repr

/-- A new file at any position. -/
def addFile (a b : List RFile) (f : RFile) : List RFile := a ++ f :: b

/-- The files of a directory that may not exist. -/
def filesOf : Option RDir → List RFile
  | none => []
  | some d => d.files

/-- The renaming of a directory fails if there is one that is not empty in its place. -/
def blocked (arch : List (Nat × RDir)) (t : Nat) : Prop := ∃ d, (t, d) ∈ arch ∧ d.files ≠ []

/-- An archived directory that is empty is replaced. -/
def putArchived (arch : List (Nat × RDir)) (t : Nat) (d : RDir) : List (Nat × RDir) := arch.filter (fun e => e.1 ≠ t) ++ [(t, d)]

/-- One step of a call.  `results` are the names and contents of the files that `run` makes; `marks` is false if the results are not
marked (parse_projects.py 73). -/
inductive CallStep (results : List (Bytes × Str)) (marks : Bool) : World → World → Prop where
  /-- dataset.py 138-139, 141-142: `Dataset.create` makes the directory. -/
  | create {dir : Option RDir} {m : Option (Option Nat)} {arch : List (Nat × RDir)} {now : Nat} :
      CallStep results marks ⟨dir, m, arch, now, .off⟩ ⟨some (dir.getD ⟨now, []⟩), m, arch, now, .ready⟩
  /-- dataset.py 311-315 `is_path_ready`, stages.py 21-22, 33-34. -/
  | notReady {dir : Option RDir} {m : Option (Option Nat)} {arch : List (Nat × RDir)} {now : Nat} (h : dir = none ∨ m = none) :
      CallStep results marks ⟨dir, m, arch, now, .ready⟩ ⟨dir, m, arch, now, .run results⟩
  /-- dataset.py 311-315 `is_path_ready`, stages.py 23, 35. -/
  | isReady {d : RDir} {m : Option Nat} {arch : List (Nat × RDir)} {now : Nat} :
      CallStep results marks ⟨some d, some m, arch, now, .ready⟩ ⟨some d, some m, arch, now, .compare⟩
  /-- dataset.py 301-308 `is_path_outdated`, stages.py 26-27, 38-39. -/
  | upToDate {d : RDir} {m : Option Nat} {t : Nat} {arch : List (Nat × RDir)} {now : Nat} (ht : timestamp d = .ok t) (h : m = some t) :
      CallStep results marks ⟨some d, some m, arch, now, .compare⟩ ⟨some d, some m, arch, now, .done⟩
  /-- dataset.py 301-308 `is_path_outdated`, stages.py 23, 35. -/
  | outdated {d : RDir} {m : Option Nat} {t : Nat} {arch : List (Nat × RDir)} {now : Nat} (ht : timestamp d = .ok t) (h : m ≠ some t) :
      CallStep results marks ⟨some d, some m, arch, now, .compare⟩ ⟨some d, some m, arch, now, .archive⟩
  /-- dataset.py 318-323 `archive_path`: the directory. -/
  | archive {d : RDir} {m : Option (Option Nat)} {t : Nat} {arch : List (Nat × RDir)} {now : Nat} (ht : timestamp d = .ok t)
      (h : ¬ blocked arch t) :
      CallStep results marks ⟨some d, m, arch, now, .archive⟩ ⟨none, m, putArchived arch t d, now, .archiveMarker⟩
  /-- dataset.py 323: there is a directory with this name. -/
  | archiveFails {d : RDir} {m : Option (Option Nat)} {t : Nat} {arch : List (Nat × RDir)} {now : Nat} (ht : timestamp d = .ok t)
      (h : blocked arch t) :
      CallStep results marks ⟨some d, m, arch, now, .archive⟩ ⟨some d, m, arch, now, .raised .osError⟩
  /-- dataset.py 324: the marker. -/
  | archiveMarker {dir : Option RDir} {m : Option Nat} {arch : List (Nat × RDir)} {now : Nat} :
      CallStep results marks ⟨dir, some m, arch, now, .archiveMarker⟩ ⟨dir, none, arch, now, .run results⟩
  /-- parse_projects.py 29-31, to_repr.py 67-69: the result is there. -/
  | skip {d : RDir} {m : Option (Option Nat)} {arch : List (Nat × RDir)} {now : Nat} {a b : List (Bytes × Str)} {r : Bytes × Str}
      (h : r.1 ∈ d.files.map (·.name)) :
      CallStep results marks ⟨some d, m, arch, now, .run (a ++ r :: b)⟩ ⟨some d, m, arch, now, .run (a ++ b)⟩
  /-- parse_projects.py 25-27, 33-45, to_repr.py 63-65, 71-81: a result is computed; the directory is made if necessary. -/
  | write {dir : Option RDir} {m : Option (Option Nat)} {arch : List (Nat × RDir)} {now : Nat} {a b : List (Bytes × Str)} {r : Bytes × Str}
      {x y : List RFile} (hx : filesOf dir = x ++ y) (h : r.1 ∉ (filesOf dir).map (·.name)) :
      CallStep results marks ⟨dir, m, arch, now, .run (a ++ r :: b)⟩ ⟨some ⟨now, addFile x y ⟨r.1, r.2, now⟩⟩, m, arch, now, .run (a ++ b)⟩
  /-- The end of `run`. -/
  | finished {dir : Option RDir} {m : Option (Option Nat)} {arch : List (Nat × RDir)} {now : Nat} :
      CallStep results marks ⟨dir, m, arch, now, .run []⟩ ⟨dir, m, arch, now, if marks then .mark else .done⟩
  /-- dataset.py 295-297 `set_path_ready`: the marker is opened. -/
  | mark {dir : Option RDir} {m : Option (Option Nat)} {arch : List (Nat × RDir)} {now : Nat} :
      CallStep results marks ⟨dir, m, arch, now, .mark⟩ ⟨dir, some none, arch, now, .stamp⟩
  /-- dataset.py 298: the time is written. -/
  | stamp {d : RDir} {m : Option (Option Nat)} {t : Nat} {arch : List (Nat × RDir)} {now : Nat} (ht : timestamp d = .ok t) :
      CallStep results marks ⟨some d, m, arch, now, .stamp⟩ ⟨some d, some (some t), arch, now, .done⟩
  /-- dataset.py 298: there is no directory. -/
  | stampFails {m : Option (Option Nat)} {arch : List (Nat × RDir)} {now : Nat} :
      CallStep results marks ⟨none, m, arch, now, .stamp⟩ ⟨none, m, arch, now, .raised .fileNotFound⟩
  /-- The call is over, or it is killed. -/
  | exit {w : World} : CallStep results marks w { w with pc := .off }
  /-- Time passes. -/
  | tick {w : World} {now : Nat} (h : w.now ≤ now) : CallStep results marks w { w with now := now }

/-- Changes of the results by users: a file is overwritten, added or removed, or the directory is removed. -/
inductive UserStep : World → World → Prop where
  | edit {a b : List RFile} {f : RFile} {own : Nat} {m : Option (Option Nat)} {arch : List (Nat × RDir)} {now : Nat} {pc : Pc} (content : Str) :
      UserStep ⟨some ⟨own, a ++ f :: b⟩, m, arch, now, pc⟩ ⟨some ⟨own, a ++ ⟨f.name, content, now⟩ :: b⟩, m, arch, now, pc⟩
  | add {a b : List RFile} {own : Nat} {m : Option (Option Nat)} {arch : List (Nat × RDir)} {now : Nat} {pc : Pc} (name : Bytes) (content : Str) :
      UserStep ⟨some ⟨own, a ++ b⟩, m, arch, now, pc⟩ ⟨some ⟨now, addFile a b ⟨name, content, now⟩⟩, m, arch, now, pc⟩
  | remove {a b : List RFile} {f : RFile} {own : Nat} {m : Option (Option Nat)} {arch : List (Nat × RDir)} {now : Nat} {pc : Pc} :
      UserStep ⟨some ⟨own, a ++ f :: b⟩, m, arch, now, pc⟩ ⟨some ⟨now, a ++ b⟩, m, arch, now, pc⟩
  | removeAll {dir : Option RDir} {m : Option (Option Nat)} {arch : List (Nat × RDir)} {now : Nat} {pc : Pc} :
      UserStep ⟨dir, m, arch, now, pc⟩ ⟨none, m, arch, now, pc⟩

/-- Nothing has been computed. -/
def World.init (now : Nat) : World := ⟨none, none, [], now, .off⟩

end Verif.Stage
