import Verif.Model.FileList
/-!
# What it means to select a file and to save lists of files
-/
namespace Verif.Spec

/-- The bytes of a string in UTF-8, by Lean's library. -/
def utf8 (s : Str) : Bytes := (String.ofList s).toByteArray.data.toList

/-- A file is wanted: it is not a link, and if there are extensions its path ends with a dot and one of them. -/
def Wanted (exts : Option (List Str)) (path : Bytes) (islink : Bool) : Prop :=
  islink = false ∧ (exts = none ∨ exts = some [] ∨ ∃ l, exts = some l ∧ ∃ x ∈ l, ∃ stem : Bytes, path = stem ++ [46] ++ utf8 x)

/-- The files found in the directories, with their paths. -/
def foundFiles (es : List WalkEntry) : List (Bytes × Bool) := es.flatMap fun e => e.files.map fun f => (joinPath e.root f.1, f.2)

/-- The directories found. -/
def foundDirs (es : List WalkEntry) : List Bytes := es.flatMap fun e => e.dirs.map fun d => joinPath e.root d

/-- A name in a directory: not empty, no slash. -/
def PlainName (n : Bytes) : Prop := n ≠ [] ∧ 47 ∉ n

/-- A relative path of a directory: not empty, and not ending with a slash. -/
def PlainRoot (r : Bytes) : Prop := r ≠ [] ∧ r.getLast? ≠ some 47

/-- The strings between the bars of a string: the unique way to cut it at all its bars. -/
def BarPieces (s : Str) (l : List Str) : Prop := l ≠ [] ∧ (∀ p ∈ l, '|' ∉ p) ∧ pyJoin ['|'] l = s

/-- What may happen to the saved lists of a dataset, with the clock before and after.  No two of these events happen in the same
second. -/
inductive ListEvent (exts : Option (List Str)) (sc : Scanned) : Nat × ListCache → Nat × ListCache → Prop
  /-- A call that is run to its end. -/
  | call {t now : Nat} (suppress dirs : Bool) (c : ListCache) (h : t < now) :
      ListEvent exts sc (t, c) (now, (getAllFiles now suppress dirs exts sc c).2)
  /-- A call that crashes. -/
  | crash {t now : Nat} (nd nf : Nat) (dirs : Bool) (c : ListCache) (h : t < now) :
      ListEvent exts sc (t, c) (now, getAllFilesCrash now nd nf dirs exts sc c)
  /-- Somebody changes the lists. -/
  | modified {t now : Nat} (c : ListCache) (dirText fileText : Str) (h : t < now) :
      ListEvent exts sc (t, c) (now, ⟨some ⟨now, dirText, fileText⟩, c.marker⟩)
  /-- Somebody removes the lists. -/
  | removed {t now : Nat} (c : ListCache) (h : t < now) : ListEvent exts sc (t, c) (now, ⟨none, c.marker⟩)
  /-- Somebody removes the file with the time. -/
  | unmarked {t now : Nat} (c : ListCache) (h : t < now) : ListEvent exts sc (t, c) (now, ⟨c.folder, none⟩)

/-- Any number of events. -/
inductive ListHistory (exts : Option (List Str)) (sc : Scanned) (s : Nat × ListCache) : Nat × ListCache → Prop
  | nil : ListHistory exts sc s s
  | snoc {u v : Nat × ListCache} : ListHistory exts sc s u → ListEvent exts sc u v → ListHistory exts sc s v

/-- The times of everything in a directory that is not a link to a file. -/
def allTimes (es : List TimedEntry) : List Nat := es.flatMap fun e => e.dirs ++ e.files.filterMap id

end Verif.Spec
