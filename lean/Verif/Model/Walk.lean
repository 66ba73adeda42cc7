import Verif.Model.FileList
/-!
# Model of directories with symbolic links and of the functions of `codeprep/dirutils.py` that walk through them

Simplifications: all directories can be read, paths may have any length, and nothing changes during a walk.
-/
namespace Verif.Tree
open Verif

mutual
/-- What is found under a name: a file and a directory with their modification times, or a symbolic link. -/
inductive Node where
  | file (mtime : Nat)
  | dir (mtime : Nat) (entries : Entries)
  | link (place : Nat)

/-- What is in a directory, in the order of `os.scandir`. -/
inductive Entries where
  | nil
  | cons (name : Bytes) (node : Node) (rest : Entries)
end

/-- The names and what is found under them. -/
def Entries.toList : Entries → List (Bytes × Node)
  | .nil => []
  | .cons name n r => (name, n) :: r.toList

/-- What links lead to; `none` for links that lead nowhere.  Simplification: links that lead to links are resolved. -/
abbrev Links := Nat → Option Node

/-- `os.DirEntry.is_dir()` with what can be listed then: the modification time, the entries, and how many links a path may still
contain.  The operating system refuses paths with more links than that (`ELOOP`), and `os.walk` takes an error for `False`. -/
def Node.asDir (fs : Links) (links : Nat) : Node → Option (Nat × Entries × Nat)
  | .file _ => none
  | .dir t es => some (t, es, links)
  | .link i => match links, fs i with
    | k + 1, some (.dir t es) => some (t, es, k)
    | _, _ => none

/-- `os.path.islink`. -/
def Node.isLink : Node → Bool
  | .link _ => true
  | _ => false

/-- A directory that `os.walk` comes to: the names that lead to it, its entries, and how many links a path may still contain. -/
structure Visit where
  path : List Bytes
  entries : Entries
  links : Nat

mutual
/-- `os.walk`: what is below the directory `path` that has the entries, in the order of `os.scandir`; `through` walks through directories
that are reached by links. -/
def below (through : List Bytes → Node → List Visit) (links : Nat) (path : List Bytes) : Entries → List Visit
  | .nil => []
  | .cons name n r => belowNode through links (path ++ [name]) n ++ below through links path r

/-- `os.walk`: what is below one name. -/
def belowNode (through : List Bytes → Node → List Visit) (links : Nat) (path : List Bytes) : Node → List Visit
  | .file _ => []
  | .dir _ es => ⟨path, es, links⟩ :: below through links path es
  | .link i => through path (.link i)
end

/-- `os.walk(top, followlinks=follow)`: the directories in the order in which they are delivered. -/
def walkDirs (fs : Links) (follow : Bool) : Nat → List Bytes → Entries → List Visit
  | 0, path, es => ⟨path, es, 0⟩ :: below (fun _ _ => []) 0 path es
  | k + 1, path, es => ⟨path, es, k + 1⟩ :: below (fun p n =>
      if follow then match n.asDir fs (k + 1) with
        | some (_, es', _) => walkDirs fs follow k p es'
        | none => []
      else []) (k + 1) path es

/-- `os.path.relpath(root, path_bin)` of a directory below the root (dirutils.py 42, 47); 46 is the dot, 47 the slash. -/
def relRoot : List Bytes → Bytes
  | [] => [46]
  | [c] => c
  | c :: d :: r => c ++ 47 :: relRoot (d :: r)

/-- What `os.walk` delivers for a directory, as it is used in `walk_and_save`. -/
def Visit.entry (fs : Links) (v : Visit) : WalkEntry :=
  ⟨relRoot v.path, (v.entries.toList.filter fun e => (e.2.asDir fs v.links).isSome).map (·.1),
    (v.entries.toList.filter fun e => (e.2.asDir fs v.links).isNone).map fun e => (e.1, e.2.isLink)⟩

/-- dirutils.py 27-52 `walk_and_save` for a directory: `os.walk` follows links. -/
def scan (fs : Links) (links : Nat) (es : Entries) : Scanned := .dir ((walkDirs fs true links [] es).map (·.entry fs))

/-- `os.path.getmtime` of a name in `dirs`, and of a name in `files` unless it is a link (dirutils.py 63-74). -/
def Visit.times (fs : Links) (v : Visit) : TimedEntry :=
  ⟨v.entries.toList.filterMap fun e => (e.2.asDir fs v.links).map (·.1),
    (v.entries.toList.filter fun e => (e.2.asDir fs v.links).isNone).map fun e => match e.2 with
      | .file t => some t
      | _ => none⟩

/-- dirutils.py 55-77 `get_dir_last_modification` for a directory: `os.walk` does not follow links.  An empty directory has its own
modification time. -/
def lastModification (fs : Links) (limit links mtime : Nat) (es : Entries) : Except PyErr Nat :=
  match es with
  | .nil => .ok mtime
  | .cons _ _ _ => dirLastModification limit ((walkDirs fs false links [] es).map (·.times fs))

/-- The path of a directory that is reached from `top` by the names (`os.walk` joins them one after the other). -/
def joinAll (top : Bytes) (path : List Bytes) : Bytes := path.foldl joinPath top

/-- dirutils.py 18, 23: `not extension or name.endswith(extension)`; `not extension` also holds for an empty one. -/
def endsWell (ext : Option Bytes) (name : Bytes) : Bool :=
  match ext with
  | none => true
  | some [] => true
  | some (c :: x) => bytesEndsWith name (c :: x)

/-- dirutils.py 17-24 `walk` for a directory: links are not followed. -/
def plainWalk (fs : Links) (links : Nat) (top : Bytes) (es : Entries) (ext : Option Bytes) : List Bytes :=
  (walkDirs fs false links [] es).flatMap fun v =>
    (((v.entries.toList.filter fun e => (e.2.asDir fs v.links).isNone).map (·.1)).filter (endsWell ext)).map (joinPath (joinAll top v.path))

/-- dirutils.py 17-24 `walk` for a file; `os.walk` delivers nothing for a file. -/
def plainWalkFile (path : Bytes) (ext : Option Bytes) : List Bytes := if endsWell ext path then [path] else []

end Verif.Tree
