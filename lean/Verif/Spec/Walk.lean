import Verif.Model.Walk
import Verif.Spec.FileList
/-!
# Where names in a directory lead to
-/
namespace Verif.Spec
open Verif.Tree

/-- From the directory with the entries `es` the names `path` lead to the directory with the last entries, through the given number of
symbolic links. -/
inductive DirAt (fs : Links) : Entries → List Bytes → Nat → Entries → Prop
  /-- No name leads to where one is. -/
  | here (es : Entries) : DirAt fs es [] 0 es
  /-- A name of a directory. -/
  | down {es : Entries} {name : Bytes} {t : Nat} {sub : Entries} {path : List Bytes} {k : Nat} {last : Entries}
      (h : (name, Node.dir t sub) ∈ es.toList) (r : DirAt fs sub path k last) : DirAt fs es (name :: path) k last
  /-- A name of a link that leads to a directory. -/
  | through {es : Entries} {name : Bytes} {i t : Nat} {sub : Entries} {path : List Bytes} {k : Nat} {last : Entries}
      (h : (name, Node.link i) ∈ es.toList) (hi : fs i = some (.dir t sub)) (r : DirAt fs sub path k last) :
      DirAt fs es (name :: path) (k + 1) last

/-- The names `path` lead to `n`, through directories that are reached with the given number of symbolic links. -/
def Leads (fs : Links) (es : Entries) (path : List Bytes) (k : Nat) (n : Node) : Prop :=
  ∃ dirs name last, path = dirs ++ [name] ∧ DirAt fs es dirs k last ∧ (name, n) ∈ last.toList

/-- How paths are written in the list of files: names with slashes between them, and a dot in front of a single name. -/
def shown : List Bytes → Bytes
  | [name] => [46, 47] ++ name
  | path => List.intercalate [47] path

/-- Names are as in a file system: they have no slashes, they are not empty, not `.` and not `..`, and no two names in a directory are
the same. -/
def WellNamed (fs : Links) (es : Entries) : Prop :=
  ∀ path k last, DirAt fs es path k last →
    (∀ e ∈ last.toList, PlainName e.1 ∧ e.1 ≠ [46] ∧ e.1 ≠ [46, 46]) ∧ (last.toList.map (·.1)).Nodup

/-- The time that is found under a name: links to files have none. -/
def TimeOf (fs : Links) (n : Node) (t : Nat) : Prop :=
  n = .file t ∨ (∃ es, n = .dir t es) ∨ ∃ i es, n = .link i ∧ fs i = some (.dir t es)

/-- The time of the directory that a link leads to. -/
def linkTime (fs : Links) (i : Nat) : Option Nat :=
  match fs i with
  | some (.dir t _) => some t
  | _ => none

end Verif.Spec
