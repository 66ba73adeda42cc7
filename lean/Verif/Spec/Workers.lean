import Verif.Model.Workers
import Verif.Spec.Exec
import Verif.Spec.FileList
/-!
# Specification for workers
-/
namespace Verif.Pool
open Verif

/-- The results have different names, and none of them ends like an unfinished file. -/
structure GoodJobs (jobs : List Job) : Prop where
  distinct : (jobs.map (·.dest)).Nodup
  notPart : ∀ j ∈ jobs, ¬ partExt <:+ j.dest

/-- A name in a directory that is not one of the two special ones. -/
def CleanName (n : Bytes) : Prop := Spec.PlainName n ∧ n ≠ [46] ∧ n ≠ [46, 46]

/-- What a scan gives for a file: the directories it is in, the dot if there are none, and its name. -/
def FoundAt (dirs : List Bytes) (name f : Bytes) : Prop := (∀ d ∈ dirs, CleanName d) ∧ CleanName name ∧
  f = if dirs = [] then 46 :: 47 :: name else joinSlash dirs ++ 47 :: name

/-- Files as a scan gives them, no file twice. -/
def GoodFiles (files : List Bytes) : Prop := files.Nodup ∧ ∀ f ∈ files, ∃ dirs name, FoundAt dirs name f

/-- There is a file at a path, with a content. -/
def Disk.Has (d : Disk) (p : Path) (s : Str) : Prop := ∃ i, d.dir p = some i ∧ d.data i = s

/-- What can be reached from an empty disk. -/
def Reachable (c : Setup) (jobs : List Job) (n : Nat) (w : World) : Prop := Spec.Star (Step c jobs n) World.init w

end Verif.Pool
