import Verif.Model.Stages
import Verif.Spec.Exec
/-!
# What a stage of the pipeline promises
-/
namespace Verif.Stage
open Verif

/-- The directory has exactly the right files. -/
def Complete (results : List (Bytes × Str)) (w : World) : Prop := ((filesOf w.dir).map fun f => (f.name, f.content)).Perm results

/-- A change by a user that can be noticed: it is made between two calls, when the results are marked, later than the time of the mark
(at least in the next second); afterwards the directory is gone, or a file has the time of the change and there are not more than 1000
files. -/
def Noticeable (u v : World) : Prop :=
  u.pc = .off ∧ u.marker ≠ none ∧ (∀ t, u.marker = some (some t) → t < u.now) ∧
  (v.dir = none ∨ ((∃ f ∈ filesOf v.dir, f.mtime = u.now) ∧ (filesOf v.dir).length ≤ 1000))

/-- Calls, killed at any point, and changes that can be noticed. -/
def Careful (results : List (Bytes × Str)) (marks : Bool) (u v : World) : Prop :=
  CallStep results marks u v ∨ (UserStep u v ∧ Noticeable u v)

/-- Calls, killed at any point, and any changes. -/
def Any (results : List (Bytes × Str)) (marks : Bool) (u v : World) : Prop := CallStep results marks u v ∨ UserStep u v

/-- A file is there, in the directory or in the archive. -/
def Kept (w : World) (f : RFile) : Prop := f ∈ filesOf w.dir ∨ ∃ e ∈ w.archived, f ∈ e.2.files

end Verif.Stage
