import Verif.Model.Cli
import Verif.Spec.Api
/-!
# Specification of the command line
-/
namespace Verif.Spec
open Verif

/-- What the user of the command line sees of the result of a function of the API: the result is shown; an id of codes that is not valid
is logged; every other error is an error of the command. -/
inductive Shows {α : Type} (out : α → SplitOutcome) : Except PyErr α → SplitOutcome → Prop where
  | result (x : α) : Shows out (.ok x) (out x)
  | invalid : Shows out (.error .invalidBpeCodesId) .logged
  | error (e : PyErr) (h : e ≠ .invalidBpeCodesId) : Shows out (.error e) (.raised e)

/-- From a directory (the names on the way from the root) to one of its neighbours. -/
def go (pos : List Str) (name : Str) : List Str :=
  if name = [] ∨ name = ['.'] then pos
  else if name = ['.', '.'] then pos.dropLast
  else pos ++ [name]

/-- Where a path leads, from a directory.  (Symbolic links are not followed.) -/
def walk (pos : List Str) (path : Str) : List Str := (pySplit '/' path).foldl go pos

/-- The place that a path means for a process in the directory `cwd`. -/
def place (cwd path : Str) : List Str :=
  if path.head? = some '/' then walk [] path else walk (walk [] cwd) path

/-- Paths that begin with two slashes, but not with three, are special in POSIX. -/
def TwoSlashes (path : Str) : Prop := ∃ r, path = '/' :: '/' :: r ∧ r.head? ≠ some '/'

/-- The plain name of a place. -/
def spell (pos : List Str) : Str := '/' :: pyJoin ['/'] pos

end Verif.Spec
