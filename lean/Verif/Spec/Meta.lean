import Verif.Model.Tokens
/-!
# Specification of preprocessing metadata

A preprocessed text is a list of full tokens, each with its subtokens.  The flat list of subtokens and the boundaries
are a way of writing this list down.
-/
namespace Verif.Spec
open Verif

/-- The positions at which consecutive groups start, if the first one starts at position `n`, and the end position. -/
def boundsFrom {α : Type} (n : Nat) : List (List α) → List Nat
  | [] => [n]
  | g :: r => n :: boundsFrom (n + g.length) r

/-- One full token: its type, its subtokens, and those of them that must not be processed further. -/
structure FullTok where
  ty : Ty
  subs : List Str
  nonproc : List Str
deriving DecidableEq, Repr

/-- The elements of a list without repetitions, in the order of their first occurrence. -/
def distinct (l : List Str) : List Str := l.foldl (fun acc x => if x ∈ acc then acc else acc ++ [x]) []

/-- The flat form of a list of full tokens. -/
def flatForm (us : List FullTok) : List Str × Meta :=
  ((us.map (·.subs)).flatten,
   { nonproc := distinct (us.flatMap (·.nonproc))
     bounds := boundsFrom 0 (us.map (·.subs))
     types := us.map (·.ty) })

/-- Metadata that fits a list of `n` subtokens. -/
structure WellFormed (n : Nat) (md : Meta) : Prop where
  starts : md.bounds.head? = some 0
  ends : md.bounds.getLast? = some n
  nondecreasing : md.bounds.Pairwise (· ≤ ·)
  types : md.types.length + 1 = md.bounds.length

end Verif.Spec
