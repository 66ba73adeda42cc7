import Verif.Model.Abort
import Verif.Spec.VocabLoader
/-!
# The user's directories when learning runs are killed or fail (C85)
-/
namespace Verif.Spec
open Verif

/-- The directories that are there after a run, however it ended. -/
def leftBy : Except (UserDir × Option PyErr) UserDir → UserDir
  | .ok h => h
  | .error e => e.1

/-- A run for the directory `d` does not give the identifier `id` away: the dataset has an identifier, or the user gives another one, or
the identifier is made from a name without characters that have a meaning in patterns, and without white space at its ends. -/
inductive NamesOther (u : Ucd) (h : UserDir) (d path : Str) (b : BpeConfig) (id : Str) : Option Str → Prop
  | has {g : Option Str} (x : CodesDir) (hx : x ∈ h.dirs) (hn : x.name = d) (i : Str) (hi : x.entry.codesId u = some i) (h0 : i ≠ []) :
      NamesOther u h d path b id g
  | given {g : Str} (hs : Storable u g) (hne : g ≠ id) : NamesOther u h d path b id (some g)
  | made {g : Option Str} (hg : g = none ∨ g = some []) (hs : Storable u (idBase path b)) (hn : NoSpecial (idBase path b)) :
      NamesOther u h d path b id g

/-- The identifier belongs to the dataset of the directory `c`: merges have been learnt, and no other directory has it. -/
structure Owns (u : Ucd) (h : UserDir) (c : CodesDir) (id : Str) : Prop where
  names : (h.dirs.map (·.name)).Nodup
  mem : c ∈ h.dirs
  has : c.entry.codesId u = some id
  nonempty : id ≠ []
  unique : ∀ x ∈ h.dirs, x.entry.codesId u = some id → x.name = c.name
  learnt : ∃ m ∈ c.subs, ∃ k : Nat, m.name = natStr k ∧ 1 ≤ k ∧ k ≤ sysMaxsize

/-- What may happen to the user's directories: runs for any datasets whose directories `P` allows, that finish, fail or are killed at
any point; any changes of vocabularies, except those in the directory `vd`; listings in another order. -/
inductive Attempts (u : Ucd) (id vd : Str) (P : Str → Prop) (h0 : UserDir) : UserDir → Prop
  | refl : Attempts u id vd P h0 h0
  | run {h : UserDir} (path dn : Str) (b : BpeConfig) (given : Option Str) (n : Int) (p : KillPoint) : Attempts u id vd P h0 h →
      P (bpeDirName dn (some b)) → NamesOther u h (bpeDirName dn (some b)) path b id given →
      Attempts u id vd P h0 (leftBy (h.learnUntil u path dn b given n p))
  | vocabs {h : UserDir} (vs : List VocabDir) : Attempts u id vd P h0 h →
      vs.find? (·.name = vd) = h.vocabs.find? (·.name = vd) → Attempts u id vd P h0 { h with vocabs := vs }
  | reorder {h : UserDir} (cs cs' : List CodesDir) : Attempts u id vd P h0 h → h.codes = some cs → cs'.Perm cs →
      Attempts u id vd P h0 { h with codes := some cs' }

end Verif.Spec
