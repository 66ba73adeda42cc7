import Verif.Model.Live
/-!
# What is promised for a dataset that changes
-/
namespace Verif.Live
open Verif Stage

/-- A directory has every name once. -/
def Proper (d : RDir) : Prop := (d.files.map (·.name)).Nodup

/-- What a call should leave for a dataset: for each file what is made of its contents. -/
def expected (parse : Bytes → Str → Str) (repr : Str → Str → Str) (out : Str) (d : RDir) : List (Bytes × Str) :=
  d.files.map fun f => (f.name, repr out (parse f.name f.content))

/-- The histories: calls that can be killed, and any changes of the dataset at any time, also during calls.  `past` are all the datasets
that there were, the last one first. -/
inductive History (parse : Bytes → Str → Str) (repr : Str → Str → Str) : List RDir → World → Prop where
  | init {d : RDir} (hd : Proper d) : History parse repr [d] (.init d)
  | step {past : List RDir} {w w' : World} (h : History parse repr past w) (hs : Step parse repr w w') : History parse repr past w'
  | change {past : List RDir} {w : World} {d : RDir} (h : History parse repr past w) (hd : Proper d) :
      History parse repr (d :: past) { w with src := d }

/-- No two of the datasets have the same time: a changed dataset gets a time that it never had before. -/
def Noticed (past : List RDir) : Prop := (past.map timestamp).Nodup

/-- Every dataset has at most 1000 files and a file that is newer than all files there were before. -/
def Newer : List RDir → Prop
  | [] => True
  | d :: past => d.files.length ≤ 1000 ∧ (∃ f ∈ d.files, ∀ p ∈ past, ∀ g ∈ p.files, g.mtime < f.mtime) ∧ (∀ p ∈ past, p.files ≠ []) ∧
      Newer past

/-- Steps of calls, without changes of the dataset. -/
inductive Steps (parse : Bytes → Str → Str) (repr : Str → Str → Str) : World → World → Prop where
  | refl {w : World} : Steps parse repr w w
  | tail {u v w : World} (h : Steps parse repr u v) (hs : Step parse repr v w) : Steps parse repr u w

/-- Steps of calls and changes of the dataset. -/
inductive Later (parse : Bytes → Str → Str) (repr : Str → Str → Str) : World → World → Prop where
  | refl {w : World} : Later parse repr w w
  | step {u v w : World} (h : Later parse repr u v) (hs : Step parse repr v w) : Later parse repr u w
  | change {u v : World} {d : RDir} (h : Later parse repr u v) (hd : Proper d) : Later parse repr u { v with src := d }

end Verif.Live
