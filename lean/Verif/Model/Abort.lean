import Verif.Model.VocabLoader
/-!
# Model of a learning run that is killed or fails (`cli/impl.py` `handle_learnbpe`, `pipeline/bpelearner.py` `run`)
-/
namespace Verif

/-- The points at which a learning run can be killed, as far as the user's directories differ: after dataset.py 150-151, after
bperegistry.py 124 (the file with the identifier is there, but empty), before bpelearner.py 115 (nothing has been saved), and in
`save_results` (bpelearner.py 73-83).  `never`: the run is not killed.  Simplification: the identifier itself is written at once. -/
inductive KillPoint where
  | created
  | opened
  | named
  | saving (i : Nat) (j : Option Nat)
  | never
deriving DecidableEq, Repr

/-- A change of the directory `d` in `USER_BPE_DIR`. -/
def UserDir.update (h : UserDir) (d : Str) (f : CodesDir → CodesDir) : UserDir :=
  { h with codes := some (h.dirs.map fun x => if x.name = d then f x else x) }

/-- dataset.py 150-151: the directory of the dataset is created unless it exists. -/
def UserDir.create (h : UserDir) (d : Str) : UserDir := { h with codes := some (ensureCodes h.dirs d) }

/-- impl.py 56-60, dataset.py 249-251, bperegistry.py 122-125: the dataset gets an identifier unless it has one.  A run that ends
early leaves its directories and the exception, if it was not killed. -/
def UserDir.assignUntil (u : Ucd) (h : UserDir) (path : Str) (b : BpeConfig) (given : Option Str) (d : Str) (p : KillPoint) :
    Except (UserDir × Option PyErr) UserDir :=
  match h.dirs.find? (·.name = d) with
  | none => .error (h, some .fileNotFound)            -- never happens
  | some e => match e.entry.codesId u with
    | some (_ :: _) => .ok h
    | _ => match createNewId u (h.dirs.map CodesDir.entry) path b given with
      | .error x => .error (h, some x)
      | .ok id => if p = .opened then .error (h.update d fun x => { x with idFile := some [] }, none)
        else .ok (h.update d fun x => { x with idFile := some id })

/-- bpelearner.py 86-115 `run`, with the vocabularies left by the stages (line 97). -/
def UserDir.saveUntil (h : UserDir) (dn : Str) (b : BpeConfig) (n : Int) (d : Str) (p : KillPoint) :
    Except (UserDir × Option PyErr) UserDir :=
  match h.dirs.find? (·.name = d) with
  | none => .error (h, some .fileNotFound)            -- never happens
  | some e => match learnOnDisk b (h.disk e.subs (baseBpeVocabDirName dn b)) n with
    | .error x => .error (h, some x)
    | .ok none => .ok h
    | .ok (some m) => match p with
      | .saving i j => .error (h.update d fun x => { x with subs := x.subs ++ [m.cut i j] }, none)
      | _ => .ok (h.update d fun x => { x with subs := x.subs ++ [m] })

/-- impl.py 54-61: `handle_learnbpe` for a dataset whose directories are named after `dn`, killed at `p` if the run comes there. -/
def UserDir.learnUntil (u : Ucd) (h : UserDir) (path dn : Str) (b : BpeConfig) (given : Option Str) (n : Int) (p : KillPoint) :
    Except (UserDir × Option PyErr) UserDir := do
  let d := bpeDirName dn (some b)
  let h := h.create d
  if p = .created then .error (h, none)
  let h ← h.assignUntil u path b given d p
  if p = .named then .error (h, none)
  h.saveUntil dn b n d p

end Verif
