import Verif.Model.Source
import Verif.Model.Walk
import Verif.Model.Gather
/-!
# Model of the way from the files of a dataset to the results

The list of files (`Verif.Model.Walk`), the workers (`Verif.Model.Workers`) and what is in one file (`Verif.Model.Source`) put together:
`run` in `codeprep/pipeline/parse_projects.py` and in `codeprep/pipeline/to_repr.py` for a dataset.  Files do not change meanwhile.
Simplification: every file finds the merges as they were loaded; this is so unless a worker needs a cached word twice (`Verif.Model.Wear`).
-/
namespace Verif.Whole
open Verif Verif.Pool Verif.Source

/-- `pickle.dump` and `pickle.load` of lists of tokens, with gzip (parse_projects.py 34, 43, to_repr.py 72, 73); `none` is an exception. -/
structure Pickler where
  dump : List Tok → Str
  load : Str → Option (List Tok)

/-- parse_projects.py 34-43: what comes out for the file at the path `src`; `read` says what is in the files, `none` if there is no file. -/
def parseRes (u : Ucd) (L : Lexers) (pk : Pickler) (read : Bytes → Option Bytes) (src : Bytes) : Res :=
  match parseFile u L src (read src) with
  | .error _ => .fails
  | .ok none => .missing
  | .ok (some ts) => .ok (pk.dump ts) []

/-- to_repr.py 72-79: what comes out for a parsed file; the tokens of the set are saved in any order, here in that of the list. -/
def reprRes (env : Env) (c : PrepConfig) (bd : Option BpeData) (pk : Pickler) (content : Str) : Res :=
  match pk.load content with
  | none => .fails
  | some ts =>
    match toRepr env c (ts ++ [.specialToken Ph.ect]) bd with
    | .error _ => .fails
    | .ok r => .ok (prepText r.1) (dumpTokenSet r.2.nonproc)

/-- The list of files of a directory with the entries `es`: dataset.py 257-278. -/
def listing (fs : Tree.Links) (links : Nat) (es : Tree.Entries) (exts : Option (List Str)) : List Bytes :=
  (walkAndSave false exts (Tree.scan fs links es)).yielded

/-- parse_projects.py 48-51 for a directory at `top`: dataset.py 61 joins the path with the files of the list. -/
def parseAll (u : Ucd) (L : Lexers) (pk : Pickler) (read : Bytes → Option Bytes) (top : Bytes) (files : List Bytes) : List Job :=
  parseJobs (fun f => parseRes u L pk read (joinPath top (iterName [] f))) files

/-- to_repr.py 118-121 for the parsed files. -/
def reprAll (env : Env) (c : PrepConfig) (bd : Option BpeData) (pk : Pickler) (parsed : Disk) (files : List Bytes) : List Job :=
  reprJobs (reprRes env c bd pk) parsed files

/-- parse_projects.py 48-51 if the dataset is a single file: dataset.py 58-59 and 65-67; the list has the name of the file (dirutils.py 34-37). -/
def parseSingle (u : Ucd) (L : Lexers) (pk : Pickler) (read : Bytes → Option Bytes) (path : Bytes) : List Job :=
  [⟨lastPart path ++ parsedExt, parseRes u L pk read path⟩]

/-- stages.py 46, 49, 63, 68 and corpus.py 38: the texts that are counted, or read, later; dataset.py 54-61. -/
def resultTexts (d : Disk) (files : List Bytes) : List (Option Str) :=
  files.map fun f => (d.dir (.out (normRel (iterName prepExt f)))).map d.data

end Verif.Whole
