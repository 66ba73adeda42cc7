import Verif.Model.Files
/-!
# Model of the lists of files (`codeprep/dirutils.py`, `codeprep/fileutils.py`, `codeprep/pipeline/dataset.py`)

File names are byte strings.  The result of `os.walk` is an arbitrary list here; `Model/Walk` models it.
-/
namespace Verif

/-- A Python `bytes`. -/
abbrev Bytes := List UInt8

/-- `s.encode()`. -/
def encodeUtf8 (s : Str) : Bytes := s.flatMap String.utf8EncodeChar

/-! ## `repr` of byte strings -/

/-- CPython's `PyBytes_Repr`: the quote. -/
def reprQuote (b : Bytes) : Char := if 39 ∈ b ∧ 34 ∉ b then '"' else '\''

/-- CPython's `PyBytes_Repr`: one byte. -/
def reprByte (q : Char) (b : UInt8) : Str :=
  let n := b.toNat
  if n = q.toNat ∨ n = 92 then ['\\', Char.ofNat n]
  else if n = 9 then ['\\', 't']
  else if n = 10 then ['\\', 'n']
  else if n = 13 then ['\\', 'r']
  else if n < 32 ∨ 127 ≤ n then '\\' :: 'x' :: hexN 2 n
  else [Char.ofNat n]

/-- `repr(b)`, which is also `f'{b}'`. -/
def bytesRepr (b : Bytes) : Str := 'b' :: reprQuote b :: (b.flatMap (reprByte (reprQuote b)) ++ [reprQuote b])

/-! ## `ast.literal_eval` of bytes literals -/

/-- What follows a backslash in a bytes literal: the bytes and the rest of the input. -/
def bytesEscape : Str → Option (Bytes × Str)
  | [] => none
  | c :: r =>
    if c = '\n' then some ([], r)
    else if c = '\\' then some ([92], r)
    else if c = '\'' then some ([39], r)
    else if c = '"' then some ([34], r)
    else if c = 'b' then some ([8], r)
    else if c = 'f' then some ([12], r)
    else if c = 't' then some ([9], r)
    else if c = 'n' then some ([10], r)
    else if c = 'r' then some ([13], r)
    else if c = 'v' then some ([11], r)
    else if c = 'a' then some ([7], r)
    else if c = 'x' then (takeHex 2 0 r).map fun e => ([UInt8.ofNat e.1], e.2)
    else match octVal c with
      | some v =>
        let e := takeOct 2 v r
        some ([UInt8.ofNat (e.1 % 256)], e.2)
      | none => if c.toNat < 128 then some ([92, UInt8.ofNat c.toNat], r) else none

/-- The body of a bytes literal up to the quote `q`: the bytes and what follows the quote.  Every round consumes at least one
character, so the length of the input is enough fuel. -/
def bytesBody (q : Char) : Nat → Str → Except PyErr (Bytes × Str)
  | _, [] => .error .syntaxError
  | 0, _ :: _ => .error .outOfFuel
  | n + 1, c :: r =>
    if c = q then .ok ([], r)
    else if c = '\\' then
      match bytesEscape r with
      | none => .error .syntaxError
      | some (d, r') => do
        let t ← bytesBody q n r'
        .ok (d ++ t.1, t.2)
    else if c = '\n' ∨ 128 ≤ c.toNat then .error .syntaxError
    else do
      let t ← bytesBody q n r
      .ok (UInt8.ofNat c.toNat :: t.1, t.2)

/-- `ast.literal_eval(line)` for a bytes literal `b'...'` or `b"..."`, possibly followed by white space.  Other expressions, which
Python would evaluate, are rejected by the model: they are never written. -/
def literalEvalBytes : Str → Except PyErr Bytes
  | 'b' :: q :: r =>
    if q = '\'' ∨ q = '"' then do
      let t ← bytesBody q r.length r
      if t.2.all fun c => c = ' ' || c = '\t' || c = '\n' then .ok t.1 else .error .syntaxError
    else .error .syntaxError
  | _ => .error .syntaxError

/-! ## Extensions -/

/-- Comparing strings as Python does: by code points. -/
def strLe : Str → Str → Bool
  | [], _ => true
  | _ :: _, [] => false
  | a :: s, b :: t => if a.toNat < b.toNat then true else if b.toNat < a.toNat then false else strLe s t

/-- Insertion into a sorted list. -/
def insertStr (x : Str) : List Str → List Str
  | [] => [x]
  | y :: r => if strLe x y then x :: y :: r else y :: insertStr x r

/-- `sorted(strings)`. -/
def sortStr : List Str → List Str
  | [] => []
  | x :: r => insertStr x (sortStr r)

/-- `set(strings)`, in some order. -/
def dedup : List Str → List Str
  | [] => []
  | x :: r => if x ∈ r then dedup r else x :: dedup r

/-- dataset.py 327-346 `normalize_extension_string`.  An empty string is returned as it is; like `None` it is false later on,
so the model returns `none` for it. -/
def normalizeExtensions : Option Str → Option (List Str)
  | none => none
  | some [] => none
  | some (c :: s) => some (sortStr (dedup (pySplit '|' (c :: s))))

/-- `name.endswith(suffix)` for byte strings. -/
def bytesEndsWith (name suf : Bytes) : Bool := suf.reverse.isPrefixOf name.reverse

/-- fileutils.py 12-33 `has_one_of_extensions`; 46 is the dot. -/
def hasOneOfExtensions (name : Bytes) : List Bytes → Bool
  | [] => false
  | ext :: r => if bytesEndsWith name (46 :: ext) then true else hasOneOfExtensions name r

/-! ## Lists of files -/

/-- `os.path.join(a, b)`; 47 is the slash. -/
def joinPath (a b : Bytes) : Bytes :=
  if b.head? = some 47 then b else if a = [] ∨ a.getLast? = some 47 then a ++ b else a ++ 47 :: b

/-- What is found in a directory: its path relative to the root, the directories, and the files with `os.path.islink`. -/
structure WalkEntry where
  root : Bytes
  dirs : List Bytes
  files : List (Bytes × Bool)

/-- What is scanned: a file with a base name, or directories in the order of `os.walk`. -/
inductive Scanned where
  | file (base : Bytes)
  | dir (entries : List WalkEntry)

/-- dirutils.py 31, 48-49: the condition for a file; `not extensions` also holds for an empty list. -/
def selected (exts : Option (List Str)) (name : Bytes) (islink : Bool) : Bool :=
  (match exts with
   | none => true
   | some [] => true
   | some (e :: es) => hasOneOfExtensions name ((e :: es).map encodeUtf8)) && !islink

/-- What a scan gives: what is yielded and what is written to the list of directories and to the list of files. -/
structure ScanResult where
  yielded : List Bytes
  dirList : Str
  fileList : Str

/-- dirutils.py 39-52: one directory. -/
def scanEntry (returnDirs : Bool) (exts : Option (List Str)) (e : WalkEntry) : ScanResult :=
  let ds := e.dirs.map (joinPath e.root)
  let fs := (e.files.filter fun f => selected exts (joinPath e.root f.1) f.2).map fun f => joinPath e.root f.1
  ⟨(if returnDirs then ds else []) ++ (if returnDirs then [] else fs),
    concat (ds.map fun n => bytesRepr n ++ ['\n']), concat (fs.map fun n => bytesRepr n ++ ['\n'])⟩

/-- dirutils.py 27-52 `walk_and_save`. -/
def walkAndSave (returnDirs : Bool) (exts : Option (List Str)) : Scanned → ScanResult
  | .file base => ⟨if returnDirs then [] else [base], [], bytesRepr base ++ ['\n']⟩
  | .dir entries =>
    let rs := entries.map (scanEntry returnDirs exts)
    ⟨(rs.map (·.yielded)).flatten, concat (rs.map (·.dirList)), concat (rs.map (·.fileList))⟩

/-- dataset.py 274-276: reading a list of files. -/
def readFileList (text : Str) : Except PyErr (List Bytes) := (readLines text).mapM literalEvalBytes

/-! ## Saved lists -/

/-- The folder with the saved lists: when it was last modified and its two files. -/
structure ListFolder where
  mtime : Nat
  dirText : Str
  fileText : Str

/-- What is saved for a dataset: the folder and the time in the `.lastmodif` file next to it.  A time is what `get_timestamp`
gives, so it counts seconds. -/
structure ListCache where
  folder : Option ListFolder
  marker : Option Nat

/-- dataset.py 265-272: scanning at the time `now`, saving the lists, marking them as ready. -/
def scanAndSave (now : Nat) (suppressCaching returnDirs : Bool) (exts : Option (List Str)) (sc : Scanned) (c : ListCache) :
    List Bytes × ListCache :=
  let r := walkAndSave returnDirs exts sc
  (r.yielded, ⟨some ⟨now, r.dirList, r.fileList⟩, if suppressCaching then c.marker else some now⟩)

/-- dataset.py 261-276 `get_all_files`, with `files_need_to_be_saved`, `is_path_ready` and `is_path_outdated` (286-287, 301-315).
The generator is run to its end at the time `now`. -/
def getAllFiles (now : Nat) (suppressCaching returnDirs : Bool) (exts : Option (List Str)) (sc : Scanned) (c : ListCache) :
    Except PyErr (List Bytes) × ListCache :=
  match c.folder, c.marker with
  | some f, some m =>
    if m = f.mtime then (readFileList (if returnDirs then f.dirText else f.fileText), c)
    else ((scanAndSave now suppressCaching returnDirs exts sc c).map .ok id)
  | _, _ => (scanAndSave now suppressCaching returnDirs exts sc c).map .ok id

/-- The same generator, when the program crashes at the time `now` before the lists are marked: if a scan was necessary, only
the first `nd` and `nf` characters of the lists reach the disk. -/
def getAllFilesCrash (now nd nf : Nat) (returnDirs : Bool) (exts : Option (List Str)) (sc : Scanned) (c : ListCache) : ListCache :=
  let r := walkAndSave returnDirs exts sc
  let crashed : ListCache := ⟨some ⟨now, r.dirList.take nd, r.fileList.take nf⟩, c.marker⟩
  match c.folder, c.marker with
  | some f, some m => if m = f.mtime then c else crashed
  | _, _ => crashed

/-! ## Last modification -/

/-- What `os.walk` finds in a directory, with the modification times of the directories, and of the files unless they are
links. -/
structure TimedEntry where
  dirs : List Nat
  files : List (Option Nat)

/-- dirutils.py 63-66: the directories of one entry.  `none` in the first component: the limit was reached. -/
def timesDirs (limit : Nat) : Nat → List Nat → List Nat × Option Nat
  | n, [] => ([], some n)
  | n, t :: r => if limit ≤ n then ([], none) else let e := timesDirs limit (n + 1) r; (t :: e.1, e.2)

/-- dirutils.py 68-74: the files of one entry. -/
def timesFiles (limit : Nat) : Nat → List (Option Nat) → List Nat × Option Nat
  | n, [] => ([], some n)
  | n, f :: r =>
    if limit ≤ n then ([], none)
    else match f with
      | none => timesFiles limit n r
      | some t => let e := timesFiles limit (n + 1) r; (t :: e.1, e.2)

/-- dirutils.py 62-74: all entries. -/
def timesWalk (limit : Nat) : Nat → List TimedEntry → List Nat
  | _, [] => []
  | n, e :: r =>
    match timesDirs limit n e.dirs with
    | (ts, none) => ts
    | (ts, some n') => match timesFiles limit n' e.files with
      | (us, none) => ts ++ us
      | (us, some n'') => ts ++ us ++ timesWalk limit n'' r

/-- dirutils.py 55-77 `get_dir_last_modification` of a directory that is not empty; `max` of nothing is a `ValueError`. -/
def dirLastModification (limit : Nat) (es : List TimedEntry) : Except PyErr Nat :=
  match (timesWalk limit 0 es).max? with
  | none => .error .valueError
  | some t => .ok t

end Verif
