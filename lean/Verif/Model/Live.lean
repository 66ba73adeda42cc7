import Verif.Model.Corpus
/-!
# Model of a corpus that changes while it is preprocessed (`codeprep/pipeline/stages.py`, `codeprep/pipeline/dataset.py`)

All that is kept for a dataset lies in directories whose names have the modification time of the dataset in them.  Here the dataset can be
changed in any way at any time, also while a call runs; a call can be killed between any two accesses to the disk, and calls are made one
after another.  Nobody else changes the directories with results, so a directory with a complete marker is up-to-date and one with an
incomplete marker is not (`Verif.Model.Stages` compares the times).  The files of the dataset lie directly in its directory and are not links.
All calls are made without extensions (C44).  A list of files is made at
once, and a result appears at once.
-/
namespace Verif.Live
open Verif Stage

/-- dataset.py 295-298 `set_path_ready`: there is no marker, it is still empty, or it is complete. -/
inductive Mark where
  | no
  | cut
  | full
deriving DecidableEq, Repr

/-- A directory with results and its marker. -/
structure Place where
  results : List (Bytes × Str)
  mark : Mark
deriving DecidableEq, Repr

/-- What is kept for one time of the dataset (dataset.py 174-178 `get_dataset_dir_name`): the marked list of files (254-255), the parsed files
(188-189) and the results (197-205) by their directories, whose names are given by the output directory and the configuration. -/
structure Cache where
  list : Option (List Bytes)
  parsed : Place
  prep : Str → Place

/-- A call: the time of the dataset when it began (dataset.py 103), the directory with the results, `not suppress_caching`. -/
structure Call where
  time : Nat
  out : Str
  caching : Bool
deriving DecidableEq, Repr

/-- Where a call is: nowhere; in each of the two stages: before looking at the marker, before listing the files, with files that have
not been looked at, before opening the marker, before writing it; at the end, or after an exception. -/
inductive Pc where
  | off
  | parse (c : Call)
  | parseList (c : Call)
  | parsing (c : Call) (todo : List Bytes)
  | parseMark (c : Call)
  | parseStamp (c : Call)
  | prep (c : Call)
  | prepList (c : Call)
  | prepping (c : Call) (todo : List Bytes)
  | prepMark (c : Call)
  | prepStamp (c : Call)
  | returned (c : Call)
  | raised (c : Call) (e : PyErr)
deriving DecidableEq, Repr

/-- The dataset, what is kept by times, the call. -/
structure World where
  src : RDir
  cache : Nat → Cache
  pc : Pc

/-- The parsed files of the time of a call. -/
def World.parsed (w : World) (c : Call) : Place := (w.cache c.time).parsed

/-- The results of a call. -/
def World.prep (w : World) (c : Call) : Place := (w.cache c.time).prep c.out

/-- The directory of the parsed files is changed. -/
def World.putParsed (w : World) (c : Call) (p : Place) (pc : Pc) : World :=
  { w with cache := Corpus.upd w.cache c.time { w.cache c.time with parsed := p }, pc := pc }

/-- The directory with the results is changed. -/
def World.putPrep (w : World) (c : Call) (p : Place) (pc : Pc) : World :=
  { w with cache := Corpus.upd w.cache c.time { w.cache c.time with prep := Corpus.upd (w.cache c.time).prep c.out p }, pc := pc }

/-- dataset.py 261-276 `get_all_files`: the marked list, or the names of the files that are there. -/
def World.names (w : World) (c : Call) : List Bytes :=
  match (w.cache c.time).list with
  | some l => l
  | none => w.src.files.map (·.name)

/-- dataset.py 265-272: the list is saved and marked unless caching is suppressed. -/
def World.putList (w : World) (c : Call) (pc : Pc) : World :=
  { w with
    cache := if c.caching then Corpus.upd w.cache c.time { w.cache c.time with list := some (w.names c) } else w.cache
    pc := pc }

/-- What a name leads to in a list of files. -/
def lookup (n : Bytes) (l : List (Bytes × Str)) : Option Str := (l.find? (·.1 = n)).map (·.2)

/-- The contents of a file of the dataset. -/
def contentOf (n : Bytes) (d : RDir) : Option Str := (d.files.find? (·.name = n)).map (·.content)

/-- One step of a call.  `parse` is what is made of a file with a name and contents, `repr` what is then made of it for a directory. -/
inductive Step (parse : Bytes → Str → Str) (repr : Str → Str → Str) : World → World → Prop where
  /-- corpus.py 225-236, dataset.py 103: a call begins. -/
  | begin {w : World} {t : Nat} (out : Str) (caching : Bool) (h : w.pc = .off) (ht : timestamp w.src = .ok t) :
      Step parse repr w { w with pc := .parse ⟨t, out, caching⟩ }
  /-- stages.py 26-27. -/
  | parseFound {w : World} {c : Call} (h : w.pc = .parse c) (hm : (w.parsed c).mark = .full) : Step parse repr w { w with pc := .prep c }
  /-- stages.py 21-22. -/
  | parseRun {w : World} {c : Call} (h : w.pc = .parse c) (hm : (w.parsed c).mark = .no) : Step parse repr w { w with pc := .parseList c }
  /-- stages.py 23-25, dataset.py 318-324. -/
  | parseArchive {w : World} {c : Call} (h : w.pc = .parse c) (hm : (w.parsed c).mark = .cut) :
      Step parse repr w (w.putParsed c ⟨[], .no⟩ (.parseList c))
  /-- parse_projects.py 58-70. -/
  | parseListed {w : World} {c : Call} (h : w.pc = .parseList c) : Step parse repr w (w.putList c (.parsing c (w.names c)))
  /-- parse_projects.py 29-31: the result is there. -/
  | parseSkip {w : World} {c : Call} {n : Bytes} {a b : List Bytes} (h : w.pc = .parsing c (a ++ n :: b))
      (hn : n ∈ (w.parsed c).results.map (·.1)) : Step parse repr w { w with pc := .parsing c (a ++ b) }
  /-- parse_projects.py 33-45: the file is read and parsed. -/
  | parseFile {w : World} {c : Call} {n : Bytes} {a b : List Bytes} {x : Str} (h : w.pc = .parsing c (a ++ n :: b))
      (hn : n ∉ (w.parsed c).results.map (·.1)) (hx : contentOf n w.src = some x) :
      Step parse repr w (w.putParsed c ⟨(w.parsed c).results ++ [(n, parse n x)], (w.parsed c).mark⟩ (.parsing c (a ++ b)))
  /-- parse_projects.py 37-40: the file is not there any more. -/
  | parseGone {w : World} {c : Call} {n : Bytes} {a b : List Bytes} (h : w.pc = .parsing c (a ++ n :: b))
      (hn : n ∉ (w.parsed c).results.map (·.1)) (hx : contentOf n w.src = none) :
      Step parse repr w { w with pc := .parsing c (a ++ b) }
  /-- parse_projects.py 71-73. -/
  | parseDone {w : World} {c : Call} (h : w.pc = .parsing c []) :
      Step parse repr w { w with pc := if c.caching then .parseMark c else .prep c }
  /-- dataset.py 296-297. -/
  | parseMark {w : World} {c : Call} (h : w.pc = .parseMark c) :
      Step parse repr w (w.putParsed c ⟨(w.parsed c).results, .cut⟩ (.parseStamp c))
  /-- dataset.py 298. -/
  | parseStamp {w : World} {c : Call} (h : w.pc = .parseStamp c) :
      Step parse repr w (w.putParsed c ⟨(w.parsed c).results, .full⟩ (.prep c))
  /-- stages.py 38-39. -/
  | prepFound {w : World} {c : Call} (h : w.pc = .prep c) (hm : (w.prep c).mark = .full) : Step parse repr w { w with pc := .returned c }
  /-- stages.py 33-34. -/
  | prepRun {w : World} {c : Call} (h : w.pc = .prep c) (hm : (w.prep c).mark = .no) : Step parse repr w { w with pc := .prepList c }
  /-- stages.py 35-37, dataset.py 318-324. -/
  | prepArchive {w : World} {c : Call} (h : w.pc = .prep c) (hm : (w.prep c).mark = .cut) :
      Step parse repr w (w.putPrep c ⟨[], .no⟩ (.prepList c))
  /-- to_repr.py 118-122, 151-169. -/
  | prepListed {w : World} {c : Call} (h : w.pc = .prepList c) : Step parse repr w (w.putList c (.prepping c (w.names c)))
  /-- to_repr.py 67-69: the result is there. -/
  | prepSkip {w : World} {c : Call} {n : Bytes} {a b : List Bytes} (h : w.pc = .prepping c (a ++ n :: b))
      (hn : n ∈ (w.prep c).results.map (·.1)) : Step parse repr w { w with pc := .prepping c (a ++ b) }
  /-- to_repr.py 71-81: the parsed file is read. -/
  | prepFile {w : World} {c : Call} {n : Bytes} {a b : List Bytes} {x : Str} (h : w.pc = .prepping c (a ++ n :: b))
      (hn : n ∉ (w.prep c).results.map (·.1)) (hx : lookup n (w.parsed c).results = some x) :
      Step parse repr w (w.putPrep c ⟨(w.prep c).results ++ [(n, repr c.out x)], (w.prep c).mark⟩ (.prepping c (a ++ b)))
  /-- to_repr.py 72: there is no parsed file. -/
  | prepMissing {w : World} {c : Call} {n : Bytes} {a b : List Bytes} (h : w.pc = .prepping c (a ++ n :: b))
      (hn : n ∉ (w.prep c).results.map (·.1)) (hx : lookup n (w.parsed c).results = none) :
      Step parse repr w { w with pc := .raised c .fileNotFound }
  /-- to_repr.py 163-175. -/
  | prepDone {w : World} {c : Call} (h : w.pc = .prepping c []) : Step parse repr w { w with pc := .prepMark c }
  /-- dataset.py 296-297. -/
  | prepMark {w : World} {c : Call} (h : w.pc = .prepMark c) :
      Step parse repr w (w.putPrep c ⟨(w.prep c).results, .cut⟩ (.prepStamp c))
  /-- dataset.py 298. -/
  | prepStamp {w : World} {c : Call} (h : w.pc = .prepStamp c) :
      Step parse repr w (w.putPrep c ⟨(w.prep c).results, .full⟩ (.returned c))
  /-- The call is over, or it is killed. -/
  | exit {w : World} : Step parse repr w { w with pc := .off }

/-- Nothing has been computed for a time. -/
def Cache.init : Cache := ⟨none, ⟨[], .no⟩, fun _ => ⟨[], .no⟩⟩

/-- Nothing has been computed. -/
def World.init (src : RDir) : World := ⟨src, fun _ => .init, .off⟩

end Verif.Live
