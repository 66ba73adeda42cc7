import Verif.Model.Cli
/-!
# Model of the command line (`codeprep/cli/spec.py`)

The usage texts of spec.py are read by docopt 0.6.2, which is not part of the repository.  Here they are data: for each command a table of
options and a usage pattern.  What docopt does with the words of a command line (`parse_argv`, `parse_long`, `parse_shorts`, and the methods
`match` of its patterns) is modelled as it is published.  An option that is not in the table is never part of the usage, therefore the
program ends, with an error or the text of the help; so it does if a word in front of the command is an option of docopt-subcommands.
-/
namespace Verif.Docopt

/-- The description of an option in a usage text: the short and the long form, and whether it has an argument. -/
structure OptDef where
  short : Option Char
  long : Str
  hasArg : Bool
deriving DecidableEq, Repr

/-- What docopt makes of the words of a command line: positional arguments, and options with their values. -/
inductive Item where
  | arg (v : Str)
  | opt (name : Str) (value : Option Str)
deriving DecidableEq, Repr

/-- `str.partition('=')`: what is in front of the first `=`, and what follows it. -/
def partitionEq (s : Str) : Str × Option Str :=
  (s.takeWhile (· ≠ '='), match s.dropWhile (· ≠ '=') with
    | [] => none
    | _ :: v => some v)

/-- docopt `parse_long`: the options with this long form, or otherwise those whose long form begins with it. -/
def findLong (t : List OptDef) (l : Str) : List OptDef :=
  match t.filter (·.long = l) with
  | [] => t.filter fun d => l.isPrefixOf d.long
  | ds => ds

/-- The next word as the argument of an option; `--` and the end of the command line are refused. -/
def argument : List Str → Option Str
  | [] => none
  | v :: _ => if v = "--".toList then none else some v

/-- docopt `parse_long`; `rest` are the words that follow.  The second result says whether the first of them is used as an argument. -/
def parseLong (t : List OptDef) (tok : Str) (rest : List Str) : Option (Item × Bool) :=
  match findLong t (partitionEq tok).1 with
  | [d] =>
    match d.hasArg, (partitionEq tok).2 with
    | false, none => some (.opt d.long none, false)
    | false, some _ => none
    | true, some v => some (.opt d.long (some v), false)
    | true, none => (argument rest).map fun v => (.opt d.long (some v), true)
  | _ => none

/-- docopt `parse_shorts`, for the characters after the dash. -/
def parseShorts (t : List OptDef) (rest : List Str) : Str → Option (List Item × Bool)
  | [] => some ([], false)
  | c :: r =>
    match t.filter (·.short = some c) with
    | [d] =>
      if d.hasArg then
        match r with
        | [] => (argument rest).map fun v => ([.opt d.long (some v)], true)
        | _ => some ([.opt d.long (some r)], false)
      else (parseShorts t rest r).map fun p => (.opt d.long none :: p.1, p.2)
    | _ => none

/-- docopt `parse_argv`. -/
def parseArgv (t : List OptDef) : List Str → Option (List Item)
  | [] => some []
  | tok :: rest =>
    if tok = "--".toList then some ((tok :: rest).map .arg)
    else if "--".toList.isPrefixOf tok then
      match parseLong t tok rest with
      | none => none
      | some (i, false) => (parseArgv t rest).map (i :: ·)
      | some (i, true) => match rest with
        | [] => none
        | _ :: rest' => (parseArgv t rest').map (i :: ·)
    else if tok.head? = some '-' ∧ tok ≠ ['-'] then
      match parseShorts t rest tok.tail with
      | none => none
      | some (is, false) => (parseArgv t rest).map (is ++ ·)
      | some (is, true) => match rest with
        | [] => none
        | _ :: rest' => (parseArgv t rest').map (is ++ ·)
    else (parseArgv t rest).map (.arg tok :: ·)

/-- The usage patterns of docopt.  `[a b]` is `[a] [b]` for docopt (`Optional.match`). -/
inductive Usage where
  | command (name : Str)
  | argument (name : Str)
  | option (name : Str)
  | seq (a b : Usage)
  | optional (a : Usage)
  | either (a b : Usage)

/-- docopt `Argument.single_match`: the first positional argument, and what is left. -/
def takeArg : List Item → Option (Str × List Item)
  | [] => none
  | .arg v :: r => some (v, r)
  | .opt n v :: r => (takeArg r).map fun p => (p.1, .opt n v :: p.2)

/-- docopt `Option.single_match`: the first option with this name, and what is left. -/
def takeOpt (n : Str) : List Item → Option (Option Str × List Item)
  | [] => none
  | .arg v :: r => (takeOpt n r).map fun p => (p.1, .arg v :: p.2)
  | .opt m v :: r => if m = n then some (v, r) else (takeOpt n r).map fun p => (p.1, .opt m v :: p.2)

/-- What has been collected: names with values; a command or an option without argument has no value. -/
abbrev Found := List (Str × Option Str)

/-- docopt `match`: what is left and what has been collected.  Of two alternatives the one that leaves less is taken. -/
def Usage.run : Usage → List Item × Found → Option (List Item × Found)
  | .command n, s => (takeArg s.1).bind fun p => if p.1 = n then some (p.2, s.2 ++ [(n, none)]) else none
  | .argument n, s => (takeArg s.1).map fun p => (p.2, s.2 ++ [(n, some p.1)])
  | .option n, s => (takeOpt n s.1).map fun p => (p.2, s.2 ++ [(n, p.1)])
  | .seq a b, s => (a.run s).bind b.run
  | .optional a, s => match a.run s with
    | none => some s
    | some s' => some s'
  | .either a b, s => match a.run s, b.run s with
    | some x, some y => if y.1.length < x.1.length then some y else some x
    | some x, none => some x
    | none, r => r

/-- docopt `docopt`: everything has to be used. -/
def docopt (t : List OptDef) (u : Usage) (argv : List Str) : Option Found := do
  match u.run (← parseArgv t argv, []) with
  | some ([], c) => some c
  | _ => none

/-! ## The commands -/

/-- An option with a short form. -/
def o (c : Char) (l : String) (a : Bool) : OptDef := ⟨some c, l.toList, a⟩

/-- spec.py 24-32 and the same lines of the other commands. -/
def corpusOpts : List OptDef := [o 'p' "--path" true, o 'o' "--output-path" true, o 'e' "--ext" true]

/-- spec.py 23-44: the options of `nosplit`. -/
def nosplitOpts : List OptDef := corpusOpts ++ [o '0' "--no-spaces" false, o 'U' "--no-unicode" false, o 'C' "--no-com" false, o 'S' "--no-str" false,
  o 'f' "--full-strings" false, o 'L' "--max-str-length" true, o 'V' "--calc-vocab" false, o 'v' "--verbose" false]

/-- spec.py 57-77: the options of `chars`. -/
def charsOpts : List OptDef := corpusOpts ++ [o '0' "--no-spaces" false, o 'U' "--no-unicode" false, o 'C' "--no-com" false, o 'S' "--no-str" false,
  o 'L' "--max-str-length" true, o 'V' "--calc-vocab" false, o 'v' "--verbose" false]

/-- spec.py 91-116: the options of `basic`. -/
def basicOpts : List OptDef := corpusOpts ++ [o 'n' "--split-numbers" false, o 'r' "--ronin" false, o 's' "--stem" false,
  o '0' "--no-spaces" false, o 'U' "--no-unicode" false, o 'l' "--no-case" false, o 'C' "--no-com" false, o 'S' "--no-str" false,
  o 'L' "--max-str-length" true, o 'V' "--calc-vocab" false, o 'v' "--verbose" false]

/-- spec.py 129-150: the options of `bpe`. -/
def bpeOpts : List OptDef := corpusOpts ++ [o 'S' "--no-str" false, o 'C' "--no-com" false, o '0' "--no-spaces" false, o 'U' "--no-unicode" false,
  o 'L' "--max-str-length" true, o 'V' "--calc-vocab" false, o 'v' "--verbose" false]

/-- spec.py 161-171: the options of `learn-bpe`. -/
def learnOpts : List OptDef := [o 'p' "--path" true, o 'e' "--ext" true, ⟨none, "--id".toList, true⟩, o 'U' "--no-unicode" false,
  o 'b' "--bytes" false, o 'z' "--word-end" false, ⟨none, "--legacy".toList, false⟩, o 'v' "--verbose" false]

/-- A usage pattern made of parts, one after the other. -/
def seqs : Usage → List Usage → Usage
  | a, [] => a
  | a, b :: r => .seq a (seqs b r)

/-- An option in a usage text. -/
def opt (n : String) : Usage := .option n.toList

/-- `(-p <path> [-o <path-out>] | <text>)`. -/
def input : Usage := .either (.seq (opt "--path") (.optional (opt "--output-path"))) (.argument "<text>".toList)

/-- `[--no-str | -L=<max-str-length>]`. -/
def strings : Usage := .optional (.either (opt "--no-str") (opt "--max-str-length"))

/-- spec.py 17-19. -/
def nosplitUsage : Usage := seqs (.command "nosplit".toList) [input, .optional (opt "--ext"),
  .optional (opt "--no-spaces"), .optional (opt "--no-unicode"), .optional (opt "--no-com"),
  .either (.optional (opt "--no-str")) (.seq (.optional (opt "--max-str-length")) (.optional (opt "--full-strings"))),
  .optional (opt "--calc-vocab"), .optional (opt "--verbose")]

/-- spec.py 51-53. -/
def charsUsage : Usage := seqs (.command "chars".toList) [input, .optional (opt "--ext"),
  .optional (opt "--no-spaces"), .optional (opt "--no-unicode"), .optional (opt "--no-com"), strings,
  .optional (opt "--calc-vocab"), .optional (opt "--verbose")]

/-- spec.py 84-86.  `[-n [-r [-s]]]` is three options, each of which can be left out. -/
def basicUsage : Usage := seqs (.command "basic".toList) [input, .optional (opt "--ext"),
  .optional (opt "--split-numbers"), .optional (.optional (opt "--ronin")), .optional (.optional (.optional (opt "--stem"))),
  .optional (opt "--no-spaces"), .optional (opt "--no-unicode"), .optional (opt "--no-case"), .optional (opt "--no-com"), strings,
  .optional (opt "--calc-vocab"), .optional (opt "--verbose")]

/-- spec.py 123-124. -/
def bpeUsage : Usage := seqs (.command "bpe".toList) [
  .either (.command "1k".toList) (.either (.command "5k".toList) (.either (.command "10k".toList) (.argument "<bpe-codes-id>".toList))),
  input, .optional (opt "--ext"), strings, .optional (opt "--no-com"), .optional (opt "--no-spaces"), .optional (opt "--no-unicode"),
  .optional (opt "--calc-vocab"), .optional (opt "--verbose")]

/-- spec.py 157. -/
def learnUsage : Usage := seqs (.command "learn-bpe".toList) [.argument "<n-merges>".toList, opt "--path", .optional (opt "--ext"),
  .optional (opt "--id"), .optional (.either (opt "--no-unicode") (opt "--bytes")), .optional (opt "--word-end"), .optional (opt "--legacy"),
  .optional (opt "--verbose")]

/-- `bool(args[name])` for a command or an option without argument (impl.py 36-37). -/
def Found.flag (c : Found) (n : String) : Bool := c.any (·.1 = n.toList)

/-- `args[name]` for an option with an argument or a positional argument (impl.py 32-33); `none` is `None`. -/
def Found.value (c : Found) (n : String) : Option Str := (c.find? (·.1 = n.toList)).bind (·.2)

/-- What the commands `nosplit`, `chars`, `basic` and `bpe` get: impl.py 64-81, 99-143. -/
def Found.splitArgs (c : Found) : SplitArgs where
  opts := {
    nosplit := c.flag "nosplit", chars := c.flag "chars", basic := c.flag "basic", bpe := c.flag "bpe",
    k1 := c.flag "1k", k5 := c.flag "5k", k10 := c.flag "10k", bpeCodesId := c.value "<bpe-codes-id>",
    noSpaces := c.flag "--no-spaces", noUnicode := c.flag "--no-unicode", noCase := c.flag "--no-case", noCom := c.flag "--no-com",
    noStr := c.flag "--no-str", fullStrings := c.flag "--full-strings", maxStrLength := c.value "--max-str-length",
    splitNumbers := c.flag "--split-numbers", ronin := c.flag "--ronin", stem := c.flag "--stem" }
  text := c.value "<text>"
  path := c.value "--path"
  outputPath := c.value "--output-path"
  ext := c.value "--ext"
  calcVocab := c.flag "--calc-vocab"

/-- What the command `learn-bpe` gets: impl.py 39-53, 83-96.  `none`: the number of merges or the path is missing. -/
def Found.learnArgs (c : Found) : Option LearnArgs := do
  let n ← c.value "<n-merges>"
  let p ← c.value "--path"
  some { nMerges := n, path := p, ext := c.value "--ext", id := c.value "--id", noUnicode := c.flag "--no-unicode", bytes := c.flag "--bytes",
         wordEnd := c.flag "--word-end", legacy := c.flag "--legacy" }

/-- The commands of spec.py. -/
inductive Cmd where
  | nosplit
  | chars
  | basic
  | bpe
  | learn
deriving DecidableEq, Repr

/-- The word for a command: spec.py 17, 51, 84, 123, 157. -/
def Cmd.word : Cmd → Str
  | .nosplit => "nosplit".toList
  | .chars => "chars".toList
  | .basic => "basic".toList
  | .bpe => "bpe".toList
  | .learn => "learn-bpe".toList

/-- The options of a command: spec.py 15-173. -/
def Cmd.opts : Cmd → List OptDef
  | .nosplit => nosplitOpts
  | .chars => charsOpts
  | .basic => basicOpts
  | .bpe => bpeOpts
  | .learn => learnOpts

/-- The usage of a command: spec.py 15-173. -/
def Cmd.usage : Cmd → Usage
  | .nosplit => nosplitUsage
  | .chars => charsUsage
  | .basic => basicUsage
  | .bpe => bpeUsage
  | .learn => learnUsage

/-- docopt-subcommands: the command for the first word. -/
def findCmd (w : Str) : Option Cmd := [Cmd.nosplit, .chars, .basic, .bpe, .learn].find? (·.word = w)

/-- What is done for a command line: spec.py 46, 79, 118, 152, 173. -/
inductive Todo where
  | split (a : SplitArgs)
  | learn (a : LearnArgs)

/-- spec.py 176-177 `parse_and_run`.  `none`: the program ends before anything is done. -/
def parse : List Str → Option Todo
  | [] => none
  | w :: rest => do
    let cmd ← findCmd w
    let c ← docopt cmd.opts cmd.usage (w :: rest)
    match cmd with
    | .learn => (c.learnArgs).map .learn
    | _ => some (.split c.splitArgs)

end Verif.Docopt
