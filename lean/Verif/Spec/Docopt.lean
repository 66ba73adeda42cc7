import Verif.Model.Docopt
import Verif.Spec.Api
/-!
# The command line as it is described to the user
-/
namespace Verif.Spec.Line

open Verif.Docopt (Item Cmd)

/-- An option: its long form, its letter, whether it has a value, and the commands that have it. -/
structure Switch where
  long : String
  letter : Option Char
  value : Bool
  cmds : List Cmd
deriving DecidableEq

/-- The commands that preprocess. -/
abbrev splitting : List Cmd := [.nosplit, .chars, .basic, .bpe]

/-- All options of all commands. -/
def switches : List Switch := [
  ⟨"--path", 'p', true, .learn :: splitting⟩,
  ⟨"--output-path", 'o', true, splitting⟩,
  ⟨"--ext", 'e', true, .learn :: splitting⟩,
  ⟨"--no-spaces", '0', false, splitting⟩,
  ⟨"--no-unicode", 'U', false, .learn :: splitting⟩,
  ⟨"--no-com", 'C', false, splitting⟩,
  ⟨"--no-str", 'S', false, splitting⟩,
  ⟨"--max-str-length", 'L', true, splitting⟩,
  ⟨"--calc-vocab", 'V', false, splitting⟩,
  ⟨"--verbose", 'v', false, .learn :: splitting⟩,
  ⟨"--full-strings", 'f', false, [.nosplit]⟩,
  ⟨"--split-numbers", 'n', false, [.basic]⟩,
  ⟨"--ronin", 'r', false, [.basic]⟩,
  ⟨"--stem", 's', false, [.basic]⟩,
  ⟨"--no-case", 'l', false, [.basic]⟩,
  ⟨"--id", none, true, [.learn]⟩,
  ⟨"--bytes", 'b', false, [.learn]⟩,
  ⟨"--word-end", 'z', false, [.learn]⟩,
  ⟨"--legacy", none, false, [.learn]⟩]

/-- The command has the option. -/
def Has (cmd : Cmd) (sw : Switch) : Prop := sw ∈ switches ∧ cmd ∈ sw.cmds

instance (cmd : Cmd) (sw : Switch) : Decidable (Has cmd sw) := inferInstanceAs (Decidable (_ ∧ _))

/-- The word is the long form of the option, or the beginning of it and of no other one. -/
def Names (cmd : Cmd) (l : Str) (sw : Switch) : Prop :=
  Has cmd sw ∧ 3 ≤ l.length ∧ (l = sw.long.toList ∨ (l <+: sw.long.toList ∧ ∀ sw', Has cmd sw' → l <+: sw'.long.toList → sw' = sw))

/-- An option as the program sees it. -/
abbrev given (sw : Switch) (v : Option Str) : Item := .opt sw.long.toList v

/-- Letters of options without values. -/
inductive Letters (cmd : Cmd) : Str → List Item → Prop
  | nil : Letters cmd [] []
  | cons {c : Char} {sw : Switch} {cs : Str} {is : List Item} (h : Has cmd sw) (hc : sw.letter = some c) (hv : sw.value = false)
      (r : Letters cmd cs is) : Letters cmd (c :: cs) (given sw none :: is)

/-- How options and other words can be written on a command line, and what they mean. -/
inductive Writes (cmd : Cmd) : List Str → List Item → Prop
  /-- The end of the command line. -/
  | nil : Writes cmd [] []
  /-- A word that is not an option. -/
  | word {v : Str} {rest : List Str} {is : List Item} (h : v.head? ≠ some '-' ∨ v = ['-']) (r : Writes cmd rest is) :
      Writes cmd (v :: rest) (.arg v :: is)
  /-- After `--` there are no options. -/
  | dashes (rest : List Str) : Writes cmd ("--".toList :: rest) (("--".toList :: rest).map .arg)
  /-- `--option` -/
  | long {l : Str} {sw : Switch} {rest : List Str} {is : List Item} (h : Names cmd l sw) (hv : sw.value = false) (r : Writes cmd rest is) :
      Writes cmd (l :: rest) (given sw none :: is)
  /-- `--option=value` -/
  | longEq {l v : Str} {sw : Switch} {rest : List Str} {is : List Item} (h : Names cmd l sw) (hv : sw.value = true) (r : Writes cmd rest is) :
      Writes cmd ((l ++ '=' :: v) :: rest) (given sw (some v) :: is)
  /-- `--option value` -/
  | longNext {l v : Str} {sw : Switch} {rest : List Str} {is : List Item} (h : Names cmd l sw) (hv : sw.value = true) (hd : v ≠ "--".toList)
      (r : Writes cmd rest is) : Writes cmd (l :: v :: rest) (given sw (some v) :: is)
  /-- `-abc` -/
  | letters {cs : Str} {js is : List Item} {rest : List Str} (h : Letters cmd cs js) (hne : cs ≠ []) (r : Writes cmd rest is) :
      Writes cmd (('-' :: cs) :: rest) (js ++ is)
  /-- `-abcvalue` -/
  | lettersValue {cs v : Str} {c : Char} {sw : Switch} {js is : List Item} {rest : List Str} (h : Letters cmd cs js) (hs : Has cmd sw)
      (hc : sw.letter = some c) (hv : sw.value = true) (hne : v ≠ []) (r : Writes cmd rest is) :
      Writes cmd (('-' :: (cs ++ c :: v)) :: rest) (js ++ given sw (some v) :: is)
  /-- `-abc value` -/
  | lettersNext {cs v : Str} {c : Char} {sw : Switch} {js is : List Item} {rest : List Str} (h : Letters cmd cs js) (hs : Has cmd sw)
      (hc : sw.letter = some c) (hv : sw.value = true) (hd : v ≠ "--".toList) (r : Writes cmd rest is) :
      Writes cmd (('-' :: (cs ++ [c])) :: v :: rest) (js ++ given sw (some v) :: is)

/-- The words that are not options, in their order. -/
def words (is : List Item) : List Str := is.filterMap fun
  | .arg v => some v
  | .opt _ _ => none

/-- The options, in their order. -/
def named (is : List Item) : List Str := is.filterMap fun
  | .arg _ => none
  | .opt n _ => some n

/-- The option is given. -/
def Said (is : List Item) (n : String) : Prop := n.toList ∈ named is

instance (is : List Item) (n : String) : Decidable (Said is n) := inferInstanceAs (Decidable (_ ∈ _))

/-- The value of an option, if there is one. -/
def valueOf (is : List Item) (n : String) : Option Str := (is.findSome? fun
  | .arg _ => none
  | .opt m v => if m = n.toList then some v else none).join

/-- What is preprocessed: the files of a directory, or the text that is the last word. -/
def Source (is : List Item) (rest : List Str) : Prop :=
  (rest = [] ∧ Said is "--path") ∨ (∃ t, rest = [t]) ∧ ¬ Said is "--path" ∧ ¬ Said is "--output-path"

/-- The options and words fit to the command. -/
structure Fits (cmd : Cmd) (is : List Item) : Prop where
  /-- No option is given twice. -/
  once : (named is).Nodup
  /-- The words are the command, its arguments and the text. -/
  words : match cmd with
    | .learn => (∃ n, words is = [cmd.word, n]) ∧ Said is "--path"
    | .bpe => ∃ id rest, words is = cmd.word :: id :: rest ∧ Source is rest
    | _ => ∃ rest, words is = cmd.word :: rest ∧ Source is rest
  /-- Strings are not wanted, or there is something to say about them. -/
  strings : Said is "--no-str" → ¬ Said is "--max-str-length" ∧ ¬ Said is "--full-strings"
  /-- One way to treat other characters. -/
  unicode : Said is "--no-unicode" → ¬ Said is "--bytes"

/-- What a command line asks for. -/
def wanted (cmd : Cmd) (is : List Item) : SplitArgs where
  opts := {
    nosplit := cmd = .nosplit, chars := cmd = .chars, basic := cmd = .basic, bpe := cmd = .bpe,
    k1 := cmd = .bpe ∧ (words is)[1]? = some "1k".toList,
    k5 := cmd = .bpe ∧ (words is)[1]? = some "5k".toList,
    k10 := cmd = .bpe ∧ (words is)[1]? = some "10k".toList,
    bpeCodesId := if cmd = .bpe then (words is)[1]?.filter (· ∉ ["1k".toList, "5k".toList, "10k".toList]) else none,
    noSpaces := Said is "--no-spaces", noUnicode := Said is "--no-unicode", noCase := Said is "--no-case", noCom := Said is "--no-com",
    noStr := Said is "--no-str", fullStrings := Said is "--full-strings", maxStrLength := valueOf is "--max-str-length",
    splitNumbers := Said is "--split-numbers", ronin := Said is "--ronin", stem := Said is "--stem" }
  text := if cmd = .bpe then (words is)[2]? else (words is)[1]?
  path := valueOf is "--path"
  outputPath := valueOf is "--output-path"
  ext := valueOf is "--ext"
  calcVocab := Said is "--calc-vocab"

/-- What a command line for learning asks for: the number of merges and the directory are given. -/
def wantedLearn (is : List Item) (a : LearnArgs) : Prop :=
  (words is)[1]? = some a.nMerges ∧ valueOf is "--path" = some a.path ∧ a.ext = valueOf is "--ext" ∧ a.id = valueOf is "--id" ∧
  (a.noUnicode ↔ Said is "--no-unicode") ∧ (a.bytes ↔ Said is "--bytes") ∧ (a.wordEnd ↔ Said is "--word-end") ∧ (a.legacy ↔ Said is "--legacy")

/-! ## A command line for a call of the API -/

/-- A word that is not taken for an option. -/
def Word (v : Str) : Prop := v.head? ≠ some '-' ∨ v = ['-']

instance (v : Str) : Decidable (Word v) := inferInstanceAs (Decidable (_ ∨ _))

/-- An option that is wanted or not. -/
def on (b : Bool) (n : String) : List Str := if b then [n.toList] else []

/-- An option with a value that is given or not. -/
def value (n : String) (v : Option Str) : List Str := match v with
  | none => []
  | some v => [n.toList ++ '=' :: v]

/-- The command and the id of the codes. -/
def begins : ApiCall → List Str
  | .nosplit _ _ => ["nosplit".toList]
  | .chars _ => ["chars".toList]
  | .basic _ _ _ _ _ => ["basic".toList]
  | .bpe i _ => ["bpe".toList, i]

/-- The options that only one command has. -/
def ownFlags : ApiCall → List Str
  | .nosplit _ fs => on fs "--full-strings"
  | .basic _ sn ro st nc => on sn "--split-numbers" ++ on ro "--ronin" ++ on st "--stem" ++ on nc "--no-case"
  | _ => []

/-- The length of strings is given only if strings are wanted. -/
def lengthOf (o : CommonOpts) : Option Str := if o.noStr then none else some (intStr o.maxStrLength)

/-- A command line for a call: first the text or nothing, then the options. -/
def line (call : ApiCall) (text : List Str) (path out ext : Option Str) (vocab : Bool) : List Str :=
  begins call ++ text ++
  (value "--path" path ++ value "--output-path" out ++ value "--ext" ext ++ value "--max-str-length" (lengthOf (optsOf call))) ++
  (on (optsOf call).noSpaces "--no-spaces" ++ on (optsOf call).noUnicode "--no-unicode" ++ on (optsOf call).noCom "--no-com" ++
    on (optsOf call).noStr "--no-str" ++ on vocab "--calc-vocab" ++ ownFlags call)

/-- The call can be written as a command line: not both `no_str` and `full_strings`, and the id is not taken for an option. -/
def Writable : ApiCall → Prop
  | .nosplit o fs => ¬ (o.noStr = true ∧ fs = true)
  | .bpe i _ => Word i
  | _ => True

end Verif.Spec.Line
