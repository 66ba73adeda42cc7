import Verif.Model.Workers
import Verif.Model.Files
import Verif.Model.NonEng
/-!
# Model of how the tokens that are not split are collected

The end of `run` in `codeprep/pipeline/to_repr.py` and `gather_non_bpe_vocab` of `codeprep/pipeline/vocabloader.py`.

The files with tokens are read at once: nobody writes to them when the workers have finished.  The order of the files and of the
tokens of a set is arbitrary.
-/
namespace Verif.Pool
open Verif

/-- vocabloader.py 45-48: the loop over the files, `s` is the set so far. -/
def gatherLoop (s : List Str) : List Str → Except PyErr (List Str)
  | [] => .ok s
  | text :: rest => do
    let ws ← loadVocabSet text
    gatherLoop (ws.foldl setAdd s) rest

/-- vocabloader.py 44-50: the set of tokens from the texts of the files. -/
def gatherTokens (texts : List Str) : Except PyErr (List Str) := do
  let s ← gatherLoop [] texts
  .ok (Ph.all.foldl setAdd s)

/-- Where a run is: with the workers or before, writing the collected tokens, removing the files with tokens, at the end. -/
inductive Phase where
  | workers
  | writing (text : Str) (pos : Nat)
  | removing
  | done
deriving DecidableEq, Repr

/-- The workers and the disk, the file with the collected tokens, and where the run is. -/
structure GWorld where
  pool : World
  final : Option Str
  phase : Phase

/-- to_repr.py 142-145: tokens are only saved if they have not been collected. -/
def runSetup (fresh : Bool) (final : Option Str) : Setup := ⟨.repr, final.isNone, fresh⟩

/-- Removing a file. -/
def Disk.remove (d : Disk) (p : Path) : Disk := { d with dir := fun q => if q = p then none else d.dir q }

/-- to_repr.py 131-175 `run` for the base configuration of BPE, with `n` workers. -/
inductive GStep (fresh : Bool) (jobs : List Job) (n : Nat) : GWorld → GWorld → Prop where
  /-- to_repr.py 142-170. -/
  | pool {w w' : World} {f : Option Str} (h : Step (runSetup fresh f) jobs n w w') : GStep fresh jobs n ⟨w, f, .workers⟩ ⟨w', f, .workers⟩
  /-- to_repr.py 172, 175: the tokens had been collected before. -/
  | known {d : Disk} {f : Str} : GStep fresh jobs n ⟨⟨d, true, none⟩, some f, .workers⟩ ⟨⟨d, true, none⟩, some f, .done⟩
  /-- vocabloader.py 43-51: the files are read, the file for all tokens is opened. -/
  | gather {d : Disk} {files : List (Str × Str)} {set ws : List Str} (hn : (files.map (·.1)).Nodup)
      (hl : ∀ p, d.dir (.side p) ≠ none → p ∈ files.map (·.1)) (hc : ∀ e ∈ files, ∃ i, d.dir (.side e.1) = some i ∧ d.data i = e.2)
      (hs : gatherTokens (files.map (·.2)) = .ok set) (hp : ws.Perm set) :
      GStep fresh jobs n ⟨⟨d, true, none⟩, none, .workers⟩ ⟨⟨d, true, none⟩, some [], .writing (dumpTokenSet ws) 0⟩
  /-- vocabloader.py 48: an exception. -/
  | gatherFails {d : Disk} {files : List (Str × Str)} {e : PyErr} (hn : (files.map (·.1)).Nodup)
      (hl : ∀ p, d.dir (.side p) ≠ none → p ∈ files.map (·.1)) (hc : ∀ e ∈ files, ∃ i, d.dir (.side e.1) = some i ∧ d.data i = e.2)
      (hs : gatherTokens (files.map (·.2)) = .error e) : GStep fresh jobs n ⟨⟨d, true, none⟩, none, .workers⟩ ⟨⟨d, false, none⟩, none, .workers⟩
  /-- vocabloader.py 52-53: a part of the text is written. -/
  | write {w : World} {f : Option Str} {text : Str} {pos : Nat} (k : Nat) (hk : 0 < k) (hp : pos + k ≤ text.length) :
      GStep fresh jobs n ⟨w, f, .writing text pos⟩ ⟨w, some (text.take (pos + k)), .writing text (pos + k)⟩
  /-- The file is closed. -/
  | close {w : World} {f : Option Str} {text : Str} : GStep fresh jobs n ⟨w, f, .writing text text.length⟩ ⟨w, f, .removing⟩
  /-- vocabloader.py 54: a file with tokens is removed. -/
  | remove {d : Disk} {f : Option Str} (p : Str) : GStep fresh jobs n ⟨⟨d, true, none⟩, f, .removing⟩ ⟨⟨d.remove (.side p), true, none⟩, f, .removing⟩
  /-- to_repr.py 175. -/
  | finish {d : Disk} {f : Option Str} (h : ∀ p, d.dir (.side p) = none) :
      GStep fresh jobs n ⟨⟨d, true, none⟩, f, .removing⟩ ⟨⟨d, true, none⟩, f, .done⟩
  /-- The program is killed when the workers have finished. -/
  | crash {d : Disk} {f : Option Str} {ph : Phase} (h : ph ≠ .done) :
      GStep fresh jobs n ⟨⟨d, true, none⟩, f, ph⟩ ⟨⟨d, false, none⟩, f, .workers⟩

/-- Nothing has been written yet. -/
def GWorld.init : GWorld := ⟨World.init, none, .workers⟩

end Verif.Pool
