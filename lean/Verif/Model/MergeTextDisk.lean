import Verif.Model.MergeText
import Verif.Model.LearnDisk
/-!
# Model of `codeprep/pipeline/bpelearner.py` on texts

Model/LearnDisk has the same functions on lists of subwords.
-/
namespace Verif.Txt
open Verif

/-- bpelearner.py 48-59 `prepare_vocabs`, 22-26 `get_base_vocab`, 29-34 `load_nonbpe_vocab`. -/
def prepareVocabs (d : LearnDisk) (most : Option Str) : Except PyErr (TextVocab × TextVocab) :=
  match most with
  | none => do
    let all ← loadCounts (← openText d.baseVocab)
    let nonbpe ← loadVocabSet (← openText d.nonbpe)
    .ok (Txt.prepareScratch all nonbpe)
  | some name => do
    let nonbpe ← loadVocabSet (← openText d.nonbpe)
    let saved ← loadCounts (← openText (d.file name (·.splits)))
    .ok (Txt.prepareResume saved nonbpe)

/-- bpelearner.py 71-84 `save_results`: the directory written. -/
def resultsDir (v : TextVocab) (ms : MergeList) : MergesDir :=
  ⟨natStr ms.length,
   some (dumpVocabDict (sortDesc (Txt.createResultingVocab v)) true),
   some (dumpBpeCache (Txt.createBpeCache v)),
   some (dumpMerges ms),
   some (dumpVocabDict v true)⟩

/-- bpelearner.py 87-115 `run`: the directory to be saved; `none` if it exists already. -/
def learnOnDisk (b : BpeConfig) (d : LearnDisk) (n : Int) : Except PyErr (Option MergesDir) := do
  checkSupported b
  let most := dirWithMost d.dirs n
  let done ← doneMerges d most
  let (base, other) ← Txt.prepareVocabs d most
  let (v, ms) ← Txt.learnRun base other done n.toNat
  if natStr ms.length ∈ d.dirs.map (·.name) then .ok none
  else .ok (some (Txt.resultsDir v ms))

end Verif.Txt
