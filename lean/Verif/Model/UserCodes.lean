import Verif.Model.VocabLoader
import Verif.Model.BpeState
/-!
# Model of how the text functions see the user's directories
-/
namespace Verif

/-- The files `init_bpe_data` finds (to_repr.py 84-115): learnt merges and their caches in `USER_BPE_DIR` (bperegistry.py 50-65), the
words that are not split in `USER_VOCAB_DIR` (vocabloader.py 23-25); `shipped` are the files of the package and of the cache directory
(to_repr.py 105-110). -/
def UserDir.bpeDisk (h : UserDir) (shipped : BpeFile → Option Str) : BpeDisk :=
  ⟨h.registry, fun f =>
    match f with
    | .learntMerges dir sub => h.mergesFile dir sub (·.merges)
    | .learntCache dir sub => h.mergesFile dir sub (·.cache)
    | .nonbpeVocab dir => h.vocabFile dir (·.nonbpe)
    | .defaultMerges d n => shipped (.defaultMerges d n)
    | .defaultCache d n => shipped (.defaultCache d n)⟩

end Verif
