import Verif.Model.VocabLoader
import Verif.Spec.LearnDisk
import Verif.Spec.Registry
/-!
# What the user's directories hold after learning merges for any datasets (C69)
-/
namespace Verif.Spec
open Verif

/-- The name of a dataset's directories can be found in the names that are made from it. -/
def PlainDataset (dn : Str) : Prop := '\n' ∉ dn ∧ Absent "_-_".toList (dn ++ "_-".toList)

/-- The user's directories after learning merges for any datasets in any order, without crashes.  `words dir`: the words of the
dataset whose vocabulary is kept in `dir`, with frequencies, and those that are not to be split.  The first run for a dataset finds at
least one merge. -/
inductive UserHistory (u : Ucd) (words : Str → List (Str × Nat) × List Str) : UserDir → Prop
  | start : UserHistory u words ⟨none, []⟩
  | vocab {h : UserDir} (v : VocabDir) : UserHistory u words h → v.name ∉ h.vocabs.map (·.name) →
      Ready (words v.name).1 (words v.name).2 ⟨[], v.vocab, v.nonbpe⟩ → UserHistory u words { h with vocabs := h.vocabs ++ [v] }
  | learn {h h' : UserDir} (path dn : Str) (b : BpeConfig) (given : Option Str) (n : Int) : UserHistory u words h →
      IsBpeConfig b → PlainDataset dn → baseBpeVocabDirName dn b ∈ h.vocabs.map (·.name) → h.learn u path dn b given n = .ok h' →
      (bpeDirName dn (some b) ∉ h.dirs.map (·.name) → CanName u (h.dirs.map (·.entry)) path b given ∧
        ∃ c ∈ h'.dirs, c.name = bpeDirName dn (some b) ∧ ∃ m ∈ c.subs, ∃ k, m.name = natStr k ∧ 1 ≤ k ∧ k ≤ sysMaxsize) →
      UserHistory u words h'
  | reorder {h : UserDir} (cs cs' : List CodesDir) : UserHistory u words h → h.codes = some cs → cs'.Perm cs →
      UserHistory u words { h with codes := some cs' }

end Verif.Spec
