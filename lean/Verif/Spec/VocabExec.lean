import Verif.Spec.Exec
import Verif.Model.VocabMerge
/-!
# Executions of the calculation of a vocabulary
-/
namespace Verif

/-- A step, or something goes wrong. -/
def AnyStep (parts : List (Dict Str Nat × Nat)) (n : Nat) (a b : World) : Prop := WStep parts n a b ∨ WFault a b

/-- The program is started for the first time; the directory may have been left behind by something else. -/
def World.first (dir : DumpDir) : World := ⟨⟨dir, none, none⟩, .start⟩

/-- Some process is writing the vocabulary file. -/
def World.writing (w : World) : Prop := ∃ q ps v rest b, w.phase = .running q ps ∧ (PState.writingVocab v rest, b) ∈ ps

/-- A step, or something goes wrong while no process is writing the vocabulary file. -/
def QuietStep (parts : List (Dict Str Nat × Nat)) (n : Nat) (a b : World) : Prop :=
  WStep parts n a b ∨ WFault a b ∧ ¬ a.writing

end Verif
