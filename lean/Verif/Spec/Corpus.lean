import Verif.Model.Corpus
import Verif.Spec.Stages
/-!
# What a call for a whole corpus promises
-/
namespace Verif.Corpus
open Verif Stage

/-- The results for a configuration: every file of the dataset, with its text. -/
def expected (input : List (Bytes × Str)) (repr : Str → Str → Str) (cfg : Str) : List (Bytes × Str) :=
  input.map fun e => (e.1, repr cfg e.2)

/-- The directory for a configuration has exactly the results. -/
def HasResults (input : List (Bytes × Str)) (repr : Str → Str → Str) (w : CWorld) (out cfg : Str) : Prop :=
  ((filesOf (w.prep out cfg).dir).map fun f => (f.name, f.content)).Perm (expected input repr cfg)

/-- The vocabulary is that of all the texts of the results. -/
def RightVocab (input : List (Bytes × Str)) (repr : Str → Str → Str) (cfg : Str) (texts : List Str) : Prop :=
  texts.Perm ((expected input repr cfg).map (·.2))

/-- A change by a user that can be noticed (see `Stage.Noticeable`), or the removal of a vocabulary file. -/
inductive CNoticed : CWorld → CWorld → Prop where
  | parsed {w : CWorld} {s : World} (h : w.pc = .off) (hs : UserStep (w.parseStage .off) s) (hn : Noticeable (w.parseStage .off) s) :
      CNoticed w { w with parsed := ⟨s.dir, s.marker⟩ }
  | prep {w : CWorld} {s : World} (out cfg : Str) (h : w.pc = .off) (hs : UserStep (w.prepStage out cfg .off) s)
      (hn : Noticeable (w.prepStage out cfg .off) s) :
      CNoticed w { w with prep := upd w.prep out (upd (w.prep out) cfg ⟨s.dir, s.marker⟩) }
  | vocab {w : CWorld} (cfg : Str) (h : w.pc = .off) : CNoticed w { w with vocab := upd w.vocab cfg none }

/-- Calls, killed at any point, and changes that can be noticed. -/
def CCareful (input : List (Bytes × Str)) (repr : Str → Str → Str) (u v : CWorld) : Prop := CorpusStep input repr u v ∨ CNoticed u v

end Verif.Corpus
