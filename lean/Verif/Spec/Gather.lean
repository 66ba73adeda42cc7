import Verif.Model.Gather
import Verif.Spec.Workers
/-!
# Specification for collecting the tokens that are not split
-/
namespace Verif.Pool
open Verif

/-- The tokens that are saved for a file are `toks`, in some order, every token once. -/
def SavesTokens (toks : Job → List Str) (jobs : List Job) : Prop :=
  ∀ j ∈ jobs, (toks j).Nodup ∧ ∀ s t, j.res = .ok s t → t = dumpTokenSet (toks j)

/-- The step is not a crash while the collected tokens are written. -/
def KeepsFinal (w w' : GWorld) : Prop := ∀ text pos, w.phase = .writing text pos → w'.phase ≠ .workers

/-- The step is not a crash while a worker has written a part of a line of a file with tokens. -/
def KeepsTokens (toks : Job → List Str) (w w' : GWorld) : Prop :=
  ∀ r, w.pool.run = some r → w'.pool.run = none → w'.pool.ready = false →
    ∀ x j i pos, r.workers x = .tokens j i pos → ∃ k, (dumpTokenSet (toks j)).take pos = dumpTokenSet ((toks j).take k)

/-- What can be reached from an empty disk by steps that satisfy a condition. -/
def GReachable (fresh : Bool) (jobs : List Job) (n : Nat) (ok : GWorld → GWorld → Prop) (w : GWorld) : Prop :=
  Spec.Star (fun u v => GStep fresh jobs n u v ∧ ok u v) GWorld.init w

/-- The file with the collected tokens can be read; the tokens in it. -/
def HasTokens (w : GWorld) (ws : List Str) : Prop := ∃ f, w.final = some f ∧ loadVocabSet f = .ok ws

end Verif.Pool
