import Verif.Model.BpeState
/-!
# Specification: the BPE codes a call of the API asks for
-/
namespace Verif.Spec
open Verif

/-- A call of `bpe` that does not insist on loading the codes again. -/
def AsksReuse (t : TextCall) : Prop := ∃ i o, t.api = .bpe i o ∧ t.force = false

/-- The cache for the codes in the directory `dir/n`; there need not be one. -/
def shippedCache (d : BpeDisk) (dir n : Str) : Except PyErr BpeCache :=
  (d.text (.defaultCache dir n)).elim (.ok []) readBpeCache

/-- The codes shipped with the package in the directory `dir/n`. -/
def shippedCodes (d : BpeDisk) (dir n : Str) : Except PyErr BpeData := do
  let cache ← shippedCache d dir n
  let t ← d.read (.defaultMerges dir n)
  let m ← readMerges t none
  .ok ⟨cache, m⟩

/-- The codes learnt by the user: the requested number of merges, and the vocabulary of unsplittable tokens as a cache. -/
def learntCodes (u : Ucd) (d : BpeDisk) (id : Str) : Except PyErr BpeData := do
  let cc ← CustomBpeConfig.fromId u d.reg id
  let t ← d.read (.learntMerges cc.dir.name cc.sub)
  let m ← readMerges t (some cc.nMerges.toNat)
  let ws ← nonbpeVocab u d cc.id
  .ok ⟨addNonbpe [] ws, m⟩

/-- The codes a call asks for, as they are on the disk.  `chars` uses the codes `0`; there is no such name for `bpe`. -/
def codesOnDisk (u : Ucd) (d : BpeDisk) (call : ApiCall) (id : Str) : Except PyErr BpeData :=
  if id = "1k".toList ∨ id = "5k".toList ∨ id = "10k".toList then shippedCodes d "case".toList id
  else if id = "0".toList then
    match call with
    | .chars _ => shippedCodes d "case".toList "0".toList
    | _ => .error .keyError
  else learntCodes u d id

end Verif.Spec
