import Verif.Model.MergeObj
/-!
# Specification: lists of merges that share merges (C79)
-/
namespace Verif.Spec
open Verif MObj

/-- What a program sees when it iterates over a list (merge.py 111-119). -/
def mergesOf (h : MObj.Heap) (l : Nat) : List Merge := (h.lists l).map fun e => h.merges e.2

/-- The pair of a merge is in a list (merge.py 105-106). -/
def Pairs (ms : List Merge) (p : Str × Str) : Prop := ∃ mg ∈ ms, mg.pair = p

/-- The priority of every merge is its position. -/
def Ranked (ms : List Merge) : Prop := ∀ (i : Nat) (mg : Merge), ms[i]? = some mg → mg.priority = some i

/-- The same merges, `n` positions later. -/
def later (n : Nat) (ms : List Merge) : List Merge := ms.map fun mg => { mg with priority := mg.priority.map (· + n) }

/-- The objects of a program that has done nothing yet. -/
def noObjects : MObj.Heap := ⟨fun _ => ⟨([], []), none, none⟩, fun _ => [], 0, 0⟩

/-- The objects of programs that make merges and lists, append any merge that exists to any list that exists, and add any two
lists, whether or not this succeeds. -/
inductive MergeHistory : MObj.Heap → Prop
  | start : MergeHistory noObjects
  | newMerge {h} (mg : Merge) : MergeHistory h → MergeHistory (h.newMerge mg).2
  | newList {h} : MergeHistory h → MergeHistory h.newList.2
  | append {h} {l m : Nat} : MergeHistory h → l < h.nextList → m < h.nextMerge → MergeHistory (h.append l m).2
  | add {h} {a b : Nat} : MergeHistory h → a < h.nextList → b < h.nextList → MergeHistory (h.add a b).2

/-- The same for programs that never put two merges with the same pair into one list. -/
inductive CarefulHistory : MObj.Heap → Prop
  | start : CarefulHistory noObjects
  | newMerge {h} (mg : Merge) : CarefulHistory h → CarefulHistory (h.newMerge mg).2
  | newList {h} : CarefulHistory h → CarefulHistory h.newList.2
  | append {h} {l m : Nat} : CarefulHistory h → l < h.nextList → m < h.nextMerge → ¬ Pairs (mergesOf h l) (h.merges m).pair →
      CarefulHistory (h.append l m).2
  | add {h} {a b : Nat} : CarefulHistory h → a < h.nextList → b < h.nextList →
      (∀ p, Pairs (mergesOf h a) p → ¬ Pairs (mergesOf h b) p) → CarefulHistory (h.add a b).2

/-- All lists and merges that existed before are as they were. -/
structure Untouched (h h' : MObj.Heap) : Prop where
  lists : ∀ l < h.nextList, mergesOf h' l = mergesOf h l
  merges : ∀ m < h.nextMerge, h'.merges m = h.merges m

/-- The merges that the lines of a file stand for; `k` is the number of the first line. -/
inductive LinesSay : Nat → List Str → List Merge → Prop
  | nil (k : Nat) : LinesSay k [] []
  | cons {k : Nat} {line : Str} {mg : Merge} {lines mgs} : parseFileEntry (rstripNl line) k = .ok mg →
      LinesSay (k + 1) lines mgs → LinesSay k (line :: lines) (mg :: mgs)

end Verif.Spec
