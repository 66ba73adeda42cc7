import Verif.Model.SharedCounter
import Verif.Spec.Exec
/-!
# Specification of the counters
-/
namespace Verif.Spec
open Verif

/-- A counter: what a call returns when the value is `v`, and the value after the call. -/
inductive Counts : Int → CounterOp → CounterRes → Int → Prop where
  | inc (v : Int) : Counts v .inc (.int (v + 1)) (v + 1)
  | dec (v : Int) : Counts v .dec (.int (v - 1)) (v - 1)
  | isIt (v : Int) : Counts v (.compareAndDec v) (.bool true) (v - 1)
  | isNot (v u : Int) (h : v ≠ u) : Counts v (.compareAndDec u) (.bool false) (v - 1)
  | get (v : Int) : Counts v .getAndDec (.int v) (v - 1)
  | value (v : Int) : Counts v .value (.int v) v

/-- Calls one after the other. -/
inductive Sequence : Int → List (Nat × CounterOp × CounterRes) → Int → Prop where
  | nil (v : Int) : Sequence v [] v
  | snoc {a b c : Int} {l : List (Nat × CounterOp × CounterRes)} {p : Nat} {op : CounterOp} {res : CounterRes} :
      Sequence a l b → Counts b op res c → Sequence a (l ++ [(p, op, res)]) c

/-- The calls that take one from the counter. -/
def Takes : CounterOp → Prop
  | .inc => False
  | .dec => True
  | .compareAndDec _ => True
  | .getAndDec => True
  | .value => False

/-- Anything that can happen, if processes are killed only while they are not in a method and have nothing in their buffers. -/
inductive Careful : CWorld → CWorld → Prop where
  | go {w w' : CWorld} : CGo w w' → Careful w w'
  | kill {c l p r log} (hp : p = .free ∨ ∃ op, p = .waiting op) (hb : some l.length ∉ c.buffers) :
      Careful ⟨c, l ++ p :: r, log⟩ ⟨c, l ++ .dead :: r, log⟩

/-- A process has called a method that has not returned. -/
def Busy (w : CWorld) (k : Nat) : Prop := ∃ p, w.procs[k]? = some p ∧ p ≠ .free ∧ p ≠ .dead

/-- Nothing returns any more, whatever happens. -/
def Stuck (w : CWorld) : Prop := ∀ w', Star CAny w w' → w'.log = w.log

end Verif.Spec
