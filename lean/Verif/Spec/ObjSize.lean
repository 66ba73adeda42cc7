import Verif.Spec.Exec
import Verif.Model.ObjSize
/-!
# Specification of the memory taken by an object
-/
namespace Verif.Spec

/-- An object refers to another one: as a member, as a key or a value, as its dictionary of attributes, or in a slot. -/
inductive Refers (h : Nat → PyObj) (x : Nat) : Nat → Prop where
  | member {l y} : (h x).inside = .members l → y ∈ l → Refers h x y
  | key {l k v} : (h x).inside = .items l → (k, v) ∈ l → Refers h x k
  | value {l k v} : (h x).inside = .items l → (k, v) ∈ l → Refers h x v
  | vars {y} : (h x).vars = some y → Refers h x y
  | slot {y} : some y ∈ (h x).slots → Refers h x y

/-- The memory taken by an object: the sum of the sizes of all objects that can be reached from it, each of them once. -/
def IsMemoryOf (h : Nat → PyObj) (x n : Nat) : Prop :=
  ∃ objs : List Nat, objs.Nodup ∧ (∀ y, y ∈ objs ↔ Star (Refers h) x y) ∧ n = (objs.map fun y => (h y).own).sum

/-- Every object of a list refers to the next one. -/
def Linked (h : Nat → PyObj) : List Nat → Prop
  | [] => True
  | [_] => True
  | x :: y :: t => Refers h x y ∧ Linked h (y :: t)

end Verif.Spec
