import Verif.Model.Merge
/-!
# Model of `getsize` of `codeprep/util.py`

Objects are numbers (`id(obj)`), and a function says what each of them is.
-/
namespace Verif

/-- What an object has inside, as util.py 182-187 looks at it. -/
inductive Inside where
  /-- util.py 182-183: strings, bytes, numbers, ranges. -/
  | nothing
  /-- util.py 184-185: tuples, lists, sets and deques, with their members. -/
  | members (l : List Nat)
  /-- util.py 186-187: mappings, and other objects with a method `items`, with the pairs it delivers. -/
  | items (l : List (Nat × Nat))
  /-- Any other object. -/
  | other

/-- An object: `sys.getsizeof(obj)`, what it has inside, `vars(obj)` if there is one (util.py 189-190), and for every name in `__slots__`
the value of the attribute if it has one (util.py 191-192).  Simplification: attributes are objects that stay the same. -/
structure PyObj where
  own : Nat
  inside : Inside
  vars : Option Nat
  slots : List (Option Nat)

namespace PyObj

/-- `sum(inner(i) for i in l)`, with the set `_seen_ids` as a state. -/
def sumMembers (f : Nat → List Nat → Except PyErr (Nat × List Nat)) : List Nat → List Nat → Except PyErr (Nat × List Nat)
  | [], seen => .ok (0, seen)
  | x :: t, seen => do
    let (a, seen) ← f x seen
    let (b, seen) ← sumMembers f t seen
    .ok (a + b, seen)

/-- `sum(inner(k) + inner(v) for k, v in l)`, with the set `_seen_ids` as a state. -/
def sumItems (f : Nat → List Nat → Except PyErr (Nat × List Nat)) : List (Nat × Nat) → List Nat → Except PyErr (Nat × List Nat)
  | [], seen => .ok (0, seen)
  | (k, v) :: t, seen => do
    let (a, seen) ← f k seen
    let (b, seen) ← f v seen
    let (c, seen) ← sumItems f t seen
    .ok (a + b + c, seen)

/-- util.py 182-187: what an object has inside. -/
def sizeInside (f : Nat → List Nat → Except PyErr (Nat × List Nat)) (o : PyObj) (seen : List Nat) : Except PyErr (Nat × List Nat) :=
  match o.inside with
  | .nothing => .ok (0, seen)
  | .members l => sumMembers f l seen
  | .items l => sumItems f l seen
  | .other => .ok (0, seen)

/-- util.py 189-190: the dictionary of attributes. -/
def sizeVars (f : Nat → List Nat → Except PyErr (Nat × List Nat)) (o : PyObj) (seen : List Nat) : Except PyErr (Nat × List Nat) :=
  match o.vars with
  | none => .ok (0, seen)
  | some d => f d seen

/-- util.py 176-193 `inner`.  The first number is how many calls inside each other are left until Python raises a `RecursionError`
(a `RuntimeError`); Python counts frames, of which there are up to two for every call. -/
def inner (h : Nat → PyObj) : Nat → Nat → List Nat → Except PyErr (Nat × List Nat)
  | 0, _, _ => .error .runtimeError
  | depth + 1, x, seen =>
    if x ∈ seen then .ok (0, seen)
    else do
      let (a, seen) ← sizeInside (inner h depth) (h x) (x :: seen)
      let (b, seen) ← sizeVars (inner h depth) (h x) seen
      let (c, seen) ← sumMembers (inner h depth) ((h x).slots.filterMap id) seen
      .ok ((h x).own + a + b + c, seen)

/-- util.py 168-197 `getsize`. -/
def getsize (h : Nat → PyObj) (limit : Nat) (x : Nat) : Except PyErr Nat := do
  let (n, _) ← inner h limit x []
  .ok n

end PyObj
end Verif
