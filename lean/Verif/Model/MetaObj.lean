import Verif.Model.Tokens
/-!
# Metadata as objects

Model of `PreprocessingMetadata` (metadata.py 18-65) with object identity: the attributes of an object are references to a set
and to two lists, `update` changes them in place, and different objects may hold the same list.  The value model is `Meta`
(Model/Tokens).
-/
namespace Verif.Obj
open Verif

/-- What `nonprocessable_tokens` may be: a set (elements without repetitions), or a list, which rootclasses.py 16 stores
for the empty set. -/
inductive Names where
  | set (l : List Str)
  | list (l : List Str)
deriving DecidableEq, Repr

/-- Iterating over a set or a list; the order in which a set is iterated over is of no consequence here. -/
def Names.elems : Names → List Str
  | .set l => l
  | .list l => l

/-- metadata.py 22-24: the attributes of a `PreprocessingMetadata`, as references. -/
structure Attrs where
  names : Nat
  bounds : Nat
  types : Nat
deriving DecidableEq, Repr

/-- The objects of a Python program as far as they matter here.  `next` is an address that is not in use, nor are all
above it. -/
structure Heap where
  names : Nat → Names
  bounds : Nat → List Nat
  types : Nat → List Ty
  objs : Nat → Attrs
  next : Nat

/-- Assignment to one address. -/
def assign {α : Type} (f : Nat → α) (a : Nat) (x : α) : Nat → α := fun b => if b = a then x else f b

/-- A new set (or list) of tokens. -/
def Heap.newNames (h : Heap) (x : Names) : Nat × Heap := (h.next, { h with names := assign h.names h.next x, next := h.next + 1 })

/-- A new list of positions. -/
def Heap.newBounds (h : Heap) (x : List Nat) : Nat × Heap :=
  (h.next, { h with bounds := assign h.bounds h.next x, next := h.next + 1 })

/-- A new list of types. -/
def Heap.newTypes (h : Heap) (x : List Ty) : Nat × Heap := (h.next, { h with types := assign h.types h.next x, next := h.next + 1 })

/-- A new object. -/
def Heap.newObj (h : Heap) (x : Attrs) : Nat × Heap := (h.next, { h with objs := assign h.objs h.next x, next := h.next + 1 })

/-- metadata.py 22: `nonprocessable_tokens or set()`; an empty set counts as false. -/
def namesOr (h : Heap) : Option Nat → Nat × Heap
  | none => h.newNames (.set [])
  | some a => if (h.names a).elems = [] then h.newNames (.set []) else (a, h)

/-- metadata.py 23: `word_boundaries or [0]`. -/
def boundsOr (h : Heap) : Option Nat → Nat × Heap
  | none => h.newBounds [0]
  | some a => if h.bounds a = [] then h.newBounds [0] else (a, h)

/-- metadata.py 24: `token_types or []`. -/
def typesOr (h : Heap) : Option Nat → Nat × Heap
  | none => h.newTypes []
  | some a => if h.types a = [] then h.newTypes [] else (a, h)

/-- metadata.py 19-30 `__init__` and `_check_invariants`.  The lengths are compared as integers; the list of positions is never
empty here. -/
def Heap.make (h : Heap) (names bounds types : Option Nat) : Except PyErr Nat × Heap :=
  let (n, h) := namesOr h names
  let (b, h) := boundsOr h bounds
  let (t, h) := typesOr h types
  if (h.bounds b).length = (h.types t).length + 1 then
    let (o, h) := h.newObj ⟨n, b, t⟩
    (.ok o, h)
  else (.error .assertionError, h)

/-- metadata.py 32-33 `set_all_tokens_type`: a new list is assigned.  `[t] * (-1)` is empty. -/
def Heap.setAllTypes (h : Heap) (o : Nat) (t : Ty) : Heap :=
  let (r, h') := h.newTypes (List.replicate ((h.bounds (h.objs o).bounds).length - 1) t)
  { h' with objs := assign h'.objs o { h'.objs o with types := r } }

/-- metadata.py 51-52: the loop of `update`.  Python iterates over a list by position, and sees what is appended meanwhile.
`none`: more than `fuel` rounds. -/
def appendLoop (dst src n : Nat) : (fuel : Nat) → (i : Nat) → (Nat → List Nat) → Option (Nat → List Nat)
  | 0, _, _ => none
  | fuel + 1, i, bs =>
    match (bs src)[i]? with
    | none => some bs
    | some b => appendLoop dst src n fuel (i + 1) (assign bs dst (bs dst ++ [n + b]))

/-- metadata.py 35-56 `update`; lists have no method `update`, `pop` fails for empty lists.  `none`: the loop takes more than
`fuel` rounds. -/
def Heap.update (fuel : Nat) (h : Heap) (self other : Nat) : Option (Except PyErr Unit × Heap) :=
  let s := h.objs self
  let o := h.objs other
  match h.names s.names with
  | .list _ => some (.error .attributeError, h)
  | .set l =>
    let h := { h with names := assign h.names s.names (.set ((h.names o.names).elems.foldl setAdd l)) }
    match (h.bounds s.bounds).getLast? with
    | none => some (.error .indexError, h)
    | some n =>
      match appendLoop s.bounds o.bounds n fuel 0 (assign h.bounds s.bounds (h.bounds s.bounds).dropLast) with
      | none => none
      | some bs =>
        some (.ok (), { h with bounds := bs, types := assign h.types s.types (h.types s.types ++ h.types o.types) })

/-- `==` of sets and lists: a set is never equal to a list. -/
def Names.eq : Names → Names → Bool
  | .set a, .set b => a.all (· ∈ b) && b.all (· ∈ a)
  | .list a, .list b => a == b
  | _, _ => false

/-- metadata.py 61-65 `__eq__` (of two `PreprocessingMetadata`). -/
def Heap.eq (h : Heap) (a b : Nat) : Bool :=
  (h.names (h.objs a).names).eq (h.names (h.objs b).names) && h.bounds (h.objs a).bounds == h.bounds (h.objs b).bounds &&
    h.types (h.objs a).types == h.types (h.objs b).types

/-- rootclasses.py 11-19 `wrap_in_metadata_for_full_word` of a token with the type `ty` and `n` subtokens; `nonProc` is the set
handed over, if any. -/
def Heap.wrap (h : Heap) (ty : Ty) (n : Nat) (nonProc : Option Nat) : Except PyErr Nat × Heap :=
  match h.make none none none with
  | (.error e, h) => (.error e, h)
  | (.ok o, h) =>
    let (a, h) :=
      match nonProc with
      | none => h.newNames (.list [])
      | some r => if (h.names r).elems = [] then h.newNames (.list []) else (r, h)
    let (b, h) := h.newBounds [0, n]
    let (t, h) := h.newTypes [ty]
    (.ok o, { h with objs := assign h.objs o ⟨a, b, t⟩ })

end Verif.Obj
