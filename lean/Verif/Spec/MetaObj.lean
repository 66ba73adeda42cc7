import Verif.Model.MetaObj
/-!
# Specification: what metadata says (C77)

Metadata describes a sequence of full tokens: the type of each one and the number of its subtokens.  It also records a set of
tokens that must not be split.
-/
namespace Verif.Spec
open Verif Obj

/-- The positions at which the full tokens begin, from `n` on, and the end. -/
def positions (n : Nat) : List (Ty × Nat) → List Nat
  | [] => [n]
  | w :: ws => n :: positions (n + w.2) ws

/-- The object `o` describes the full tokens `ws` and the set of tokens `ns`. -/
structure Says (h : Heap) (o : Nat) (ws : List (Ty × Nat)) (ns : List Str) : Prop where
  bounds : h.bounds (h.objs o).bounds = positions 0 ws
  types : h.types (h.objs o).types = ws.map Prod.fst
  names : ∃ l, h.names (h.objs o).names = .set l ∧ ∀ x, x ∈ l ↔ x ∈ ns

/-- `a.update(b)` returns and leaves the objects `h'`. -/
def Updates (h : Heap) (a b : Nat) (h' : Heap) : Prop := ∃ fuel, h.update fuel a b = some (.ok (), h')

/-- `a.update(b)` raises an exception. -/
def UpdateRaises (h : Heap) (a b : Nat) (e : PyErr) : Prop := ∃ fuel h', h.update fuel a b = some (.error e, h')

/-- `a.update(b)` never comes to its end. -/
def UpdateHangs (h : Heap) (a b : Nat) : Prop := ∀ fuel, h.update fuel a b = none

/-- Two objects hold nothing in common. -/
structure Apart (h : Heap) (a b : Nat) : Prop where
  names : (h.objs a).names ≠ (h.objs b).names
  bounds : (h.objs a).bounds ≠ (h.objs b).bounds
  types : (h.objs a).types ≠ (h.objs b).types

/-- A program makes new metadata from a set and two lists of its own that it does not use elsewhere. -/
def create (h : Heap) (ws : List (Ty × Nat)) (ns : List Str) : Except PyErr Nat × Heap :=
  let (n, h) := h.newNames (.set ns)
  let (b, h) := h.newBounds (positions 0 ws)
  let (t, h) := h.newTypes (ws.map Prod.fst)
  h.make (some n) (some b) (some t)

/-- What a program that makes metadata in this way, puts different ones together and changes types should find in them: the full
tokens and the set of tokens of every object (`none` for addresses of other things). -/
inductive MetaHistory : Heap → (Nat → Option (List (Ty × Nat) × List Str)) → Prop
  | start (h : Heap) : MetaHistory h fun _ => none
  | create {h h' : Heap} {sheet} {ws : List (Ty × Nat)} {ns : List Str} {o : Nat} :
      MetaHistory h sheet → Spec.create h ws ns = (.ok o, h') → MetaHistory h' (assign sheet o (some (ws, ns)))
  | update {h h' : Heap} {sheet} {a b : Nat} {ws vs : List (Ty × Nat)} {ns ms : List Str} :
      MetaHistory h sheet → sheet a = some (ws, ns) → sheet b = some (vs, ms) → a ≠ b → Updates h a b h' →
      MetaHistory h' (assign sheet a (some (ws ++ vs, ns ++ ms)))
  | setAllTypes {h : Heap} {sheet} {a : Nat} {ws : List (Ty × Nat)} {ns : List Str} (t : Ty) :
      MetaHistory h sheet → sheet a = some (ws, ns) →
      MetaHistory (h.setAllTypes a t) (assign sheet a (some (ws.map fun w => (t, w.2), ns)))

end Verif.Spec
