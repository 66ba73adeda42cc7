import Verif.Proofs.BpeLearn
/-!
# C38: the pair queue is an exact maximum-priority map
-/
namespace Verif.Props
open Verif Spec Dict

/-- Operations on the counter. -/
inductive Op (α : Type) where
  | add (k : α) (x : Int)
  | remove (k : α)
  | pop

variable {α : Type} [DecidableEq α]

/-- Result of one operation on the implementation: the popped pair with its value, if any, and the new state;
`none` when the operation raises `KeyError` (then the state stays as it is). -/
def execOp (c : PriorityCounter α) : Op α → Option (Option (α × Int) × PriorityCounter α)
  | .add k x => (c.add k x).map fun c' => (none, c')
  | .remove k => (c.removeTask k).map fun c' => (none, c')
  | .pop => c.popPair.map fun (k, v, c') => (some (k, v), c')

/-- Run a sequence of operations; a raising operation produces the output `none`, every other operation the output
`some r` with `r` the popped pair (if it is a pop).  (A pop of the empty queue leaves an empty queue.) -/
def execOps (c : PriorityCounter α) : List (Op α) → List (Option (Option (α × Int)))
  | [] => []
  | op :: r =>
    match execOp c op with
    | none => none :: execOps c r
    | some (o, c') => some o :: execOps c' r

/-- The specified outputs of a sequence of operations on the reference counter. -/
inductive RefRun : Ref α → List (Op α) → List (Option (Option (α × Int))) → Prop
  | nil (r) : RefRun r [] []
  | add {r k x ops outs} : RefRun (r.add k x) ops outs → RefRun r (.add k x :: ops) (some none :: outs)
  | remove {r k ops outs} : (∃ v, (k, v) ∈ r) → RefRun (r.erase k) ops outs →
      RefRun r (.remove k :: ops) (some none :: outs)
  | removeMissing {r k ops outs} : (∀ v, (k, v) ∉ r) → RefRun r ops outs →
      RefRun r (.remove k :: ops) (none :: outs)
  | pop {r m ops outs} : r.IsTop m → RefRun (r.erase m.1) ops outs → RefRun r (.pop :: ops) (some (some m) :: outs)
  | popEmpty {ops outs} : RefRun [] ops outs → RefRun [] (.pop :: ops) (none :: outs)

/-- **C38** For every sequence of additions, removals and pops on a counter created from a dictionary, the outputs are
those of the reference counter: pops return a key with the largest accumulated value (the earliest updated one among
equals) with exactly this value, and fail exactly when no key is left. -/
theorem C38_pair_queue_refines (d : Dict α Int) (hd : d.WF) (ops : List (Op α)) :
    RefRun d ops (execOps (PriorityCounter.init d) ops) := by
  suffices h : ∀ (ops : List (Op α)) (c : PriorityCounter α) (r : Ref α), Refines c r → RefRun r ops (execOps c ops) from
    h ops _ _ (init_refines d hd)
  intro ops
  induction ops with
  | nil => intro c r _; exact RefRun.nil r
  | cons op t ih =>
    intro c r h
    cases op with
    | add k x =>
      obtain ⟨c', hc', hr'⟩ := add_refines h k x
      simp only [execOps, execOp, hc', Option.map_some]
      exact RefRun.add (ih c' _ hr')
    | remove k =>
      obtain ⟨L, hL, rfl⟩ := h
      by_cases hm : ∃ v n, (k, v, n) ∈ L
      · obtain ⟨v, n, hm⟩ := hm
        obtain ⟨c', hc', _, hr'⟩ := removeTask_rel hL hm
        simp only [execOps, execOp, hc', Option.map_some]
        exact RefRun.remove ⟨v, List.mem_map.2 ⟨_, hm, rfl⟩⟩ (ih c' _ ⟨_, hr', erase_map _ _⟩)
      · have hn : c.removeTask k = none := by
          simp only [PriorityCounter.removeTask]
          cases hf : c.finder.get? k with
          | none => rfl
          | some e =>
            exfalso
            exact hm ⟨-e.1, e.2, (hL.finder k (-e.1) e.2).2 (by simp [hf])⟩
        simp only [execOps, execOp, hn, Option.map_none]
        refine RefRun.removeMissing ?_ (ih c _ ⟨L, hL, rfl⟩)
        intro v hv
        obtain ⟨e, he, heq⟩ := List.mem_map.1 hv
        simp only [Prod.mk.injEq] at heq
        obtain ⟨rfl, rfl⟩ := heq
        exact hm ⟨e.2.1, e.2.2, he⟩
    | pop =>
      have hp := popPair_refines h
      cases hpp : c.popPair with
      | none =>
        rw [hpp] at hp
        simp only at hp
        subst hp
        simp only [execOps, execOp, hpp, Option.map_none]
        exact RefRun.popEmpty (ih c [] h)
      | some x =>
        obtain ⟨k, v, c'⟩ := x
        rw [hpp] at hp
        simp only [execOps, execOp, hpp, Option.map_some]
        exact RefRun.pop hp.1 (ih c' _ hp.2)

/-- The specification determines the popped pair. -/
theorem C38_top_unique (r : Ref α) (hr : (r.map (·.1)).Nodup) (m m' : α × Int) (h : r.IsTop m) (h' : r.IsTop m') :
    m = m' := by
  obtain ⟨a, b, rfl, h1, h2⟩ := h
  obtain ⟨a', b', e, h1', h2'⟩ := h'
  rcases List.append_eq_append_iff.1 e with ⟨c, e1, e2⟩ | ⟨c, e1, e2⟩
  · cases c with
    | nil => simp only [List.nil_append, List.cons.injEq] at e2; exact e2.1
    | cons x t =>
      simp only [List.cons_append, List.cons.injEq] at e2
      have hx := h1' m (by rw [e1, e2.1]; simp)
      have hy := h2 m' (by rw [e2.2]; simp)
      omega
  · cases c with
    | nil => simp only [List.nil_append, List.cons.injEq] at e2; exact e2.1.symm
    | cons x t =>
      simp only [List.cons_append, List.cons.injEq] at e2
      have hx := h1 m' (by rw [e1, e2.1]; simp)
      have hy := h2' m (by rw [e2.2]; simp)
      omega

/-- **C38** Keys with value 0 are not kept: starting from non-zero values, no pop ever returns the value 0. -/
theorem C38_no_zero (r : Ref α) (hr : ∀ e ∈ r, e.2 ≠ 0) (ops : List (Op α)) (outs : List (Option (Option (α × Int))))
    (h : RefRun r ops outs) : ∀ m, some (some m) ∈ outs → m.2 ≠ 0 := by
  induction h with
  | nil => simp
  | add _ ih =>
    intro m hm
    simp only [List.mem_cons, Option.some.injEq, reduceCtorEq, false_or] at hm
    exact ih (Spec.Ref.nonzero_add hr _ _) m hm
  | remove _ _ ih =>
    intro m hm
    simp only [List.mem_cons, Option.some.injEq, reduceCtorEq, false_or] at hm
    exact ih (fun e he => hr e (List.mem_filter.1 he).1) m hm
  | removeMissing _ _ ih =>
    intro m hm
    simp only [List.mem_cons, reduceCtorEq, false_or] at hm
    exact ih hr m hm
  | pop htop _ ih =>
    intro m hm
    simp only [List.mem_cons, Option.some.injEq] at hm
    rcases hm with rfl | hm
    · exact hr _ htop.mem
    · exact ih (fun e he => hr e (List.mem_filter.1 he).1) m hm
  | popEmpty _ ih =>
    intro m hm
    simp only [List.mem_cons, reduceCtorEq, false_or] at hm
    exact ih hr m hm

/-- Non-vacuity: ties, updates, a key dropping to zero, popping the empty queue. -/
example : execOps (PriorityCounter.init [(1, 5), (2, 7), (3, 5)])
    [.add 2 (-2), .add 4 6, .add 4 (-6), .pop, .pop, .remove 9, .pop, .pop] =
    [some none, some none, some none, some (some (1, 5)), some (some (3, 5)), none, some (some (2, 5)), none] := by
  decide

end Verif.Props
