import Verif.Model.SharedSet
import Verif.Spec.SharedCounter
/-!
# C62: setting the value of a shared counter
-/
namespace Verif.Props.Counter
open Verif Verif.Spec

/-- The process that has set the value sees it. -/
theorem C62_set_own_partial (c : CopiedCounter) (k : Nat) (v : Int) (hk : k < c.refs.length) (hv : 0 ≤ v) :
    ∃ n, (c.setValue k v).size k = some n ∧ (n : Int) = v := by
  refine ⟨v.toNat, ?_, by omega⟩
  simp [CopiedCounter.size, CopiedCounter.setValue, hk]

/-- What a process calls counts from what it sees. -/
theorem C62_set_call_partial (c c' : CopiedCounter) (k n : Nat) (op : CounterOp) (res : CounterRes) (hn : c.size k = some n)
    (h : c.call k op = some (c', res)) : ∃ n', c'.size k = some n' ∧ Counts n op res n' := by
  unfold CopiedCounter.size at hn
  simp only [bind, Option.bind] at hn
  split at hn
  · cases hn
  · rename_i q hq
    replace hn : c.queues[q]? = some n := hn
    have hlt : q < c.queues.length := by
      rcases Nat.lt_or_ge q c.queues.length with g | g
      · exact g
      · rw [List.getElem?_eq_none g] at hn; cases hn
    have hset : ∀ x : Nat, (CopiedCounter.mk (c.queues.set q x) c.refs).size k = some x := by
      intro x
      simp [CopiedCounter.size, hq, hlt]
    have hsz : c.size k = some n := by simp [CopiedCounter.size, hq, hn]
    unfold CopiedCounter.call at h
    simp only [hq, hn, bind, Option.bind] at h
    cases op with
    | value =>
      simp only [Option.some.injEq, Prod.mk.injEq] at h
      obtain ⟨rfl, rfl⟩ := h
      exact ⟨n, hsz, .value _⟩
    | inc =>
      simp only [Option.some.injEq, Prod.mk.injEq] at h
      obtain ⟨rfl, rfl⟩ := h
      exact ⟨n + 1, hset _, .inc _⟩
    | dec =>
      cases n with
      | zero => simp at h
      | succ m =>
        simp only [Option.some.injEq, Prod.mk.injEq] at h
        obtain ⟨rfl, rfl⟩ := h
        refine ⟨m, hset _, ?_⟩
        have := Counts.dec ((m + 1 : Nat) : Int)
        have e : ((m + 1 : Nat) : Int) - 1 = m := by omega
        rw [e] at this
        exact this
    | compareAndDec u =>
      cases n with
      | zero => simp at h
      | succ m =>
        simp only [Option.some.injEq, Prod.mk.injEq] at h
        obtain ⟨rfl, rfl⟩ := h
        refine ⟨m, hset _, ?_⟩
        have e : ((m + 1 : Nat) : Int) - 1 = m := by omega
        by_cases hu : ((m + 1 : Nat) : Int) = u
        · have := Counts.isIt ((m + 1 : Nat) : Int)
          rw [e] at this
          subst hu
          simpa [CounterOp.answer] using this
        · have := Counts.isNot _ _ hu
          rw [e] at this
          simp only [CounterOp.answer, hu, decide_false]
          exact this
    | getAndDec =>
      cases n with
      | zero => simp at h
      | succ m =>
        simp only [Option.some.injEq, Prod.mk.injEq] at h
        obtain ⟨rfl, rfl⟩ := h
        refine ⟨m, hset _, ?_⟩
        have := Counts.get ((m + 1 : Nat) : Int)
        have e : ((m + 1 : Nat) : Int) - 1 = m := by omega
        rw [e] at this
        exact this

/-- No other process ever sees a value that was set: what it sees stays as it was. -/
theorem C62_set_others (c : CopiedCounter) (j k n : Nat) (v : Int) (hjk : j ≠ k) (hn : c.size j = some n) :
    (c.setValue k v).size j = some n := by
  unfold CopiedCounter.size at hn ⊢
  simp only [bind, Option.bind, CopiedCounter.setValue] at hn ⊢
  rw [List.getElem?_set_ne (fun e => hjk e.symm)]
  split at hn
  · cases hn
  · rename_i q hq
    replace hn : c.queues[q]? = some n := hn
    have hlt : q < c.queues.length := by
      rcases Nat.lt_or_ge q c.queues.length with g | g
      · exact g
      · rw [List.getElem?_eq_none g] at hn; cases hn
    rw [hq]
    show (c.queues ++ [v.toNat])[q]? = some n
    rw [List.getElem?_append_left hlt]
    exact hn

/-- So a value that was set is not the value of the counter for all: one process sets 1, and afterwards the other one reads 5. -/
theorem C62_set_violated : ∃ (c : CopiedCounter) (c' : CopiedCounter),
    c = (CopiedCounter.start 5 2).setValue 0 1 ∧ c.call 0 .value = some (c, .int 1) ∧ c.call 1 .value = some (c', .int 5) :=
  ⟨_, (CopiedCounter.start 5 2).setValue 0 1, rfl, by decide, by decide⟩

example : ((CopiedCounter.start 5 2).setValue 0 1).call 0 .dec = some (⟨[5, 0], [1, 0]⟩, .int 0) := by decide
/-- Without setting, the processes share the counter. -/
example : (do
    let (c, _) ← (CopiedCounter.start 5 2).call 0 .inc
    let (_, r) ← c.call 1 .getAndDec
    pure r) = some (.int 6) := by decide

end Verif.Props.Counter
