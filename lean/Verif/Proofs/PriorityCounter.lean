import Verif.Model.PriorityCounter
import Verif.Spec.Counter
import Verif.Proofs.Str
import Mathlib.Data.List.Nodup
/-!
# `PriorityCounter` refines the reference counter
-/
namespace Verif
open Spec Dict

/-! ## heapPop -/
section heap
variable {α : Type}

theorem before_trans {a b c : PQEntry α} (h1 : a.before b = true) (h2 : b.before c = true) : a.before c = true := by
  simp only [PQEntry.before, Bool.or_eq_true, Bool.and_eq_true, decide_eq_true_eq] at *
  omega

theorem before_total {a b : PQEntry α} (h : ¬ a.before b = true) : b.before a = true := by
  simp only [PQEntry.before, Bool.or_eq_true, Bool.and_eq_true, decide_eq_true_eq] at *
  omega

theorem before_refl (a : PQEntry α) : a.before a = true := by
  simp [PQEntry.before]

theorem heapPop_none {q : List (PQEntry α)} (h : heapPop q = none) : q = [] := by
  cases q with
  | nil => rfl
  | cons e r =>
    simp only [heapPop] at h
    split at h
    · simp at h
    · split at h <;> simp at h

theorem heapPop_some {q : List (PQEntry α)} {e : PQEntry α} {r : List (PQEntry α)} (h : heapPop q = some (e, r)) :
    q.Perm (e :: r) ∧ ∀ x ∈ q, e.before x = true := by
  induction q generalizing e r with
  | nil => simp [heapPop] at h
  | cons a t ih =>
    simp only [heapPop] at h
    split at h
    · rename_i hn
      have := heapPop_none hn
      subst this
      simp only [Option.some.injEq, Prod.mk.injEq] at h
      obtain ⟨rfl, rfl⟩ := h
      simp [before_refl]
    · rename_i e' r' hs
      obtain ⟨hp, hb⟩ := ih hs
      split at h
      · rename_i hab
        simp only [Option.some.injEq, Prod.mk.injEq] at h
        obtain ⟨rfl, rfl⟩ := h
        refine ⟨List.Perm.refl _, ?_⟩
        intro x hx
        rcases List.mem_cons.1 hx with rfl | hx
        · exact before_refl _
        · exact before_trans hab (hb x hx)
      · rename_i hab
        simp only [Option.some.injEq, Prod.mk.injEq] at h
        obtain ⟨rfl, rfl⟩ := h
        refine ⟨(hp.cons a).trans (List.Perm.swap _ _ _), ?_⟩
        intro x hx
        rcases List.mem_cons.1 hx with rfl | hx
        · exact before_total hab
        · exact hb x hx

end heap

/-! ## The refinement relation -/
variable {α : Type} [DecidableEq α]

/-- `L` lists the live entries (key, value, stamp) by increasing stamp. -/
structure RelL (c : PriorityCounter α) (L : List (α × Int × Nat)) : Prop where
  sorted : L.Pairwise (fun x y => x.2.2 < y.2.2)
  keys : (L.map (·.1)).Nodup
  pq : ∀ k v n, (k, v, n) ∈ L ↔ (⟨-v, n, some k⟩ : PQEntry α) ∈ c.pq
  finder : ∀ k v n, (k, v, n) ∈ L ↔ c.finder.get? k = some (-v, n)
  counts : (c.pq.map (·.count)).Nodup
  lt : ∀ e ∈ c.pq, e.count < c.next

/-- The counter `c` represents the reference state `r`. -/
def Refines (c : PriorityCounter α) (r : Ref α) : Prop :=
  ∃ L, RelL c L ∧ r = L.map (fun e => (e.1, e.2.1))

theorem get?_del (d : Dict α β) (k k' : α) : (d.del k).get? k' = if k' = k then none else d.get? k' := by
  induction d with
  | nil => simp [Dict.del, Dict.get?]
  | cons e r ih =>
    obtain ⟨a, v⟩ := e
    simp only [Dict.del] at ih ⊢
    by_cases h : a = k
    · subst h
      simp only [ne_eq, not_true_eq_false, decide_false, Bool.false_eq_true, not_false_eq_true,
        List.filter_cons_of_neg, ih]
      split
      · rfl
      · rename_i hk; simp [Dict.get?, Ne.symm hk]
    · simp only [ne_eq, h, not_false_eq_true, decide_true, List.filter_cons_of_pos, Dict.get?, ih]
      by_cases hk : a = k'
      · subst hk; simp [h]
      · simp [hk]

/-- Value of a key through the live entries. -/
theorem value_of_mem {L : List (α × Int × Nat)} (hk : (L.map (·.1)).Nodup) {k : α} {v : Int} {n : Nat}
    (h : (k, v, n) ∈ L) : Ref.value (L.map (fun e => (e.1, e.2.1))) k = v := by
  induction L with
  | nil => simp at h
  | cons e r ih =>
    simp only [List.map_cons, List.nodup_cons] at hk
    rcases List.mem_cons.1 h with rfl | h
    · simp [Ref.value]
    · have hne : e.1 ≠ k := by
        rintro rfl
        exact hk.1 (List.mem_map.2 ⟨_, h, rfl⟩)
      have := ih hk.2 h
      simp only [Ref.value, List.map_cons, List.find?_cons, hne, decide_false] at this ⊢
      exact this

theorem value_of_not_mem {r : Ref α} {k : α} (h : ∀ v, (k, v) ∉ r) : r.value k = 0 := by
  induction r with
  | nil => rfl
  | cons e r ih =>
    have hne : e.1 ≠ k := by rintro rfl; exact h e.2 (by simp)
    have := ih (fun v hv => h v (List.mem_cons_of_mem _ hv))
    simp only [Ref.value, List.find?_cons, hne, decide_false] at this ⊢
    exact this

theorem erase_map (L : List (α × Int × Nat)) (k : α) :
    Ref.erase (L.map (fun e => (e.1, e.2.1))) k = (L.filter (fun e => e.1 ≠ k)).map (fun e => (e.1, e.2.1)) := by
  simp only [Ref.erase, List.filter_map]; rfl

/-- Marking an entry as removed. -/
theorem removeTask_rel {c : PriorityCounter α} {L : List (α × Int × Nat)} (h : RelL c L) {k : α} {v : Int} {n : Nat}
    (hm : (k, v, n) ∈ L) :
    ∃ c', c.removeTask k = some c' ∧ c'.next = c.next ∧ RelL c' (L.filter (fun e => e.1 ≠ k)) := by
  have hf := (h.finder k v n).1 hm
  have hpq := (h.pq k v n).1 hm
  refine ⟨{ c with
      finder := c.finder.del k
      pq := c.pq.map fun e => if e.count = n then { e with key := none } else e },
    by simp only [PriorityCounter.removeTask, hf], rfl, ?_⟩
  constructor
  · exact h.sorted.filter _
  · exact List.Nodup.sublist (List.filter_sublist.map _) h.keys
  · intro k' v' n'
    simp only [List.mem_filter, decide_eq_true_eq, List.mem_map]
    constructor
    · rintro ⟨hin, hk⟩
      refine ⟨_, (h.pq k' v' n').1 hin, ?_⟩
      have : n' ≠ n := by
        rintro rfl
        have h2 := (h.pq k' v' n').1 hin
        -- entries with equal counts are equal
        have := List.inj_on_of_nodup_map h.counts h2 hpq rfl
        simp at this
        exact hk this.2
      simp [this]
    · rintro ⟨e, he, heq⟩
      split at heq
      · simp at heq
      · rename_i hne
        subst heq
        have hin := (h.pq k' v' n').2 he
        refine ⟨hin, ?_⟩
        rintro rfl
        have e1 := (h.finder k' v' n').1 hin
        rw [hf] at e1
        simp only [Option.some.injEq, Prod.mk.injEq] at e1
        exact hne e1.2.symm
  · intro k' v' n'
    simp only [List.mem_filter, decide_eq_true_eq, get?_del]
    by_cases hk : k' = k
    · simp [hk]
    · simp [hk, h.finder]
  · simp only [List.map_map]
    have : ((fun e : PQEntry α => e.count) ∘ fun e => if e.count = n then { e with key := none } else e)
        = (fun e => e.count) := by
      funext e; simp only [Function.comp]; split <;> rfl
    rw [this]; exact h.counts
  · intro e he
    simp only [List.mem_map] at he
    obtain ⟨e0, he0, rfl⟩ := he
    have := h.lt e0 he0
    split <;> exact this

/-- Adding a fresh entry for a key that is not live. -/
theorem insert_rel {c : PriorityCounter α} {L : List (α × Int × Nat)} (h : RelL c L) {k : α} (hk : ∀ e ∈ L, e.1 ≠ k)
    (v : Int) {n : Nat} (hn : ∀ e ∈ c.pq, e.count < n) :
    RelL { next := n + 1, finder := c.finder.set k (-v, n), pq := ⟨-v, n, some k⟩ :: c.pq } (L ++ [(k, v, n)]) := by
  constructor
  · rw [List.pairwise_append]
    refine ⟨h.sorted, by simp, ?_⟩
    intro a ha b hb
    simp only [List.mem_singleton] at hb
    subst hb
    exact hn _ ((h.pq a.1 a.2.1 a.2.2).1 ha)
  · rw [List.map_append, List.nodup_append]
    refine ⟨h.keys, by simp, ?_⟩
    intro a ha b hb
    simp only [List.map_cons, List.map_nil, List.mem_singleton] at hb
    subst hb
    obtain ⟨e, he, rfl⟩ := List.mem_map.1 ha
    exact hk e he
  · intro k' v' n'
    simp only [List.mem_append, h.pq, List.mem_cons, List.not_mem_nil, or_false, Prod.mk.injEq, PQEntry.mk.injEq,
      Option.some.injEq]
    constructor
    · rintro (h | ⟨rfl, rfl, rfl⟩)
      · exact Or.inr h
      · exact Or.inl ⟨rfl, rfl, rfl⟩
    · rintro (⟨h1, rfl, rfl⟩ | h)
      · exact Or.inr ⟨rfl, by omega, rfl⟩
      · exact Or.inl h
  · intro k' v' n'
    simp only [List.mem_append, List.mem_cons, List.not_mem_nil, or_false, Prod.mk.injEq, get?_set]
    by_cases hkk : k' = k
    · subst hkk
      simp only [true_and, if_true, Option.some.injEq, Prod.mk.injEq]
      constructor
      · rintro (h | ⟨rfl, rfl⟩)
        · exact absurd rfl (hk _ h)
        · exact ⟨rfl, rfl⟩
      · rintro ⟨h1, rfl⟩
        exact Or.inr ⟨by omega, rfl⟩
    · simp [hkk, h.finder, Ne.symm hkk]
  · simp only [List.map_cons, List.nodup_cons]
    refine ⟨?_, h.counts⟩
    intro hmem
    obtain ⟨e, he, heq⟩ := List.mem_map.1 hmem
    have := hn e he
    omega
  · intro e he
    rcases List.mem_cons.1 he with rfl | he
    · simp
    · have := hn e he; simp only; omega

theorem relL_next {c : PriorityCounter α} {L : List (α × Int × Nat)} (h : RelL c L) :
    RelL { c with next := c.next + 1 } L :=
  ⟨h.sorted, h.keys, h.pq, h.finder, h.counts, fun e he => Nat.lt_succ_of_lt (h.lt e he)⟩

/-- `add` never fails and does what the reference counter does. -/
theorem add_refines {c : PriorityCounter α} {r : Ref α} (h : Refines c r) (k : α) (x : Int) :
    ∃ c', c.add k x = some c' ∧ Refines c' (r.add k x) := by
  obtain ⟨L, hL, rfl⟩ := h
  cases hf : c.finder.get? k with
  | some e =>
    obtain ⟨pr, n⟩ := e
    have hin : (k, -pr, n) ∈ L := (hL.finder k (-pr) n).2 (by simp [hf])
    obtain ⟨c', hc', hnext, hrel⟩ := removeTask_rel (relL_next hL) hin
    have hval := value_of_mem hL.keys hin
    simp only [PriorityCounter.add, hf, hc']
    by_cases hz : pr + -x = 0
    · simp only [hz, ne_eq, not_true_eq_false, if_false]
      refine ⟨_, rfl, _, hrel, ?_⟩
      have : -pr + x = 0 := by omega
      simp [Ref.add, hval, this, erase_map]
    · simp only [ne_eq, hz, not_false_eq_true, if_true]
      have hn : ∀ e ∈ c'.pq, e.count < c.next := by
        intro e he
        simp only [PriorityCounter.removeTask, hf, Option.some.injEq] at hc'
        subst hc'
        simp only [List.mem_map] at he
        obtain ⟨e0, he0, rfl⟩ := he
        have := hL.lt e0 he0
        split <;> exact this
      have hins := insert_rel hrel (k := k) (by intro e he; simpa using (List.mem_filter.1 he).2) (-pr + x) hn
      refine ⟨_, rfl, L.filter (fun e => e.1 ≠ k) ++ [(k, -pr + x, c.next)], ?_, ?_⟩
      · have e1 : -(-pr + x) = pr + -x := by omega
        rw [e1] at hins
        simp only [hnext]
        exact hins
      · have : ¬ (-pr + x = 0) := by omega
        simp [Ref.add, hval, this, erase_map]
  | none =>
    have hnin : ∀ e ∈ L, e.1 ≠ k := by
      rintro ⟨k', v, n⟩ he rfl
      have := (hL.finder k' v n).1 he
      rw [hf] at this; simp at this
    have hval : Ref.value (L.map (fun e => (e.1, e.2.1))) k = 0 := by
      apply value_of_not_mem
      intro v hv
      obtain ⟨e, he, heq⟩ := List.mem_map.1 hv
      simp only [Prod.mk.injEq] at heq
      exact hnin e he heq.1
    have hfil : L.filter (fun e => e.1 ≠ k) = L := by
      rw [List.filter_eq_self]; intro e he; simpa using hnin e he
    simp only [PriorityCounter.add, hf]
    by_cases hz : x = 0
    · subst hz
      refine ⟨_, by simp, L, relL_next hL, ?_⟩
      rw [Ref.add, hval, if_pos (by rfl), erase_map, hfil]
    · refine ⟨_, if_pos (by omega), L ++ [(k, x, c.next)], ?_, ?_⟩
      · exact insert_rel hL hnin x hL.lt
      · simp only [Ref.add, hval, Int.zero_add, hz, if_false, erase_map, hfil, List.map_append, List.map_cons,
          List.map_nil]

/-! ## pop -/

theorem relL_pop_dead {c : PriorityCounter α} {L : List (α × Int × Nat)} (h : RelL c L) {e : PQEntry α}
    {r : List (PQEntry α)} (hp : c.pq.Perm (e :: r)) (hk : e.key = none) : RelL { c with pq := r } L := by
  refine ⟨h.sorted, h.keys, ?_, h.finder, ?_, fun e' he' => h.lt e' (hp.mem_iff.2 (List.mem_cons_of_mem _ he'))⟩
  · intro k v n
    rw [h.pq, hp.mem_iff, List.mem_cons]
    constructor
    · rintro (rfl | h)
      · simp at hk
      · exact h
    · exact Or.inr
  · have := (hp.map (·.count)).nodup_iff.1 h.counts
    simp only [List.map_cons, List.nodup_cons] at this
    exact this.2

theorem relL_pop_live {c : PriorityCounter α} {L : List (α × Int × Nat)} (h : RelL c L) {e : PQEntry α}
    {r : List (PQEntry α)} (hp : c.pq.Perm (e :: r)) {k : α} (hk : e.key = some k) :
    RelL { c with pq := r, finder := c.finder.del k } (L.filter (fun x => x.1 ≠ k)) := by
  have hmem : (k, -e.prio, e.count) ∈ L := by
    apply (h.pq _ _ _).2
    rw [hp.mem_iff]
    simp only [Int.neg_neg, ← hk]
    exact List.mem_cons_self
  have hnd := (hp.map (·.count)).nodup_iff.1 h.counts
  simp only [List.map_cons, List.nodup_cons] at hnd
  refine ⟨h.sorted.filter _, List.Nodup.sublist (List.filter_sublist.map _) h.keys, ?_, ?_, hnd.2,
    fun e' he' => h.lt e' (hp.mem_iff.2 (List.mem_cons_of_mem _ he'))⟩
  · intro k' v n
    simp only [List.mem_filter, decide_eq_true_eq]
    rw [h.pq, hp.mem_iff, List.mem_cons]
    constructor
    · rintro ⟨rfl | h', hne⟩
      · simp only [Option.some.injEq] at hk; exact absurd hk hne
      · exact h'
    · intro h'
      refine ⟨Or.inr h', ?_⟩
      rintro rfl
      have h1 := (h.finder _ _ _).1 ((h.pq k' v n).2 (hp.mem_iff.2 (List.mem_cons_of_mem _ h')))
      have h2 := (h.finder _ _ _).1 hmem
      rw [h1] at h2
      simp only [Option.some.injEq, Prod.mk.injEq] at h2
      exact hnd.1 (List.mem_map.2 ⟨_, h', h2.2⟩)
  · intro k' v n
    simp only [List.mem_filter, decide_eq_true_eq, get?_del]
    by_cases hkk : k' = k
    · simp [hkk]
    · simp [hkk, h.finder]

/-- A live smallest entry is the top of the reference counter. -/
theorem relL_top {c : PriorityCounter α} {L : List (α × Int × Nat)} (h : RelL c L) {e : PQEntry α} {k : α}
    (hin : e ∈ c.pq) (hk : e.key = some k) (hb : ∀ x ∈ c.pq, e.before x = true) :
    Ref.IsTop (L.map (fun e => (e.1, e.2.1))) (k, -e.prio) := by
  have hmem : (k, -e.prio, e.count) ∈ L := by
    apply (h.pq _ _ _).2
    simp only [Int.neg_neg, ← hk]
    exact hin
  obtain ⟨a, b, rfl⟩ := List.append_of_mem hmem
  refine ⟨a.map (fun e => (e.1, e.2.1)), b.map (fun e => (e.1, e.2.1)), by simp, ?_, ?_⟩
  · intro x hx
    obtain ⟨y, hy, rfl⟩ := List.mem_map.1 hx
    have h1 := hb _ ((h.pq y.1 y.2.1 y.2.2).1 (by simp [hy]))
    have h2 : y.2.2 < e.count := (List.pairwise_append.1 h.sorted).2.2 y hy (k, -e.prio, e.count) (by simp)
    simp only [PQEntry.before, Bool.or_eq_true, Bool.and_eq_true, decide_eq_true_eq] at h1
    show y.2.1 < -e.prio
    omega
  · intro x hx
    obtain ⟨y, hy, rfl⟩ := List.mem_map.1 hx
    have h1 := hb _ ((h.pq y.1 y.2.1 y.2.2).1 (by simp [hy]))
    simp only [PQEntry.before, Bool.or_eq_true, Bool.and_eq_true, decide_eq_true_eq] at h1
    show y.2.1 ≤ -e.prio
    omega

theorem popLoop_refines : ∀ (n : Nat) (c : PriorityCounter α) (L : List (α × Int × Nat)), RelL c L →
    c.pq.length ≤ n →
    match c.popLoop n with
    | none => L = []
    | some (k, v, c') => Ref.IsTop (L.map (fun e => (e.1, e.2.1))) (k, v) ∧
        RelL c' (L.filter (fun x => x.1 ≠ k))
  | 0, c, L, h, hl => by
    simp only [PriorityCounter.popLoop]
    have hpq : c.pq = [] := List.eq_nil_of_length_eq_zero (by omega)
    cases L with
    | nil => rfl
    | cons x r => have := (h.pq x.1 x.2.1 x.2.2).1 (by simp); rw [hpq] at this; simp at this
  | n + 1, c, L, h, hl => by
    simp only [PriorityCounter.popLoop]
    cases hpop : heapPop c.pq with
    | none =>
      have hpq := heapPop_none hpop
      cases L with
      | nil => rfl
      | cons x r => have := (h.pq x.1 x.2.1 x.2.2).1 (by simp); rw [hpq] at this; simp at this
    | some er =>
      obtain ⟨e, r⟩ := er
      obtain ⟨hperm, hmin⟩ := heapPop_some hpop
      cases hk : e.key with
      | some k =>
        simp only [hk]
        exact ⟨relL_top h (hperm.mem_iff.2 (by simp)) hk hmin, relL_pop_live h hperm hk⟩
      | none =>
        simp only [hk]
        have hlen : r.length ≤ n := by have := hperm.length_eq; simp at this; omega
        exact popLoop_refines n _ L (relL_pop_dead h hperm hk) hlen

/-- `pop_pair` fails exactly on the empty counter and otherwise pops the top. -/
theorem popPair_refines {c : PriorityCounter α} {r : Ref α} (h : Refines c r) :
    match c.popPair with
    | none => r = []
    | some (k, v, c') => r.IsTop (k, v) ∧ Refines c' (r.erase k) := by
  obtain ⟨L, hL, rfl⟩ := h
  have := popLoop_refines c.pq.length c L hL (Nat.le_refl _)
  simp only [PriorityCounter.popPair]
  split
  · rename_i hp; rw [hp] at this; simp only at this; simp [this]
  · rename_i hp
    rw [hp] at this
    exact ⟨this.1, _, this.2, erase_map _ _⟩

/-! ## init -/

set_option linter.unusedSectionVars false

/-- live entries created by `__init__` -/
def initL : Nat → List (α × Int) → List (α × Int × Nat)
  | _, [] => []
  | n, (k, v) :: r => (k, v, n) :: initL (n + 1) r

theorem initL_map (n : Nat) (d : List (α × Int)) : (initL n d).map (fun e => (e.1, e.2.1)) = d := by
  induction d generalizing n with
  | nil => rfl
  | cons e r ih => simp [initL, ih]

theorem initL_bounds (n : Nat) (d : List (α × Int)) : ∀ e ∈ initL n d, n ≤ e.2.2 ∧ e.2.2 < n + d.length := by
  induction d generalizing n with
  | nil => simp [initL]
  | cons e r ih =>
    intro x hx
    simp only [initL, List.mem_cons] at hx
    rcases hx with rfl | hx
    · simp
    · have := ih (n + 1) x hx
      simp only [List.length_cons]; omega

theorem initEntries_eq (n : Nat) (d : List (α × Int)) :
    PriorityCounter.initEntries n d = (initL n d).map (fun e => ⟨-e.2.1, e.2.2, some e.1⟩) := by
  induction d generalizing n with
  | nil => rfl
  | cons e r ih => simp [PriorityCounter.initEntries, initL, ih]

theorem initL_sorted (n : Nat) (d : List (α × Int)) : (initL n d).Pairwise (fun x y => x.2.2 < y.2.2) := by
  induction d generalizing n with
  | nil => simp [initL]
  | cons e r ih =>
    simp only [initL, List.pairwise_cons]
    refine ⟨?_, ih (n + 1)⟩
    intro x hx
    have := (initL_bounds (n + 1) r x hx).1
    omega

theorem mem_iff_get? {d : Dict α β} (h : d.WF) (k : α) (v : β) : (k, v) ∈ d ↔ d.get? k = some v :=
  ⟨fun hm => mem_get? h hm, fun hg => get?_some_mem hg⟩

/-- `__init__` with a dictionary. -/
theorem init_refines (d : Dict α Int) (hd : d.WF) : Refines (PriorityCounter.init d) d := by
  refine ⟨initL 0 d, ?_, (initL_map 0 d).symm⟩
  have hk : ((initL 0 d).map (·.1)).Nodup := by
    have : (initL 0 d).map (·.1) = d.map (·.1) := by
      conv => rhs; rw [← initL_map 0 d]
      simp [List.map_map, Function.comp_def]
    rw [this]; exact hd
  constructor
  · exact initL_sorted 0 d
  · exact hk
  · intro k v n
    simp only [PriorityCounter.init, initEntries_eq, List.mem_map]
    constructor
    · intro h; exact ⟨_, h, rfl⟩
    · rintro ⟨⟨k', v', n'⟩, h, heq⟩
      simp only [PQEntry.mk.injEq, Option.some.injEq] at heq
      obtain ⟨h1, rfl, rfl⟩ := heq
      have : v' = v := by omega
      subst this; exact h
  · intro k v n
    simp only [PriorityCounter.init, initEntries_eq]
    have e1 : (((initL 0 d).map (fun e => (⟨-e.2.1, e.2.2, some e.1⟩ : PQEntry α))).filterMap
        fun e => e.key.map fun k => (k, (e.prio, e.count))) = (initL 0 d).map (fun e => (e.1, (-e.2.1, e.2.2))) := by
      rw [List.filterMap_map]
      conv => lhs; arg 1; ext e; simp only [Function.comp, Option.map_some]
      rw [← List.filterMap_eq_map]; rfl
    rw [e1, ← mem_iff_get? (by simp only [Dict.WF, Dict.keys, List.map_map, Function.comp_def]; exact hk)]
    simp only [List.mem_map, Prod.mk.injEq]
    constructor
    · intro h; exact ⟨_, h, rfl, rfl, rfl⟩
    · rintro ⟨⟨k', v', n'⟩, h, rfl, h2, rfl⟩
      have : v' = v := by simp only at h2; omega
      subst this; exact h
  · simp only [PriorityCounter.init, initEntries_eq, List.map_map, Function.comp_def]
    have := initL_sorted 0 d
    rw [List.nodup_iff_pairwise_ne, List.pairwise_map]
    exact this.imp (fun h => Nat.ne_of_lt h)
  · intro e he
    simp only [PriorityCounter.init, initEntries_eq, List.mem_map] at he ⊢
    obtain ⟨x, hx, rfl⟩ := he
    have := (initL_bounds 0 d x hx).2
    simpa using this

end Verif
