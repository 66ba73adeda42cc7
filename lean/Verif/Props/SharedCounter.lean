import Verif.Spec.SharedCounter
import Verif.Model.VocabMerge
import Mathlib.Data.List.Induction
/-!
# C62: counters shared by processes
-/
namespace Verif.Props
open Verif Verif.Spec

namespace Counter

theorem get_here {α : Type} (l : List α) (p : α) (r : List α) : (l ++ p :: r)[l.length]? = some p := by simp

theorem get_other {α : Type} (l : List α) (p q : α) (r : List α) {i : Nat} (h : i ≠ l.length) :
    (l ++ p :: r)[i]? = (l ++ q :: r)[i]? := by
  rcases Nat.lt_or_gt_of_ne h with h | h
  · rw [List.getElem?_append_left h, List.getElem?_append_left h]
  · obtain ⟨d, rfl⟩ : ∃ d, i = l.length + (d + 1) := ⟨i - l.length - 1, by omega⟩
    rw [List.getElem?_append_right (by omega), List.getElem?_append_right (by omega)]
    simp

/-- What the rest of a method does to the size and to what has been read, if it does not have to wait. -/
def sim : List QInstr → Int × Option Int → Int × Option Int
  | [], s => s
  | .put :: t, s => sim t (s.1 + 1, s.2)
  | .recv :: t, s => sim t s
  | .drop :: t, s => sim t (s.1 - 1, s.2)
  | .qsize :: t, s => sim t (s.1, some s.1)

theorem sim_counts {op : CounterOp} {v s : Int} {n : Nat} (h : (s, some (n : Int)) = sim op.body (v, none)) :
    Counts v op (op.answer n) s := by
  cases op <;> simp only [CounterOp.body, sim, Prod.mk.injEq, Option.some.injEq] at h <;> obtain ⟨rfl, h⟩ := h <;>
    simp only [CounterOp.answer, h]
  · exact .inc _
  · exact .dec _
  · rename_i u
    by_cases hu : v = u
    · subst hu; simp only [decide_true]; exact .isIt _
    · simp only [hu, decide_false]; exact .isNot _ _ hu
  · exact .get _
  · exact .value _

/-- The history is that of a counter, and the process that holds the lock goes on from there. -/
structure Inv (v0 : Int) (w : CWorld) (v : Int) : Prop where
  seq : Sequence v0 w.log v
  only : ∀ i op t (rd : Option Nat), w.procs[i]? = some (.inside op t rd) →
    w.counter.lock = some i ∧ sim t (w.counter.size, rd.map Int.ofNat) = sim op.body (v, none)
  idle : w.counter.lock = none → (w.counter.size : Int) = v

theorem exec_sim {c c' : AtomicInteger} {k : Nat} {rd rd' : Option Nat} {i : QInstr} {t : List QInstr}
    (h : c.exec k rd i = some (c', rd')) :
    c'.lock = c.lock ∧ sim t ((c'.size : Int), rd'.map Int.ofNat) = sim (i :: t) ((c.size : Int), rd.map Int.ofNat) := by
  cases i with
  | put =>
    simp only [AtomicInteger.exec, Option.some.injEq, Prod.mk.injEq] at h
    obtain ⟨rfl, rfl⟩ := h
    exact ⟨rfl, by simp [sim]⟩
  | recv =>
    simp only [AtomicInteger.exec] at h
    split at h
    · exact absurd h (by simp)
    · simp only [Option.some.injEq, Prod.mk.injEq] at h
      obtain ⟨rfl, rfl⟩ := h
      exact ⟨rfl, by simp [sim]⟩
  | drop =>
    simp only [AtomicInteger.exec] at h
    split at h
    · exact absurd h (by simp)
    · rename_i n hn
      simp only [Option.some.injEq, Prod.mk.injEq] at h
      obtain ⟨rfl, rfl⟩ := h
      refine ⟨rfl, ?_⟩
      simp only [sim, hn]
      congr 2
      omega
  | qsize =>
    simp only [AtomicInteger.exec, Option.some.injEq, Prod.mk.injEq] at h
    obtain ⟨rfl, rfl⟩ := h
    exact ⟨rfl, by simp [sim]⟩

theorem inv_call {v0 v : Int} {w w' : CWorld} (hi : Inv v0 w v) (h : CCall w w') : Inv v0 w' v := by
  cases h with
  | @call c l r log op =>
    refine ⟨hi.seq, fun i op' t rd hp => ?_, hi.idle⟩
    by_cases hk : i = l.length
    · subst hk; rw [get_here] at hp; exact absurd hp (by simp)
    · rw [get_other l _ .free r hk] at hp; exact hi.only i op' t rd hp

theorem inv_step {v0 v : Int} {w w' : CWorld} (hi : Inv v0 w v) (h : CStep w w') : ∃ v', Inv v0 w' v' := by
  cases h with
  | @acquire c l r log op hl =>
    refine ⟨v, hi.seq, fun i op' t rd hp => ?_, fun h => absurd h (by simp)⟩
    by_cases hk : i = l.length
    · subst hk
      rw [get_here] at hp
      simp only [Option.some.injEq, CProc.inside.injEq] at hp
      obtain ⟨rfl, rfl, rfl⟩ := hp
      exact ⟨rfl, by have := hi.idle hl; simp only at this; simp [this]⟩
    · rw [get_other l _ (.waiting op) r hk] at hp
      have := (hi.only i op' t rd hp).1
      simp only at this
      rw [hl] at this
      exact absurd this (by simp)
  | @exec c l r log op i todo rd c' rd' he =>
    obtain ⟨h1, h2⟩ := hi.only l.length op (i :: todo) rd (get_here ..)
    obtain ⟨e1, e2⟩ := exec_sim (t := todo) he
    simp only at h1 h2
    refine ⟨v, hi.seq, fun k op' t rd'' hp => ?_, fun h => ?_⟩
    · by_cases hk : k = l.length
      · subst hk
        rw [get_here] at hp
        simp only [Option.some.injEq, CProc.inside.injEq] at hp
        obtain ⟨rfl, rfl, rfl⟩ := hp
        exact ⟨e1.trans h1, e2.trans h2⟩
      · rw [get_other l _ (.inside op (i :: todo) rd) r hk] at hp
        have := (hi.only k op' t rd'' hp).1
        simp only at this
        rw [h1] at this
        exact absurd (Option.some.inj this).symm hk
    · simp only at h
      rw [e1, h1] at h
      exact absurd h (by simp)
  | @leave c l r log op n =>
    obtain ⟨h1, h2⟩ := hi.only l.length op [] (some n) (get_here ..)
    simp only [sim, Option.map_some] at h1 h2
    refine ⟨c.size, .snoc hi.seq (sim_counts h2), fun k op' t rd hp => ?_, fun _ => rfl⟩
    by_cases hk : k = l.length
    · subst hk; rw [get_here] at hp; exact absurd hp (by simp)
    · rw [get_other l _ (.inside op [] (some n)) r hk] at hp
      have := (hi.only k op' t rd hp).1
      simp only at this
      rw [h1] at this
      exact absurd (Option.some.inj this).symm hk
  | @flush c ps log b o b' hb => exact ⟨v, hi.seq, hi.only, hi.idle⟩

theorem inv_go {v0 v : Int} {w w' : CWorld} (hi : Inv v0 w v) (h : CGo w w') : ∃ v', Inv v0 w' v' := by
  cases h with
  | call h => exact ⟨v, inv_call hi h⟩
  | step h => exact inv_step hi h

theorem inv_any {v0 v : Int} {w w' : CWorld} (hi : Inv v0 w v) (h : CAny w w') : ∃ v', Inv v0 w' v' := by
  cases h with
  | go h => exact inv_go hi h
  | kill h =>
    cases h with
    | @kill c l p r log hd =>
      refine ⟨v, hi.seq, fun i op' t rd hp => ?_, hi.idle⟩
      by_cases hk : i = l.length
      · subst hk; rw [get_here] at hp; exact absurd hp (by simp)
      · rw [get_other l _ p r hk] at hp; exact hi.only i op' t rd hp

theorem inv_start (v : Int) (n : Nat) : Inv v.toNat (CWorld.start v n) v.toNat := by
  refine ⟨.nil _, fun i op t rd hp => ?_, fun _ => rfl⟩
  simp only [CWorld.start, List.getElem?_replicate] at hp
  split at hp <;> exact absurd hp (by simp)

theorem inv_reach {v : Int} {n : Nat} {w : CWorld} (h : Star CAny (CWorld.start v n) w) : ∃ u, Inv v.toNat w u := by
  induction h with
  | refl => exact ⟨_, inv_start v n⟩
  | tail _ h ih => obtain ⟨u, hu⟩ := ih; exact inv_any hu h

/-! ### Progress -/

/-- An item has been taken from the pipe, but not yet from the semaphore. -/
def mid : List QInstr → Nat
  | .drop :: _ => 1
  | _ => 0

/-- The semaphore counts the items, and the process that holds the lock is in a method. -/
structure Full (w : CWorld) : Prop where
  held : ∀ k, w.counter.lock = some k → ∃ op t rd, w.procs[k]? = some (.inside op t rd) ∧ t <:+ op.body ∧
    w.counter.pipe + w.counter.buffers.length + mid t = w.counter.size
  rest : w.counter.lock = none → w.counter.pipe + w.counter.buffers.length = w.counter.size

theorem suffix_cases {op : CounterOp} {i : QInstr} {t : List QInstr} (h : i :: t <:+ op.body) :
    (i = .recv → mid t = 1) ∧ (i ≠ .recv → mid t = 0) := by
  cases op <;> simp [CounterOp.body, List.suffix_cons_iff] at h
  · rcases h with ⟨rfl, rfl⟩ | ⟨rfl, rfl⟩ <;> simp [mid]
  · rcases h with ⟨rfl, rfl⟩ | ⟨rfl, rfl⟩ | ⟨rfl, rfl⟩ <;> simp [mid]
  · rcases h with ⟨rfl, rfl⟩ | ⟨rfl, rfl⟩ | ⟨rfl, rfl⟩ <;> simp [mid]
  · rcases h with ⟨rfl, rfl⟩ | ⟨rfl, rfl⟩ | ⟨rfl, rfl⟩ <;> simp [mid]
  · obtain ⟨rfl, rfl⟩ := h; simp [mid]

theorem exec_full {op : CounterOp} {c c' : AtomicInteger} {k : Nat} {rd rd' : Option Nat} {i : QInstr} {t : List QInstr}
    (hs : i :: t <:+ op.body) (hc : c.pipe + c.buffers.length + mid (i :: t) = c.size)
    (h : c.exec k rd i = some (c', rd')) : c'.pipe + c'.buffers.length + mid t = c'.size := by
  have hm := suffix_cases hs
  cases i with
  | put =>
    simp only [AtomicInteger.exec, Option.some.injEq, Prod.mk.injEq] at h
    obtain ⟨rfl, rfl⟩ := h
    have := hm.2 (by simp)
    simp only [mid] at hc
    simp [this]; omega
  | recv =>
    have := hm.1 rfl
    simp only [mid] at hc
    simp only [AtomicInteger.exec] at h
    split at h
    · exact absurd h (by simp)
    · simp only [Option.some.injEq, Prod.mk.injEq] at h
      obtain ⟨rfl, rfl⟩ := h
      simp only; omega
  | drop =>
    have := hm.2 (by simp)
    simp only [mid] at hc
    simp only [AtomicInteger.exec] at h
    split at h
    · exact absurd h (by simp)
    · simp only [Option.some.injEq, Prod.mk.injEq] at h
      obtain ⟨rfl, rfl⟩ := h
      simp only; omega
  | qsize =>
    have := hm.2 (by simp)
    simp only [mid] at hc
    simp only [AtomicInteger.exec, Option.some.injEq, Prod.mk.injEq] at h
    obtain ⟨rfl, rfl⟩ := h
    omega

theorem full_keep {c : AtomicInteger} {l r : List CProc} {log log' : List (Nat × CounterOp × CounterRes)} {p q : CProc}
    (hf : Full ⟨c, l ++ p :: r, log⟩) (hp : ∀ op t rd, p ≠ .inside op t rd) : Full ⟨c, l ++ q :: r, log'⟩ := by
  refine ⟨fun k hk => ?_, hf.rest⟩
  obtain ⟨op, t, rd, h1, h2⟩ := hf.held k hk
  simp only at h1
  by_cases hkl : k = l.length
  · subst hkl
    rw [get_here] at h1
    exact absurd (Option.some.inj h1) (hp _ _ _)
  · rw [get_other l p q r hkl] at h1
    exact ⟨op, t, rd, h1, h2⟩

theorem full_step {v0 v : Int} {w w' : CWorld} (hi : Inv v0 w v) (hf : Full w) (h : CStep w w') : Full w' := by
  cases h with
  | @acquire c l r log op hl =>
    refine ⟨fun k hk => ?_, fun h => absurd h (by simp)⟩
    simp only [Option.some.injEq] at hk
    subst hk
    refine ⟨op, op.body, none, get_here .., List.suffix_refl _, ?_⟩
    have := hf.rest hl
    simp only at this
    have hm : mid op.body = 0 := by cases op <;> rfl
    simp only [hm]
    omega
  | @exec c l r log op i todo rd c' rd' he =>
    have h1 := (hi.only l.length op (i :: todo) rd (get_here ..)).1
    simp only at h1
    obtain ⟨op2, t2, rd2, e1, e2, e3⟩ := hf.held _ h1
    simp only [get_here, Option.some.injEq, CProc.inside.injEq] at e1
    obtain ⟨rfl, rfl, rfl⟩ := e1
    have e4 := (exec_sim (t := todo) he).1
    refine ⟨fun k hk => ?_, fun h => ?_⟩
    · simp only [e4, h1, Option.some.injEq] at hk
      subst hk
      exact ⟨op, todo, rd', get_here .., (List.suffix_cons _ _).trans e2, exec_full e2 e3 he⟩
    · simp only [e4, h1] at h
      exact absurd h (by simp)
  | @leave c l r log op n =>
    have h1 := (hi.only l.length op [] (some n) (get_here ..)).1
    simp only at h1
    obtain ⟨op2, t2, rd2, e1, e2, e3⟩ := hf.held _ h1
    simp only [get_here, Option.some.injEq, CProc.inside.injEq] at e1
    obtain ⟨rfl, rfl, rfl⟩ := e1
    exact ⟨fun k hk => absurd hk (by simp), fun _ => by simpa [mid] using e3⟩
  | @flush c ps log b o b' hb =>
    refine ⟨fun k hk => ?_, fun h => ?_⟩
    · obtain ⟨op, t, rd, e1, e2, e3⟩ := hf.held k hk
      refine ⟨op, t, rd, e1, e2, ?_⟩
      simp only [hb, List.length_append, List.length_cons] at e3
      simp only [List.length_append]; omega
    · have := hf.rest h
      simp only [hb, List.length_append, List.length_cons] at this
      simp only [List.length_append]; omega

theorem careful_any {w w' : CWorld} (h : Careful w w') : CAny w w' := by
  cases h with
  | go h => exact .go h
  | @kill c l p r log hp hb =>
    have hc : c = { c with buffers := c.buffers.filter (fun o => !decide (o = some l.length)) } := by
      have : c.buffers.filter (fun o => !decide (o = some l.length)) = c.buffers := by
        refine List.filter_eq_self.2 fun o ho => ?_
        have : o ≠ some l.length := fun e => hb (e ▸ ho)
        simp [this]
      rw [this]
    have hk : CKill ⟨c, l ++ p :: r, log⟩
        ⟨{ c with buffers := c.buffers.filter (fun o => !decide (o = some l.length)) }, l ++ .dead :: r, log⟩ :=
      .kill (by rcases hp with rfl | ⟨op, rfl⟩ <;> simp)
    rw [← hc] at hk
    exact .kill hk

theorem star_careful {w w' : CWorld} (h : Star Careful w w') : Star CAny w w' := by
  induction h with
  | refl => exact .refl
  | tail _ h ih => exact ih.tail (careful_any h)

theorem full_careful {v0 v : Int} {w w' : CWorld} (hi : Inv v0 w v) (hf : Full w) (h : Careful w w') : Full w' := by
  cases h with
  | go h =>
    cases h with
    | call h =>
      cases h with
      | @call c l r log op => exact full_keep hf (by simp)
    | step h => exact full_step hi hf h
  | @kill c l p r log hp hb => exact full_keep hf (by rcases hp with rfl | ⟨op, rfl⟩ <;> simp)

theorem full_reach {v : Int} {n : Nat} {w : CWorld} (h : Star Careful (CWorld.start v n) w) : Full w := by
  induction h with
  | refl => exact ⟨fun k hk => absurd hk (by simp [CWorld.start, AtomicInteger.new]), fun _ => by simp [CWorld.start, AtomicInteger.new]⟩
  | tail h1 h ih => obtain ⟨u, hu⟩ := inv_reach (star_careful h1); exact full_careful hu ih h

theorem split_at {α : Type} {ps : List α} {k : Nat} {p : α} (h : ps[k]? = some p) :
    ∃ l r, ps = l ++ p :: r ∧ l.length = k := by
  induction ps generalizing k with
  | nil => exact absurd h (by simp)
  | cons q ps ih =>
    cases k with
    | zero => simp at h; exact ⟨[], ps, by simp [h], rfl⟩
    | succ k =>
      simp only [List.getElem?_cons_succ] at h
      obtain ⟨l, r, rfl, rfl⟩ := ih h
      exact ⟨q :: l, r, rfl, rfl⟩

/-- A process waits for an item, and there is none. -/
theorem zero_of {v : Int} {op : CounterOp} {t : List QInstr} {rd : Option Nat} (hs : .recv :: t <:+ op.body)
    (h : sim (.recv :: t) (0, rd.map Int.ofNat) = sim op.body (v, none)) : Takes op ∧ v = 0 := by
  cases op <;> simp only [CounterOp.body, List.suffix_cons_iff, List.cons.injEq, List.suffix_nil] at hs <;> simp at hs <;>
    subst hs <;> simp [sim, CounterOp.body, Takes] at h ⊢ <;> omega

theorem sim_read {op : CounterOp} {v s : Int} {rd : Option Int} (h : sim [] (s, rd) = sim op.body (v, none)) : rd ≠ none := by
  rintro rfl
  cases op <;> simp [sim, CounterOp.body] at h

/-! ### Stuck processes -/

/-- Process `k` holds the lock and never gives it back. -/
structure Blocked (k : Nat) (w : CWorld) : Prop where
  lock : w.counter.lock = some k
  only : ∀ i op t rd, w.procs[i]? = some (.inside op t rd) → i = k
  here : w.procs[k]? = some .dead ∨
    ∃ op t t' rd, w.procs[k]? = some (.inside op t rd) ∧ (t = .recv :: t' ∨ t = .qsize :: .recv :: t') ∧
      w.counter.pipe = 0 ∧ w.counter.buffers = []

theorem blocked_update {k : Nat} {c : AtomicInteger} {l r : List CProc} {log : List (Nat × CounterOp × CounterRes)} {p q : CProc}
    (hb : Blocked k ⟨c, l ++ p :: r, log⟩) (hp : p = .free ∨ ∃ op, p = .waiting op) (hq : ∀ op t rd, q ≠ .inside op t rd) :
    Blocked k ⟨c, l ++ q :: r, log⟩ := by
  have hk : k ≠ l.length := by
    rintro rfl
    have := hb.here
    simp only [get_here] at this
    rcases hp with rfl | ⟨op, rfl⟩ <;> simp at this
  refine ⟨hb.lock, fun i op t rd hi => ?_, ?_⟩
  · by_cases h : i = l.length
    · subst h; rw [get_here] at hi; exact absurd (Option.some.inj hi) (hq _ _ _)
    · rw [get_other l q p r h] at hi; exact hb.only i op t rd hi
  · have := hb.here
    simp only at this ⊢
    rw [get_other l q p r hk]
    exact this

theorem blocked_any {k : Nat} {w w' : CWorld} (hb : Blocked k w) (h : CAny w w') : Blocked k w' ∧ w'.log = w.log := by
  cases h with
  | go h =>
    cases h with
    | call h =>
      cases h with
      | @call c l r log op => exact ⟨blocked_update hb (.inl rfl) (by simp), rfl⟩
    | step h =>
      cases h with
      | @acquire c l r log op hl => have := hb.lock; simp only [hl] at this; exact absurd this (by simp)
      | @exec c l r log op i todo rd c' rd' he =>
        have hk := hb.only l.length op _ rd (get_here ..)
        have := hb.here
        rw [← hk] at this
        simp only [get_here] at this
        rcases this with h | ⟨op', t, t', rd2, h, ht, h0, hbu⟩
        · exact absurd h (by simp)
        · simp only [Option.some.injEq, CProc.inside.injEq] at h
          obtain ⟨rfl, rfl, rfl⟩ := h
          rcases ht with ht | ht <;> simp only [List.cons.injEq] at ht <;> obtain ⟨rfl, rfl⟩ := ht
          · simp only [AtomicInteger.exec, h0] at he
            exact absurd he (by simp)
          · simp only [AtomicInteger.exec, Option.some.injEq, Prod.mk.injEq] at he
            obtain ⟨rfl, rfl⟩ := he
            subst hk
            refine ⟨⟨hb.lock, fun j op2 t2 rd2 hj => ?_, .inr ⟨op, _, t', _, get_here .., .inl rfl, h0, hbu⟩⟩, rfl⟩
            by_cases hjl : j = l.length
            · exact hjl
            · rw [get_other l _ (.inside op (.qsize :: .recv :: t') rd) r hjl] at hj
              exact hb.only j op2 t2 rd2 hj
      | @leave c l r log op n =>
        have hk := hb.only l.length op [] (some n) (get_here ..)
        have := hb.here
        rw [← hk] at this
        rcases this with h | ⟨op', t, t', rd2, h, ht, _⟩
        · rw [get_here] at h; exact absurd h (by simp)
        · simp only [get_here, Option.some.injEq, CProc.inside.injEq] at h
          rw [← h.2.1] at ht
          exact absurd ht (by simp)
      | @flush c ps log b o b' hbu =>
        refine ⟨⟨hb.lock, hb.only, ?_⟩, rfl⟩
        rcases hb.here with h | ⟨op, t, t', rd, h, ht, h0, h1⟩
        · exact .inl h
        · simp only [hbu] at h1; exact absurd h1 (by simp)
  | kill h =>
    cases h with
    | @kill c l p r log hd =>
      refine ⟨⟨hb.lock, fun i op t rd hi => ?_, ?_⟩, rfl⟩
      · by_cases h : i = l.length
        · subst h; rw [get_here] at hi; exact absurd hi (by simp)
        · rw [get_other l .dead p r h] at hi; exact hb.only i op t rd hi
      · by_cases h : k = l.length
        · subst h; exact .inl (get_here ..)
        · simp only
          rw [get_other l .dead p r h]
          rcases hb.here with h1 | ⟨op, t, t', rd, h1, ht, h2, h3⟩
          · exact .inl h1
          · exact .inr ⟨op, t, t', rd, h1, ht, h2, by simp only at h3; simp [h3]⟩

theorem blocked_stuck {k : Nat} {w : CWorld} (hb : Blocked k w) : Stuck w := by
  intro w' h
  have : Blocked k w' ∧ w'.log = w.log := by
    induction h with
    | refl => exact ⟨hb, rfl⟩
    | tail _ h ih => exact ⟨(blocked_any ih.1 h).1, (blocked_any ih.1 h).2.trans ih.2⟩
  exact this.2

/-! ### The number of steps -/

def cost : List QInstr → Nat
  | [] => 0
  | .put :: t => cost t + 2
  | .recv :: t => cost t + 1
  | .drop :: t => cost t + 1
  | .qsize :: t => cost t + 1

def weight : CProc → Nat
  | .free => 0
  | .waiting op => cost op.body + 2
  | .inside _ t _ => cost t + 1
  | .dead => 0

def size (w : CWorld) : Nat := (w.procs.map weight).sum + w.counter.buffers.length

theorem size_step {w w' : CWorld} (h : CStep w w') : size w' < size w := by
  cases h with
  | @acquire c l r log op hl => simp [size, weight]
  | @exec c l r log op i todo rd c' rd' he =>
    cases i with
    | put =>
      simp only [AtomicInteger.exec, Option.some.injEq, Prod.mk.injEq] at he
      obtain ⟨rfl, rfl⟩ := he
      simp [size, weight, cost]; omega
    | recv =>
      simp only [AtomicInteger.exec] at he
      split at he
      · exact absurd he (by simp)
      · simp only [Option.some.injEq, Prod.mk.injEq] at he
        obtain ⟨rfl, rfl⟩ := he
        simp [size, weight, cost]
    | drop =>
      simp only [AtomicInteger.exec] at he
      split at he
      · exact absurd he (by simp)
      · simp only [Option.some.injEq, Prod.mk.injEq] at he
        obtain ⟨rfl, rfl⟩ := he
        simp [size, weight, cost]
    | qsize =>
      simp only [AtomicInteger.exec, Option.some.injEq, Prod.mk.injEq] at he
      obtain ⟨rfl, rfl⟩ := he
      simp [size, weight, cost]
  | @leave c l r log op n => simp [size, weight, cost]
  | @flush c ps log b o b' hb => simp [size, hb]

end Counter
open Counter

/-! ## The theorems -/

/-- **C62**, first part: whatever the processes do and in which order, and also if some of them are killed, the calls that have returned returned, in the order in
which they did so, what the calls of a counter return one after the other. -/
theorem C62_linear (v : Int) (n : Nat) (w : CWorld) (h : Star CAny (CWorld.start v n) w) :
    ∃ u, Sequence v.toNat w.log u ∧ (w.counter.lock = none → (w.counter.size : Int) = u) := by
  obtain ⟨u, hu⟩ := inv_reach h
  exact ⟨u, hu.seq, hu.idle⟩

/-- The counter for one process is a counter. -/
theorem C62_non_atomic (c : NonAtomicCounter) (op : CounterOp) : Counts c.value op (c.run op).2 (c.run op).1.value := by
  cases op with
  | inc => exact .inc _
  | dec => exact .dec _
  | compareAndDec v =>
    simp only [NonAtomicCounter.run, NonAtomicCounter.compareAndDec, NonAtomicCounter.dec, NonAtomicCounter.value]
    by_cases h : c.val = v
    · subst h; simp only [decide_true]; exact .isIt _
    · simp only [h, decide_false]; exact .isNot _ _ h
  | getAndDec => exact .get _
  | value => exact .value _

theorem C62_set (c : NonAtomicCounter) (v : Int) : (c.setValue v).value = v := rfl

/-- A counter is deterministic: there is only one thing that a call can return. -/
theorem counts_unique {v a b : Int} {op : CounterOp} {x y : CounterRes} (h1 : Counts v op x a) (h2 : Counts v op y b) :
    x = y ∧ a = b := by
  cases h1 <;> cases h2 <;> first | exact ⟨rfl, rfl⟩ | (rename_i h; exact absurd rfl h)

/-- The two counters are interchangeable for programs whose calls all return: the process that makes the same calls with the counter for
one process gets the same answers. -/
theorem C62_same (v : Int) (hv : 0 ≤ v) (n : Nat) (w : CWorld) (h : Star CAny (CWorld.start v n) w) :
    w.log.map (·.2.2) = (w.log.foldl (fun (s : NonAtomicCounter × List CounterRes) e =>
      ((s.1.run e.2.1).1, s.2 ++ [(s.1.run e.2.1).2])) (⟨v⟩, [])).2 := by
  obtain ⟨u, hu, _⟩ := C62_linear v n w h
  have : ∀ {a b : Int} {l : List (Nat × CounterOp × CounterRes)}, Sequence a l b →
      l.foldl (fun (s : NonAtomicCounter × List CounterRes) e =>
        ((s.1.run e.2.1).1, s.2 ++ [(s.1.run e.2.1).2])) (⟨a⟩, []) = (⟨b⟩, l.map (·.2.2)) := by
    intro a b l hl
    induction hl with
    | nil => rfl
    | @snoc b c l p op res _ hc ih =>
      rw [List.foldl_append, ih]
      have h2 := C62_non_atomic ⟨b⟩ op
      obtain ⟨h3, h4⟩ := counts_unique hc h2
      simp only [List.foldl_cons, List.foldl_nil, List.map_append, List.map_cons, List.map_nil]
      rw [← h3]
      refine Prod.ext ?_ rfl
      simp only
      rw [h4]; rfl
  have hv' : ((v.toNat : Nat) : Int) = v := Int.toNat_of_nonneg hv
  rw [hv'] at hu
  rw [this hu]

/-- The number of calls in a history that take one from the counter. -/
def taken (l : List (Nat × CounterOp × CounterRes)) : Nat :=
  (l.filter fun e => match e.2.1 with | .inc => false | .value => false | _ => true).length

theorem taken_value {a b : Int} {l : List (Nat × CounterOp × CounterRes)} (h : Sequence a l b) (hi : ∀ e ∈ l, e.2.1 ≠ .inc) :
    b = a - taken l := by
  induction h with
  | nil => simp [taken]
  | @snoc b c l p op res _ hc ih =>
    have := ih fun e he => hi e (List.mem_append_left _ he)
    have ho : op ≠ .inc := hi (p, op, res) (by simp)
    cases hc <;> simp [taken] at this ho ⊢ <;> omega

theorem sequence_split {a c : Int} {l1 l2 : List (Nat × CounterOp × CounterRes)} (h : Sequence a (l1 ++ l2) c) :
    ∃ b, Sequence a l1 b ∧ Sequence b l2 c := by
  induction l2 using List.reverseRecOn generalizing c with
  | nil => exact ⟨c, by simpa using h, .nil c⟩
  | append_singleton l2 e ih =>
    rw [← List.append_assoc] at h
    generalize hl : l1 ++ l2 ++ [e] = l at h
    cases h with
    | nil => simp at hl
    | @snoc b _ l' p op res h1 h2 =>
      obtain ⟨rfl, rfl⟩ := List.append_singleton_inj.1 hl
      obtain ⟨b', h3, h4⟩ := ih h1
      exact ⟨b', h3, .snoc h4 h2⟩

/-- Processes that only take from a counter and look at it get all the numbers `v`, `v - 1`, ... from `get_and_dec`, each one once. -/
theorem C62_tickets (v : Int) (n : Nat) (w : CWorld) (h : Star CAny (CWorld.start v n) w) (hv : 0 ≤ v)
    (hi : ∀ e ∈ w.log, e.2.1 ≠ .inc) (l1 l2 : List (Nat × CounterOp × CounterRes)) (p : Nat) (res : CounterRes)
    (hl : w.log = l1 ++ (p, .getAndDec, res) :: l2) : res = .int (v - taken l1) := by
  obtain ⟨u, hu, _⟩ := C62_linear v n w h
  rw [hl] at hu
  obtain ⟨b, h1, h2⟩ := sequence_split hu
  have hb := taken_value h1 fun e he => hi e (by rw [hl]; exact List.mem_append_left _ he)
  obtain ⟨c, h3, _⟩ := sequence_split (l1 := [(p, .getAndDec, res)]) h2
  generalize hs : [(p, CounterOp.getAndDec, res)] = s at h3
  cases h3 with
  | nil => simp at hs
  | @snoc b' _ l' p' op' res' h5 h6 =>
    obtain ⟨rfl, h7⟩ := List.append_singleton_inj.1 (show [] ++ [(p, CounterOp.getAndDec, res)] = _ from hs)
    simp only [Prod.mk.injEq] at h7
    obtain ⟨rfl, rfl, rfl⟩ := h7
    generalize hn : ([] : List (Nat × CounterOp × CounterRes)) = e at h5
    cases h5 with
    | nil => cases h6; rw [hb, Int.toNat_of_nonneg hv]
    | snoc => simp at hn

/-- Of the processes that leave by `compare_and_dec(1)`, exactly the last one is told that it is the last one. -/
theorem C62_last (v : Int) (n : Nat) (w : CWorld) (h : Star CAny (CWorld.start v n) w) (hv : 0 ≤ v)
    (hi : ∀ e ∈ w.log, e.2.1 ≠ .inc) (l1 l2 : List (Nat × CounterOp × CounterRes)) (p : Nat) (res : CounterRes)
    (hl : w.log = l1 ++ (p, .compareAndDec 1, res) :: l2) : res = .bool (decide ((taken l1 : Int) + 1 = v)) := by
  obtain ⟨u, hu, _⟩ := C62_linear v n w h
  rw [hl] at hu
  obtain ⟨b, h1, h2⟩ := sequence_split hu
  have hb := taken_value h1 fun e he => hi e (by rw [hl]; exact List.mem_append_left _ he)
  rw [Int.toNat_of_nonneg hv] at hb
  obtain ⟨c, h3, _⟩ := sequence_split (l1 := [(p, .compareAndDec 1, res)]) h2
  generalize hs : [(p, CounterOp.compareAndDec 1, res)] = s at h3
  cases h3 with
  | nil => simp at hs
  | @snoc b' _ l' p' op' res' h5 h6 =>
    obtain ⟨rfl, h7⟩ := List.append_singleton_inj.1 (show [] ++ [(p, CounterOp.compareAndDec 1, res)] = _ from hs)
    simp only [Prod.mk.injEq] at h7
    obtain ⟨rfl, rfl, rfl⟩ := h7
    generalize hn : ([] : List (Nat × CounterOp × CounterRes)) = e at h5
    cases h5 with
    | nil =>
      cases h6 with
      | isIt => congr 1; symm; simp; omega
      | isNot _ h => congr 1; symm; simp; omega
    | snoc => simp at hn

/-- **C62**, second part: as long as calls have not returned, something can be done, unless a process takes from a counter that is 0 (and if
processes are killed only while they are not in a method and have nothing in their buffers). -/
theorem C62_returns_partial (v : Int) (n : Nat) (w : CWorld) (h : Star Careful (CWorld.start v n) w) (k : Nat) (hk : Busy w k) :
    (∃ w', CStep w w') ∨
    (∃ (i : Nat) (op : CounterOp) (t : List QInstr) (rd : Option Nat),
      w.procs[i]? = some (CProc.inside op t rd) ∧ Takes op ∧ Sequence v.toNat w.log 0) := by
  have hf := full_reach h
  obtain ⟨u, hu⟩ := inv_reach (star_careful h)
  obtain ⟨c, ps, log⟩ := w
  cases hl : c.lock with
  | none =>
    obtain ⟨p, hp, h1, h2⟩ := hk
    cases p with
    | free => exact absurd rfl h1
    | dead => exact absurd rfl h2
    | waiting op =>
      obtain ⟨l, r, rfl, rfl⟩ := split_at hp
      exact .inl ⟨_, .acquire hl⟩
    | inside op t rd =>
      have := (hu.only k op t rd hp).1
      simp only [hl] at this
      exact absurd this (by simp)
  | some i =>
    obtain ⟨op, t, rd, hp, hs, hc⟩ := hf.held i hl
    have hsim := (hu.only i op t rd hp).2
    obtain ⟨l, r, rfl, rfl⟩ := split_at hp
    simp only at hc hsim
    cases t with
    | nil =>
      have := sim_read hsim
      cases rd with
      | none => exact absurd rfl this
      | some m => exact .inl ⟨_, .leave⟩
    | cons i t =>
      cases i with
      | put => exact .inl ⟨_, .exec rfl⟩
      | qsize => exact .inl ⟨_, .exec rfl⟩
      | drop =>
        simp only [mid] at hc
        obtain ⟨s, hs'⟩ : ∃ s, c.size = s + 1 := ⟨c.pipe + c.buffers.length, by omega⟩
        exact .inl ⟨_, .exec (c' := { c with size := s }) (read' := rd) (by simp [AtomicInteger.exec, hs'])⟩
      | recv =>
        cases hpi : c.pipe with
        | succ m => exact .inl ⟨_, .exec (c' := { c with pipe := m }) (read' := rd) (by simp [AtomicInteger.exec, hpi])⟩
        | zero =>
          cases hb : c.buffers with
          | cons o b => exact .inl ⟨_, .flush (b := []) hb⟩
          | nil =>
            simp only [hpi, hb, mid, List.length_nil] at hc
            rw [← hc] at hsim
            obtain ⟨h1, rfl⟩ := zero_of hs hsim
            exact .inr ⟨l.length, op, _, rd, get_here .., h1, hu.seq⟩

/-- There are only so many steps until the calls have returned. -/
theorem C62_bounded (w : CWorld) : ∃ N, ∀ (f : Nat → CWorld) (k : Nat), f 0 = w → (∀ i < k, CStep (f i) (f (i + 1))) → k ≤ N := by
  refine ⟨size w, fun f k h0 hs => ?_⟩
  have : ∀ i ≤ k, size (f i) + i ≤ size w := by
    intro i
    induction i with
    | zero => intro _; rw [h0]; omega
    | succ i ih =>
      intro hi
      have := ih (by omega)
      have := size_step (hs i (by omega))
      omega
  have := this k (Nat.le_refl k)
  omega

theorem sequence_unique {a b c : Int} {l : List (Nat × CounterOp × CounterRes)} (h1 : Sequence a l b) (h2 : Sequence a l c) :
    b = c := by
  induction h1 generalizing c with
  | nil =>
    generalize hn : ([] : List (Nat × CounterOp × CounterRes)) = e at h2
    cases h2 with
    | nil => rfl
    | snoc => simp at hn
  | @snoc b b' l p op res _ hc ih =>
    generalize hs : l ++ [(p, op, res)] = s at h2
    cases h2 with
    | nil => simp at hs
    | @snoc d _ l' p' op' res' h5 h6 =>
      obtain ⟨rfl, h7⟩ := List.append_singleton_inj.1 hs
      simp only [Prod.mk.injEq] at h7
      obtain ⟨rfl, rfl, rfl⟩ := h7
      have := ih h5
      subst this
      exact (counts_unique hc h6).2

theorem zero_blocked {op : CounterOp} {t : List QInstr} {rd : Option Nat} {c : AtomicInteger} (ho : Takes op) (hs : t <:+ op.body)
    (hc : c.pipe + c.buffers.length + mid t = c.size) (h : sim t (c.size, rd.map Int.ofNat) = sim op.body (0, none)) :
    ∃ t', (t = .recv :: t' ∨ t = .qsize :: .recv :: t') ∧ c.pipe = 0 ∧ c.buffers = [] := by
  cases op <;> simp only [Takes] at ho
  · simp [CounterOp.body, List.suffix_cons_iff] at hs
    rcases hs with rfl | rfl | rfl | rfl <;> simp [sim, CounterOp.body] at h
    · simp [mid] at hc
      exact ⟨_, .inl rfl, by omega, List.length_eq_zero_iff.1 (by omega)⟩
    · simp [mid] at hc; omega
  all_goals
    simp [CounterOp.body, List.suffix_cons_iff] at hs
    rcases hs with rfl | rfl | rfl | rfl <;> simp [sim, CounterOp.body] at h
    · simp [mid] at hc
      exact ⟨_, .inr rfl, by omega, List.length_eq_zero_iff.1 (by omega)⟩
    · simp [mid] at hc
      exact ⟨_, .inl rfl, by omega, List.length_eq_zero_iff.1 (by omega)⟩
    · simp [mid] at hc; omega

/-- **C62** is violated: a process that takes from a counter that is 0 waits for ever, and holds the lock, so that no call returns any more, not
even one of `inc`. -/
theorem C62_zero (v : Int) (n : Nat) (w : CWorld) (h : Star Careful (CWorld.start v n) w) (k : Nat) (op : CounterOp)
    (t : List QInstr) (rd : Option Nat) (hk : w.procs[k]? = some (.inside op t rd)) (ho : Takes op)
    (hz : Sequence v.toNat w.log 0) : ∀ w', Star CAny w w' → w'.log = w.log := by
  have hf := full_reach h
  obtain ⟨u, hu⟩ := inv_reach (star_careful h)
  have hu0 : u = 0 := sequence_unique hu.seq hz
  subst hu0
  obtain ⟨h1, h2⟩ := hu.only k op t rd hk
  obtain ⟨op', t', rd', e1, e2, e3⟩ := hf.held k h1
  rw [hk] at e1
  simp only [Option.some.injEq, CProc.inside.injEq] at e1
  obtain ⟨rfl, rfl, rfl⟩ := e1
  obtain ⟨t', ht, hp, hb⟩ := zero_blocked ho e2 e3 h2
  refine blocked_stuck ⟨h1, fun i op' t2 rd' hi => ?_, .inr ⟨op, t, t', rd, hk, ht, hp, hb⟩⟩
  have := (hu.only i op' t2 rd' hi).1
  rw [h1] at this
  exact (Option.some.inj this).symm

theorem kill_lock {w w' : CWorld} (h : CKill w w') : w'.counter.lock = w.counter.lock := by
  cases h with
  | kill _ => rfl

/-- The same happens if a process is killed while it is in a method. -/
theorem C62_killed (v : Int) (n : Nat) (c : AtomicInteger) (l r : List CProc) (op : CounterOp) (t : List QInstr) (rd : Option Nat)
    (log : List (Nat × CounterOp × CounterRes)) (h : Star CAny (CWorld.start v n) ⟨c, l ++ .inside op t rd :: r, log⟩)
    (w : CWorld) (hw : CKill ⟨c, l ++ .inside op t rd :: r, log⟩ w) (hd : w.procs[l.length]? = some .dead) : Stuck w := by
  obtain ⟨u, hu⟩ := inv_reach h
  obtain ⟨u', hu'⟩ := inv_any hu (.kill hw)
  have h1 := (hu.only l.length op t rd (get_here ..)).1
  simp only at h1
  have hl : w.counter.lock = some l.length := by
    rw [kill_lock hw]; exact h1
  refine blocked_stuck ⟨hl, fun i op' t2 rd' hi => ?_, .inl hd⟩
  have := (hu'.only i op' t2 rd' hi).1
  rw [hl] at this
  exact (Option.some.inj this).symm

/-- A counter that is 0 and that a process decrements: the counter for one process goes on with -1; with the shared one nothing ever returns. -/
theorem C62_zero_violated :
    ((⟨0⟩ : NonAtomicCounter).dec).2 = -1 ∧
    ∃ w, Star Careful (CWorld.start 0 2) w ∧ Busy w 0 ∧ Busy w 1 ∧ w.procs[1]? = some (.waiting .inc) ∧ Stuck w := by
  refine ⟨rfl, ?_⟩
  have h0 : Star Careful (CWorld.start 0 2) (CWorld.start 0 2) := .refl
  have h1 := h0.tail (.go (.call (.call (l := []) .dec)))
  have h2 := h1.tail (.go (.step (.acquire (l := []) rfl)))
  have h3 := h2.tail (.go (.call (.call (l := [_]) (r := []) .inc)))
  refine ⟨_, h3, ⟨_, rfl, by simp, by simp⟩, ⟨_, rfl, by simp, by simp⟩, rfl, ?_⟩
  exact C62_zero 0 2 _ h3 0 .dec _ _ rfl trivial (.nil _)

/-- A process that has increased the counter and is killed before its item is in the pipe: the counter says 1, but the first process that takes one waits
for ever. -/
theorem C62_lost_violated :
    ∃ w, Star CAny (CWorld.start 0 2) w ∧ w.log = [(0, .inc, .int 1), (1, .value, .int 1)] ∧
      w.procs[1]? = some (.inside .dec CounterOp.dec.body none) ∧ Stuck w := by
  have h0 : Star CAny (CWorld.start 0 2) (CWorld.start 0 2) := .refl
  have h1 := h0.tail (.go (.call (.call (l := []) .inc)))
  have h2 := h1.tail (.go (.step (.acquire (l := []) rfl)))
  have h3 := h2.tail (.go (.step (.exec (l := []) rfl)))
  have h4 := h3.tail (.go (.step (.exec (l := []) rfl)))
  have h5 := h4.tail (.go (.step (.leave (l := []))))
  have h6 := h5.tail (.kill (.kill (l := []) (by simp)))
  have h7 := h6.tail (.go (.call (.call (l := [_]) (r := []) .value)))
  have h8 := h7.tail (.go (.step (.acquire (l := [_]) (r := []) rfl)))
  have h9 := h8.tail (.go (.step (.exec (l := [_]) (r := []) rfl)))
  have h10 := h9.tail (.go (.step (.leave (l := [_]) (r := []))))
  have h11 := h10.tail (.go (.call (.call (l := [_]) (r := []) .dec)))
  have h12 := h11.tail (.go (.step (.acquire (l := [_]) (r := []) rfl)))
  refine ⟨_, h12, rfl, rfl, ?_⟩
  refine blocked_stuck (k := 1) ⟨rfl, fun i op t rd hi => ?_, .inr ⟨.dec, _, _, none, rfl, .inl rfl, rfl, rfl⟩⟩
  match i, hi with
  | 0, hi => simp at hi
  | 1, _ => rfl
  | i + 2, hi => simp at hi

/-- A process that is killed in the middle of `get_and_dec`: nobody gets a number any more, although there are numbers left. -/
theorem C62_killed_violated :
    ∃ w, Star CAny (CWorld.start 5 2) w ∧ w.procs = [.dead, .waiting .getAndDec] ∧ w.counter.pipe = 1 ∧ Stuck w := by
  have h0 : Star CAny (CWorld.start 5 2) (CWorld.start 5 2) := .refl
  have h1 := h0.tail (.go (.call (.call (l := []) .getAndDec)))
  have h2 := h1.tail (.go (.step (.acquire (l := []) rfl)))
  have h3 := h2.tail (.go (.call (.call (l := [_]) (r := []) .getAndDec)))
  have h4 := h3.tail (.go (.step (.flush (b := []) rfl)))
  have h5 := h4.tail (.kill (.kill (l := []) (by simp)))
  refine ⟨_, h5, rfl, rfl, ?_⟩
  exact C62_killed 5 2 _ [] _ _ _ _ _ h4 _ (.kill (by simp)) rfl

/-- The counters of the calculation of a vocabulary are counters in this sense: a process that has taken two vocabularies takes a number; a process that stops
says so, and exactly if it is told that it is the last one, it goes on with what is left. -/
theorem C62_vocab {dk dk' : Disk} {q q' : Queues} {p p' : PState} (h : PStep dk q p dk' q' p') :
    ((∃ c f s, p = .counting c f s ∧ Counts q.mergesLeft .getAndDec (.int q.mergesLeft) q'.mergesLeft) ∨
      (∀ c f s, p ≠ .counting c f s) ∧ q'.mergesLeft = q.mergesLeft) ∧
    ((p = .stopping ∧ ∃ b, Counts q.counter (.compareAndDec 1) (.bool b) q'.counter ∧
        (b = true → p' = .collecting q.tasks.keys []) ∧ (b = false → p' = .ended)) ∨
      p ≠ .stopping ∧ q'.counter = q.counter) := by
  cases h with
  | @count c f s n hn =>
    refine ⟨.inl ⟨c, f, s, rfl, ?_⟩, .inr ⟨by simp, rfl⟩⟩
    have : ((n : Nat) : Int) = (q.mergesLeft : Int) - 1 := by omega
    simp only [this]
    exact .get _
  | lastProcess hc =>
    refine ⟨.inr ⟨by simp, rfl⟩, .inl ⟨rfl, true, ?_, fun _ => rfl, by simp⟩⟩
    rw [hc]
    exact .isIt 1
  | @notLast n hc hn =>
    refine ⟨.inr ⟨by simp, rfl⟩, .inl ⟨rfl, false, ?_, by simp, fun _ => rfl⟩⟩
    have h1 := Counts.isNot (q.counter : Int) 1 (by omega)
    have : ((n : Nat) : Int) = (q.counter : Int) - 1 := by omega
    simp only [this]
    exact h1
  | _ => exact ⟨.inr ⟨by simp, rfl⟩, .inr ⟨by simp, rfl⟩⟩

/-- A concrete history: three processes, a counter that is 2. -/
example : ∃ w, Star CGo (CWorld.start 2 3) w ∧
    w.log = [(1, .compareAndDec 1, .bool false), (0, .compareAndDec 1, .bool true), (2, .inc, .int 1)] := by
  have h0 : Star CGo (CWorld.start 2 3) (CWorld.start 2 3) := .refl
  have h1 := h0.tail (.call (.call (l := []) (.compareAndDec 1)))
  have h1 := h1.tail (.call (.call (l := [_]) (.compareAndDec 1)))
  have h1 := h1.tail (.step (.acquire (l := [_]) rfl))
  have h1 := h1.tail (.step (.flush (b := []) rfl))
  have h1 := h1.tail (.step (.exec (l := [_]) rfl))
  have h1 := h1.tail (.step (.exec (l := [_]) rfl))
  have h1 := h1.tail (.step (.exec (l := [_]) rfl))
  have h1 := h1.tail (.step (.leave (l := [_])))
  have h1 := h1.tail (.step (.acquire (l := []) rfl))
  have h1 := h1.tail (.step (.exec (l := []) rfl))
  have h1 := h1.tail (.call (.call (l := [_, _]) (r := []) .inc))
  have h1 := h1.tail (.step (.flush (b := []) rfl))
  have h1 := h1.tail (.step (.exec (l := []) rfl))
  have h1 := h1.tail (.step (.exec (l := []) rfl))
  have h1 := h1.tail (.step (.leave (l := [])))
  have h1 := h1.tail (.step (.acquire (l := [_, _]) (r := []) rfl))
  have h1 := h1.tail (.step (.exec (l := [_, _]) (r := []) rfl))
  have h1 := h1.tail (.step (.exec (l := [_, _]) (r := []) rfl))
  have h1 := h1.tail (.step (.leave (l := [_, _]) (r := [])))
  exact ⟨_, h1, rfl⟩

end Verif.Props
