import Verif.Proofs.VocabStep
/-!
# Invariant of the merger processes
-/
namespace Verif
open Spec

/-! ### What the processes and queues hold -/

/-- The vocabularies and merges a process has. -/
def PState.items : PState → List MState
  | .holding _ f => [.done f]
  | .counting _ f s => [.ready f s]
  | .merging _ m => [m]
  | .collecting _ got => got.map .done
  | .combining m rest => m :: rest.map .done
  | .writingStats v => [.done v]
  | .openVocab v => [.done v]
  | .writingVocab v _ => [.done v]
  | _ => []

/-- The vocabularies in the queues. -/
def queueItems (t : Dict Nat (List PVocab)) : List MState := (t.map (·.2)).flatten.map .done

/-- The vocabularies and merges of some processes. -/
def procItems (ps : List (PState × Bool)) : List MState := (ps.map fun p => p.1.items).flatten

/-- All vocabularies and merges. -/
def owned (t : Dict Nat (List PVocab)) (ps : List (PState × Bool)) : List MState := queueItems t ++ procItems ps

theorem procItems_split (l r : List (PState × Bool)) (p : PState × Bool) :
    (procItems (l ++ p :: r)).Perm (p.1.items ++ procItems (l ++ r)) := by
  simp only [procItems, List.map_append, List.map_cons, List.flatten_append, List.flatten_cons]
  rw [← List.append_assoc, ← List.append_assoc]
  exact List.perm_append_comm.append_right _

theorem owned_split (t : Dict Nat (List PVocab)) (l r : List (PState × Bool)) (p : PState × Bool) :
    (owned t (l ++ p :: r)).Perm (p.1.items ++ (queueItems t ++ procItems (l ++ r))) := by
  unfold owned
  refine ((procItems_split l r p).append_left _).trans ?_
  rw [← List.append_assoc, ← List.append_assoc]
  exact List.perm_append_comm.append_right _

theorem dict_split {β : Type} {t : Dict Nat β} {c : Nat} {x : β} (h : t.get? c = some x) :
    ∃ l r, t = l ++ (c, x) :: r ∧ ∀ y, t.set c y = l ++ (c, y) :: r := by
  induction t with
  | nil => simp [Dict.get?] at h
  | cons e t ih =>
    obtain ⟨k, v⟩ := e
    by_cases hk : k = c
    · subst hk
      simp [Dict.get?] at h
      subst h
      exact ⟨[], t, rfl, fun y => by simp [Dict.set]⟩
    · simp only [Dict.get?, hk, if_false] at h
      obtain ⟨l, r, h1, h2⟩ := ih h
      refine ⟨(k, v) :: l, r, by rw [h1]; rfl, fun y => ?_⟩
      simp only [Dict.set, hk, if_false]
      rw [h2]
      rfl

theorem queue_pop {t : Dict Nat (List PVocab)} {c : Nat} {v : PVocab} {r : List PVocab} (h : t.get? c = some (v :: r)) :
    (queueItems t).Perm (.done v :: queueItems (t.set c r)) := by
  obtain ⟨a, b, h1, h2⟩ := dict_split h
  rw [h2]
  conv => lhs; rw [h1]
  simp only [queueItems, List.map_append, List.map_cons, List.flatten_append, List.flatten_cons, List.cons_append]
  exact List.perm_middle

theorem queue_push {t : Dict Nat (List PVocab)} {c : Nat} {l : List PVocab} (h : t.get? c = some l) (v : PVocab) :
    (queueItems (t.set c (l ++ [v]))).Perm (.done v :: queueItems t) := by
  obtain ⟨a, b, h1, h2⟩ := dict_split h
  rw [h2]
  conv => rhs; rw [h1]
  simp only [queueItems, List.map_append, List.map_cons, List.map_nil, List.flatten_append, List.flatten_cons]
  rw [List.append_assoc, ← List.append_assoc]
  exact List.perm_middle.trans (by simp)

/-- All counts and words together. -/
structure Tot (C : Tally → Nat) (W : Str → Prop) (items : List MState) : Prop where
  count : ∀ w, (items.map (MState.count w)).sum = C w
  word : ∀ w, (∃ it ∈ items, it.hasWord w) ↔ W w

theorem Tot.reorder {C W} {a b : List MState} (h : Tot C W a) (hp : a.Perm b) : Tot C W b where
  count w := by rw [← h.count w]; exact ((hp.map _).sum_nat).symm
  word w := by rw [← h.word w]; exact ⟨fun ⟨i, hi, x⟩ => ⟨i, hp.mem_iff.mpr hi, x⟩, fun ⟨i, hi, x⟩ => ⟨i, hp.mem_iff.mp hi, x⟩⟩

theorem Tot.change {C W} {m m' : MState} {rest : List MState} (h : Tot C W (m :: rest))
    (he : (∀ w, m'.count w = m.count w) ∧ ∀ w, m'.hasWord w ↔ m.hasWord w) : Tot C W (m' :: rest) where
  count w := by rw [← h.count w]; simp [he.1 w]
  word w := by rw [← h.word w]; simp [he.2 w]

theorem Tot.pair {C W} {f s : PVocab} {rest : List MState} (h : Tot C W (.done f :: .done s :: rest)) :
    Tot C W (.ready f s :: rest) where
  count w := by rw [← h.count w]; simp [MState.count, Nat.add_assoc]
  word w := by rw [← h.word w]; simp [MState.hasWord, or_assoc]

theorem Tot.unpair {C W} {f s : PVocab} {rest : List MState} (h : Tot C W (.ready f s :: rest)) :
    Tot C W (.done f :: .done s :: rest) where
  count w := by rw [← h.count w]; simp [MState.count, Nat.add_assoc]
  word w := by rw [← h.word w]; simp [MState.hasWord, or_assoc]

theorem Holds.pair {f s : PVocab} {rest : List MState} {dir : DumpDir} (h : Holds (.done f :: .done s :: rest) dir) :
    Holds (.ready f s :: rest) dir where
  perm := by simpa [MState.files] using h.perm
  nodup := by simpa [MState.ids] using h.nodup
  ok := by
    intro it hit
    rcases List.mem_cons.mp hit with rfl | hit
    · exact ⟨h.ok (.done f) (by simp), h.ok (.done s) (by simp)⟩
    · exact h.ok it (by simp [hit])

theorem Holds.unpair {f s : PVocab} {rest : List MState} {dir : DumpDir} (h : Holds (.ready f s :: rest) dir) :
    Holds (.done f :: .done s :: rest) dir where
  perm := by simpa [MState.files] using h.perm
  nodup := by simpa [MState.ids] using h.nodup
  ok := by
    have := h.ok (.ready f s) (by simp)
    intro it hit
    rcases List.mem_cons.mp hit with rfl | hit
    · exact this.1
    · rcases List.mem_cons.mp hit with rfl | hit
      · exact this.2
      · exact h.ok it (by simp [hit])

/-! ### Counting processes -/

/-- The process has not got its `-1` yet. -/
def PState.hungry : PState → Bool
  | .idle | .assigned _ | .holding _ _ | .counting _ _ _ | .merging _ _ => true
  | _ => false

/-- The process has not started to finish the merges. -/
def PState.early : PState → Bool
  | .stopping | .ended => true
  | p => p.hungry

/-- The process has not been counted as terminated. -/
def PState.notEnded : PState → Bool
  | .ended => false
  | _ => true

/-- The process waits for the first vocabulary of chunk `c`. -/
def PState.wants (c : Nat) : PState → Bool
  | .assigned c' => c' = c
  | _ => false

/-- The process merges two vocabularies of chunk `c`. -/
def PState.merges (c : Nat) : PState → Bool
  | .counting c' _ _ => c' = c
  | .merging c' _ => c' = c
  | _ => false

/-- The process has a chunk but has not counted its merge yet. -/
def PState.uncounted : PState → Bool
  | .assigned _ | .holding _ _ | .counting _ _ _ => true
  | _ => false

/-- The chunk of a process. -/
def PState.chunk? : PState → Option Nat
  | .assigned c | .holding c _ | .counting c _ _ | .merging c _ => some c
  | _ => none

/-- How the queues and processes fit together before the merges are finished. -/
structure Normal (tokens : List Nat) (q : Queues) (ps : List (PState × Bool)) : Prop where
  queue : q.chunkQ = tokens.map some ++ List.replicate (ps.countP fun p => p.1.hungry) none
  started : tokens ≠ [] → ∀ p ∈ ps, p.1.hungry = true
  early : ∀ p ∈ ps, p.1.early = true
  counter : q.counter = ps.countP fun p => p.1.notEnded
  active : 1 ≤ q.counter
  wf : q.tasks.WF
  nonempty : q.tasks.keys ≠ []
  tokensIn : ∀ c ∈ tokens, c ∈ q.tasks.keys
  procsIn : ∀ p ∈ ps, ∀ c, p.1.chunk? = some c → c ∈ q.tasks.keys
  balance : ∀ c l, q.tasks.get? c = some l →
    l.length + ps.countP (fun p => p.1.merges c) = tokens.count c + ps.countP (fun p => p.1.wants c) + 1
  merges : q.mergesLeft = tokens.length + ps.countP fun p => p.1.uncounted

/-- A table of counts has all the words. -/
structure IsTotal (C : Tally → Nat) (W : Str → Prop) (d : Dict Str Nat) : Prop where
  wf : d.WF
  count : ∀ w, countIn d w = C (.word w)
  word : ∀ w, w ∈ d.keys ↔ W w

/-- The final files are completely written. -/
def Complete (C : Tally → Nat) (W : Str → Prop) (dk : Disk) : Prop :=
  ∃ d ls, IsTotal C W d ∧ dk.stats = some (.complete d.length ls) ∧ dk.vocab = some (writeVocab d)

/-- What holds of the process that finishes the merges. -/
def FinOk (C : Tally → Nat) (W : Str → Prop) (dk : Disk) (q : Queues) : PState → Prop
  | .collecting todo got => dk.vocab = none ∧ q.tasks.WF ∧ ∃ ks, q.tasks.keys = ks ++ todo ∧ got.length = ks.length ∧
      q.tasks.keys ≠ [] ∧
      (∀ c ∈ ks, q.tasks.get? c = some []) ∧ ∀ c ∈ todo, ∃ v, q.tasks.get? c = some [v]
  | .combining _ _ => dk.vocab = none ∧ queueItems q.tasks = []
  | .writingStats _ => dk.vocab = none ∧ queueItems q.tasks = []
  | .openVocab v => dk.vocab = none ∧ queueItems q.tasks = [] ∧ ∃ ls, dk.stats = some (.complete v.counts.length ls)
  | .writingVocab v rest => queueItems q.tasks = [] ∧ (∃ ls, dk.stats = some (.complete v.counts.length ls)) ∧
      ∃ t, dk.vocab = some t ∧ t ++ rest = writeVocab v.counts
  | .removing => Complete C W dk
  | .ended => Complete C W dk ∧ dk.dir = []
  | _ => False

/-- Before the files are removed, the directory has everything. -/
def Stored (C : Tally → Nat) (W : Str → Prop) (dk : Disk) (items : List MState) : Prop := Holds items dk.dir ∧ Tot C W items

theorem Stored.reorder {C W dk} {a b : List MState} (h : Stored C W dk a) (hp : a.Perm b) : Stored C W dk b :=
  ⟨h.1.reorder hp, h.2.reorder hp⟩

/-- The process is past the point where the files are needed. -/
def PState.after : PState → Bool
  | .removing | .ended => true
  | _ => false

/-- The state of the statistics file if it says that it is complete. -/
def StatsInv (C : Tally → Nat) (W : Str → Prop) (dk : Disk) : Prop :=
  ∀ n ls, dk.stats = some (.complete n ls) → ∃ v : PVocab, IsTotal C W v.counts ∧ (∀ w, v.tally w = C w) ∧ StatsOk v ∧ v.writeStats = .ok (n, ls)

/-- The invariant of a run. -/
inductive RunInv (C : Tally → Nat) (W : Str → Prop) (dk : Disk) (q : Queues) (ps : List (PState × Bool)) : Prop where
  | normal (tokens : List Nat) : Normal tokens q ps → dk.vocab = none → Stored C W dk (owned q.tasks ps) → RunInv C W dk q ps
  | finish (l r : List (PState × Bool)) (p : PState) (b : Bool) : ps = l ++ (p, b) :: r →
      (∀ x ∈ l ++ r, x.1 = .ended) → FinOk C W dk q p →
      (p.after = false → Stored C W dk (owned q.tasks ps)) → q.mergesLeft = 0 → RunInv C W dk q ps

end Verif
