import Verif.Proofs.VocabInv
/-!
# The start of the merger processes
-/
namespace Verif
open Spec

/-- One vocabulary more. -/
def mapifyOne (d : Dict Nat (List PVocab)) (t : PVocab) : Dict Nat (List PVocab) :=
  d.set t.chunk ((d.get? t.chunk).getD [] ++ [t])

theorem mapifyOne_items (d : Dict Nat (List PVocab)) (t : PVocab) :
    (queueItems (mapifyOne d t)).Perm (.done t :: queueItems d) := by
  unfold mapifyOne
  cases h : d.get? t.chunk with
  | some l => exact queue_push h t
  | none =>
    rw [Dict.set_of_not_mem _ _ _ (Dict.get?_eq_none.mp h)]
    simp only [queueItems, Option.getD_none, List.nil_append, List.map_append, List.map_cons, List.map_nil,
      List.flatten_append, List.flatten_cons, List.flatten_nil]
    exact List.perm_append_singleton _ _

theorem mapifyOne_wf {d : Dict Nat (List PVocab)} (t : PVocab) (h : d.WF) : (mapifyOne d t).WF := by
  unfold mapifyOne
  cases hg : d.get? t.chunk with
  | some l => exact wf_set hg h
  | none =>
    have hk := Dict.get?_eq_none.mp hg
    rw [Dict.set_of_not_mem _ _ _ hk]
    show (Dict.keys _).Nodup
    simp only [Dict.keys, List.map_append, List.map_cons, List.map_nil]
    refine List.nodup_append.mpr ⟨h, by simp, ?_⟩
    intro a ha b hb e
    simp only [List.mem_singleton] at hb
    exact hk (hb ▸ e ▸ ha)

theorem mapifyOne_nonempty {d : Dict Nat (List PVocab)} (t : PVocab) (h : ∀ c l, d.get? c = some l → l ≠ []) :
    ∀ c l, (mapifyOne d t).get? c = some l → l ≠ [] := by
  intro c l hg
  unfold mapifyOne at hg
  rw [Dict.get?_set] at hg
  split at hg
  · cases hg; simp
  · exact h c l hg

theorem mapify_spec (tasks : List PVocab) (d : Dict Nat (List PVocab)) (hw : d.WF) (hn : ∀ c l, d.get? c = some l → l ≠ []) :
    (tasks.foldl mapifyOne d).WF ∧ (∀ c l, (tasks.foldl mapifyOne d).get? c = some l → l ≠ []) ∧
      (queueItems (tasks.foldl mapifyOne d)).Perm (tasks.map .done ++ queueItems d) := by
  induction tasks generalizing d with
  | nil => exact ⟨hw, hn, List.Perm.refl _⟩
  | cons t ts ih =>
    obtain ⟨h1, h2, h3⟩ := ih (mapifyOne d t) (mapifyOne_wf t hw) (mapifyOne_nonempty t hn)
    refine ⟨h1, h2, h3.trans ?_⟩
    refine ((mapifyOne_items d t).append_left _).trans ?_
    exact List.perm_middle

theorem mapifyTasks_spec (tasks : List PVocab) :
    (mapifyTasks tasks).WF ∧ (∀ c l, (mapifyTasks tasks).get? c = some l → l ≠ []) ∧
      (queueItems (mapifyTasks tasks)).Perm (tasks.map .done) := by
  have h := mapify_spec tasks [] (by simp [Dict.WF, Dict.keys]) (by simp [Dict.get?])
  refine ⟨h.1, h.2.1, ?_⟩
  have := h.2.2
  rw [show queueItems [] = [] from rfl, List.append_nil] at this
  exact this

theorem count_tokens {t : Dict Nat (List PVocab)} (hw : t.WF) {c : Nat} {l : List PVocab} (h : t.get? c = some l) :
    ((t.map fun e => List.replicate (e.2.length - 1) e.1).flatten).count c = l.length - 1 := by
  obtain ⟨a, b, h1, -⟩ := dict_split h
  have hnd : (Dict.keys t).Nodup := hw
  rw [h1] at hnd ⊢
  have zero : ∀ u : Dict Nat (List PVocab), c ∉ Dict.keys u →
      ((u.map fun e => List.replicate (e.2.length - 1) e.1).flatten).count c = 0 := by
    intro u hu
    rw [List.count_eq_zero]
    intro hm
    obtain ⟨x, hx, hcx⟩ := List.mem_flatten.mp hm
    obtain ⟨e, he, rfl⟩ := List.mem_map.mp hx
    exact hu (List.mem_map.mpr ⟨e, he, (List.eq_of_mem_replicate hcx).symm⟩)
  simp only [Dict.keys, List.map_append, List.map_cons] at hnd
  have h2 := List.nodup_append.mp hnd
  have ha := zero a (fun hh => h2.2.2 c hh c (by simp) rfl)
  have hb := zero b (List.nodup_cons.mp h2.2.1).1
  simp only [List.map_append, List.map_cons, List.flatten_append, List.flatten_cons, List.count_append, ha, hb,
    List.count_replicate_self]
  omega

theorem startQueues_normal {tasks : List PVocab} (hne : tasks ≠ []) {n : Nat} (hn : 0 < n) :
    Normal (((mapifyTasks tasks).map fun e => List.replicate (e.2.length - 1) e.1).flatten) (startQueues tasks n)
      (List.replicate n (.idle, true)) := by
  obtain ⟨h1, h2, h3⟩ := mapifyTasks_spec tasks
  have hmap : ((mapifyTasks tasks).map fun e => (e.1, e.2.length)).map (fun e => List.replicate (e.2 - 1) e.1) =
      (mapifyTasks tasks).map fun e => List.replicate (e.2.length - 1) e.1 := by
    rw [List.map_map]; rfl
  have rep : ∀ P : PState × Bool → Bool, (List.replicate n (PState.idle, true)).countP P = if P (.idle, true) then n else 0 :=
    fun P => List.countP_replicate
  constructor
  · show (createChunkQueue _ n).1 = _
    unfold createChunkQueue
    simp only [hmap, rep, PState.hungry, if_true]
  · intro _ p hp
    rw [List.eq_of_mem_replicate hp]; rfl
  · intro p hp
    rw [List.eq_of_mem_replicate hp]; rfl
  · show n = _
    simp only [rep, PState.notEnded, if_true]
  · exact hn
  · exact h1
  · intro hk
    have : mapifyTasks tasks = [] := by
      have hk' : (mapifyTasks tasks).map (·.1) = [] := hk
      exact List.map_eq_nil_iff.mp hk'
    rw [this] at h3
    have := h3.length_eq
    simp [queueItems] at this
    exact hne (List.eq_nil_of_length_eq_zero this.symm)
  · intro c hc
    obtain ⟨x, hx, hcx⟩ := List.mem_flatten.mp hc
    obtain ⟨e, he, rfl⟩ := List.mem_map.mp hx
    rw [List.eq_of_mem_replicate hcx]
    exact List.mem_map_of_mem he
  · intro p hp c hc
    rw [List.eq_of_mem_replicate hp] at hc
    cases hc
  · intro c l hg
    have hl := h2 c l hg
    have := List.length_pos_iff.mpr hl
    rw [count_tokens h1 hg]
    simp only [rep, PState.merges, PState.wants, Bool.false_eq_true, if_false]
    omega
  · show (createChunkQueue _ n).2 = _
    unfold createChunkQueue
    simp only [hmap, rep, PState.uncounted, Bool.false_eq_true, if_false, Nat.add_zero]

/-- The invariant holds at the start. -/
theorem RunInv.start {C W} {dk : Disk} {tasks : List PVocab} (hne : tasks ≠ []) {n : Nat} (hn : 0 < n) (hv : dk.vocab = none)
    (hs : Stored C W dk (tasks.map .done)) :
    RunInv C W dk (startQueues tasks n) (List.replicate n (.idle, true)) := by
  refine .normal _ (startQueues_normal hne hn) hv (hs.reorder ?_)
  have hp : procItems (List.replicate n (PState.idle, true)) = [] := by
    unfold procItems
    rw [List.flatten_eq_nil_iff]
    intro x hx
    obtain ⟨e, he, rfl⟩ := List.mem_map.mp hx
    rw [List.eq_of_mem_replicate he]; rfl
  unfold owned
  rw [hp, List.append_nil]
  exact (mapifyTasks_spec tasks).2.2.symm

end Verif
