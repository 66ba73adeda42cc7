import Verif.Proofs.LearnDisk
import Verif.Props.BpeLearn
import Verif.Spec.Ties
/-!
# Learning from words in another order, and from words that are more frequent
-/
namespace Verif.Props
open Verif Spec

/-! ## Another order -/

theorem weightedCount_perm {v w : List (List Str × Nat)} (h : v.Perm w) (q : Str × Str) : weightedCount v q = weightedCount w q :=
  (h.map _).sum_nat

theorem learns_perm {ms ms' : List ((Str × Str) × Int)} {v w v' w' : List (List Str × Nat)} {n : Nat} (hv : Learns v ms v')
    (hw : Learns w ms' w') (h : v.Perm w) (ht : NoTies v (ms.map (·.1))) (h1 : ms.length ≤ n)
    (h2 : ms.length < n → ∀ q, weightedCount v' q = 0) (g1 : ms'.length ≤ n) (g2 : ms'.length < n → ∀ q, weightedCount w' q = 0) :
    ms = ms' ∧ v'.Perm w' := by
  induction hv generalizing w ms' n with
  | done v =>
    cases hw with
    | done => exact ⟨rfl, h⟩
    | step hp _ _ =>
      rw [← weightedCount_perm h, h2 (by simp only [List.length_cons] at g1; simp; omega)] at hp
      omega
  | @step v v' p ms hp hm _ ih =>
    cases hw with
    | done =>
      have := g2 (by simp only [List.length_cons] at h1; simp; omega) p
      rw [← weightedCount_perm h] at this
      omega
    | @step _ _ p' ms' hp' hm' hw =>
      cases ht with
      | cons ht1 ht2 =>
        have e : p' = p := by
          rcases Decidable.em (p' = p) with e | e
          · exact e
          · have : weightedCount v p' < weightedCount v p := ht1 p' e
            have := hm' p
            rw [← weightedCount_perm h, ← weightedCount_perm h] at this
            omega
        subst e
        simp only [List.length_cons] at h1 g1 h2 g2
        obtain ⟨rfl, hv'⟩ := ih (n := n - 1) hw (h.map _) ht2 (by omega) (fun h => h2 (by omega)) (by omega) (fun h => g2 (by omega))
        exact ⟨by rw [weightedCount_perm h], hv'⟩

/-! ## More frequent words -/

namespace Times

/-- A dictionary with other values. -/
def mapV {α β γ : Type} (f : β → γ) (d : Dict α β) : Dict α γ := d.map fun e => (e.1, f e.2)

theorem get?_mapV {α β γ : Type} [DecidableEq α] (f : β → γ) (d : Dict α β) (k : α) : (mapV f d).get? k = (d.get? k).map f := by
  induction d with
  | nil => rfl
  | cons e d ih =>
    obtain ⟨a, b⟩ := e
    show Dict.get? ((a, f b) :: mapV f d) k = _
    unfold Dict.get?
    split
    · rfl
    · exact ih

theorem set_mapV {α β γ : Type} [DecidableEq α] (f : β → γ) (d : Dict α β) (k : α) (x : β) : (mapV f d).set k (f x) = mapV f (d.set k x) := by
  induction d with
  | nil => rfl
  | cons e d ih =>
    obtain ⟨a, b⟩ := e
    show Dict.set ((a, f b) :: mapV f d) k (f x) = _
    unfold Dict.set
    split
    · rfl
    · rw [ih]; rfl

theorem del_mapV {α β γ : Type} [DecidableEq α] (f : β → γ) (d : Dict α β) (k : α) : (mapV f d).del k = mapV f (d.del k) := by
  unfold mapV Dict.del
  rw [List.filter_map]
  rfl

variable {k : Nat}

/-- An entry of the queue, `k` times as frequent. -/
def entry {α : Type} (k : Nat) (e : PQEntry α) : PQEntry α := ⟨(k : Int) * e.prio, e.count, e.key⟩

/-- The queue, `k` times as frequent. -/
def queue {α : Type} (k : Nat) (c : PriorityCounter α) : PriorityCounter α :=
  ⟨c.next, c.pq.map (entry k), mapV (fun x => ((k : Int) * x.1, x.2)) c.finder⟩

theorem before_entry {α : Type} (hk : 0 < k) (a b : PQEntry α) : (entry k a).before (entry k b) = a.before b := by
  have h : (0 : Int) < (k : Int) := by omega
  unfold PQEntry.before entry
  have h1 : ((k : Int) * a.prio < (k : Int) * b.prio) ↔ a.prio < b.prio :=
    ⟨fun x => Int.lt_of_mul_lt_mul_left x (by omega), fun x => Int.mul_lt_mul_of_pos_left x h⟩
  have h2 : ((k : Int) * a.prio = (k : Int) * b.prio) ↔ a.prio = b.prio :=
    ⟨fun x => Int.eq_of_mul_eq_mul_left (by omega) x, fun x => by rw [x]⟩
  simp only [h1, h2]

theorem heapPop_entry {α : Type} (hk : 0 < k) (l : List (PQEntry α)) :
    heapPop (l.map (entry k)) = (heapPop l).map fun x => (entry k x.1, x.2.map (entry k)) := by
  induction l with
  | nil => rfl
  | cons e r ih =>
    rw [List.map_cons]
    unfold heapPop
    rw [ih]
    cases heapPop r with
    | none => rfl
    | some x =>
      obtain ⟨e', r'⟩ := x
      simp only [Option.map_some, before_entry hk]
      split <;> rfl

theorem finder_queue {α : Type} [DecidableEq α] (c : PriorityCounter α) (x : α) :
    (queue k c).finder.get? x = (c.finder.get? x).map fun x => ((k : Int) * x.1, x.2) :=
  get?_mapV (fun x : Int × Nat => ((k : Int) * x.1, x.2)) c.finder x

theorem removeTask_queue {α : Type} [DecidableEq α] (c : PriorityCounter α) (x : α) :
    (queue k c).removeTask x = (c.removeTask x).map (queue k) := by
  unfold PriorityCounter.removeTask
  rw [finder_queue]
  cases c.finder.get? x with
  | none => rfl
  | some y =>
    obtain ⟨p, cnt⟩ := y
    simp only [Option.map_some]
    unfold queue
    simp only [Option.some.injEq, PriorityCounter.mk.injEq, true_and]
    refine ⟨?_, del_mapV _ _ _⟩
    rw [List.map_map, List.map_map]
    apply List.map_congr_left
    intro e _
    simp only [Function.comp]
    show (if e.count = cnt then _ else _) = _
    split <;> rfl

theorem add_queue {α : Type} [DecidableEq α] (hk : 0 < k) (c : PriorityCounter α) (x : α) (n : Int) :
    (queue k c).add x ((k : Int) * n) = (c.add x n).map (queue k) := by
  have hneg : ∀ a b : Int, (k : Int) * a + -((k : Int) * b) = (k : Int) * (a + -b) := by
    intro a b; rw [Int.mul_add, Int.mul_neg]
  have hneg' : ∀ b : Int, -((k : Int) * b) = (k : Int) * -b := fun b => (Int.mul_neg _ _).symm
  have hz : ∀ a : Int, (k : Int) * a ≠ 0 ↔ a ≠ 0 := by
    intro a
    constructor
    · rintro h rfl; exact h (Int.mul_zero _)
    · intro h h'
      rcases Int.mul_eq_zero.1 h' with h' | h'
      · omega
      · exact h h'
  unfold PriorityCounter.add
  simp only
  rw [finder_queue]
  cases hx : c.finder.get? x with
  | none =>
    simp only [Option.map_none, hneg', hz]
    split
    · simp only [Option.map_some]
      unfold queue
      simp only [Option.some.injEq, PriorityCounter.mk.injEq, true_and]
      exact ⟨rfl, set_mapV (fun x : Int × Nat => ((k : Int) * x.1, x.2)) c.finder x (_, _)⟩
    · rfl
  | some y =>
    obtain ⟨p, cnt⟩ := y
    simp only [Option.map_some]
    have hr := removeTask_queue (k := k) { c with next := c.next + 1 } x
    rw [show ({ queue k c with next := (queue k c).next + 1 } : PriorityCounter α) = queue k { c with next := c.next + 1 } from rfl, hr]
    cases PriorityCounter.removeTask { c with next := c.next + 1 } x with
    | none => rfl
    | some c' =>
      simp only [Option.map_some, hneg, hz]
      split
      · simp only [Option.map_some]
        unfold queue
        simp only [Option.some.injEq, PriorityCounter.mk.injEq, true_and]
        exact ⟨rfl, set_mapV (fun x : Int × Nat => ((k : Int) * x.1, x.2)) c'.finder x (_, _)⟩
      · rfl

theorem popLoop_queue {α : Type} [DecidableEq α] (hk : 0 < k) : ∀ (n : Nat) (c : PriorityCounter α),
    PriorityCounter.popLoop n (queue k c) = (PriorityCounter.popLoop n c).map fun x => (x.1, (k : Int) * x.2.1, queue k x.2.2)
  | 0, c => rfl
  | n + 1, c => by
    unfold PriorityCounter.popLoop
    rw [show (queue k c).pq = c.pq.map (entry k) from rfl, heapPop_entry hk]
    cases heapPop c.pq with
    | none => rfl
    | some x =>
      obtain ⟨e, r⟩ := x
      obtain ⟨p, cnt, key⟩ := e
      cases key with
      | none => exact popLoop_queue hk n { c with pq := r }
      | some y =>
        simp only [Option.map_some, entry, Option.some.injEq, Prod.mk.injEq, true_and]
        refine ⟨(Int.mul_neg _ _).symm, ?_⟩
        unfold queue
        simp only [PriorityCounter.mk.injEq, true_and]
        exact del_mapV _ _ _

theorem popPair_queue {α : Type} [DecidableEq α] (hk : 0 < k) (c : PriorityCounter α) :
    (queue k c).popPair = c.popPair.map fun x => (x.1, (k : Int) * x.2.1, queue k x.2.2) := by
  unfold PriorityCounter.popPair
  rw [show (queue k c).pq.length = c.pq.length from List.length_map ..]
  exact popLoop_queue hk _ _

/-- Numbers of pairs, `k` times. -/
abbrev nums (k : Nat) (d : Dict Pair Int) : Dict Pair Int := mapV (fun x => (k : Int) * x) d

theorem init_queue (d : Dict Pair Int) : PriorityCounter.init (nums k d) = queue k (PriorityCounter.init d) := by
  have he : ∀ (d : Dict Pair Int) (n : Nat), PriorityCounter.initEntries n (nums k d) = (PriorityCounter.initEntries n d).map (entry k) := by
    intro d
    induction d with
    | nil => intro n; rfl
    | cons e d ih =>
      intro n
      obtain ⟨a, b⟩ := e
      show _ :: PriorityCounter.initEntries (n + 1) (nums k d) = _
      rw [ih]
      show _ = entry k _ :: _
      unfold entry
      simp only [Int.mul_neg]
  unfold PriorityCounter.init queue
  simp only [PriorityCounter.mk.injEq]
  refine ⟨by unfold nums mapV; rw [List.length_map], he d 0, ?_⟩
  rw [he d 0]
  unfold mapV
  rw [List.filterMap_map, List.map_filterMap]
  congr 1
  funext e
  obtain ⟨p, cnt, key⟩ := e
  cases key <;> rfl

theorem bump_nums (d : Dict Pair Int) (p : Pair) (x : Int) : bump (nums k d) p ((k : Int) * x) = nums k (bump d p x) := by
  unfold bump
  rw [get?_mapV]
  have : (Option.map (fun x => (k : Int) * x) (d.get? p)).getD 0 + (k : Int) * x = (k : Int) * ((d.get? p).getD 0 + x) := by
    cases d.get? p with
    | none => simp
    | some y => simp only [Option.map_some, Option.getD_some, Int.mul_add]
  rw [this]
  exact set_mapV (fun x => (k : Int) * x) d p _

theorem statsWord_nums (f : Nat) : ∀ (w : List Str) (d : Dict Pair Int), statsWord (k * f) w (nums k d) = nums k (statsWord f w d)
  | a :: b :: r, d => by
    unfold statsWord
    rw [show ((k * f : Nat) : Int) = (k : Int) * (f : Int) by simp, bump_nums, statsWord_nums f (b :: r)]
  | [], d => rfl
  | [a], d => rfl

theorem statsDict_nums (v : SplitVocab) : statsDict (timesWords k v) = nums k (statsDict v) := by
  unfold statsDict
  have : ∀ (v : SplitVocab) (d : Dict Pair Int), (timesWords k v).foldl (fun d e => statsWord e.2 e.1 d) (nums k d) =
      nums k (v.foldl (fun d e => statsWord e.2 e.1 d) d) := by
    intro v
    induction v with
    | nil => intro d; rfl
    | cons e v ih =>
      intro d
      show List.foldl _ (statsWord (k * e.2) e.1 (nums k d)) (timesWords k v) = _
      rw [statsWord_nums, ih]
      rfl
  exact this v []

/-- Changes of numbers of pairs, `k` times. -/
abbrev changes (k : Nat) (l : List (Pair × Int)) : List (Pair × Int) := l.map fun e => (e.1, (k : Int) * e.2)

theorem addedFor_changes (p : Pair) (occ : Nat) (pre post : List Str) :
    addedFor p (k * occ) pre post = changes k (addedFor p occ pre post) := by
  unfold addedFor changes
  rw [List.map_append, show ((k * occ : Nat) : Int) = (k : Int) * (occ : Int) by simp]
  congr 1
  · cases pre.getLast? with
    | none => rfl
    | some b =>
      simp only
      rw [List.map_cons]
      congr 1
      split
      · rw [List.map_cons, List.map_nil, Int.mul_neg]
      · rfl
  · cases post.head? with
    | none => rfl
    | some b =>
      simp only
      rw [List.map_cons]
      congr 1
      split
      · rw [List.map_cons, List.map_nil, Int.mul_neg]
      · rfl

theorem mergeWord_changes (p : Pair) (occ : Nat) : ∀ (n : Nat) (w : List Str) (acc : List (Pair × Int)),
    mergeWord p (k * occ) n w (changes k acc) = ((mergeWord p occ n w acc).1, changes k (mergeWord p occ n w acc).2)
  | 0, w, acc => rfl
  | n + 1, w, acc => by
    unfold mergeWord
    cases findPair p w with
    | none => rfl
    | some x =>
      obtain ⟨pre, post⟩ := x
      simp only
      rw [addedFor_changes, ← List.map_append]
      exact mergeWord_changes p occ n _ _

theorem mergeVocabLoop_changes (p : Pair) : ∀ (v out : SplitVocab) (acc : List (Pair × Int)),
    mergeVocabLoop p (timesWords k v) (timesWords k out) (changes k acc) =
      (timesWords k (mergeVocabLoop p v out acc).1, changes k (mergeVocabLoop p v out acc).2)
  | [], out, acc => rfl
  | (w, occ) :: r, out, acc => by
    show mergeVocabLoop p ((w, k * occ) :: timesWords k r) _ _ = _
    unfold mergeVocabLoop
    simp only [mergeWord_changes]
    rw [show Dict.set (timesWords k out) (mergeWord p occ w.length w acc).1 (k * occ) = timesWords k (Dict.set out (mergeWord p occ w.length w acc).1 occ)
      from set_mapV (fun x => k * x) out _ occ]
    exact mergeVocabLoop_changes p r _ _

theorem addAll_queue (hk : 0 < k) : ∀ (l : List (Pair × Int)) (c : PriorityCounter Pair),
    addAll (queue k c) (changes k l) = (addAll c l).map (queue k)
  | [], c => rfl
  | (p, x) :: r, c => by
    show addAll (queue k c) ((p, (k : Int) * x) :: changes k r) = _
    unfold addAll
    rw [add_queue hk]
    cases c.add p x with
    | none => rfl
    | some c' => exact addAll_queue hk r c'

theorem append_times (ms : MergeList) (p : Str × Str) (f : Int) (i : Nat) :
    MergeList.append (timesMerges k ms) ⟨p, some ((k : Int) * f), some i⟩ = (MergeList.append ms ⟨p, some f, some i⟩).map (timesMerges k) := by
  unfold MergeList.append
  simp only
  rw [show (timesMerges k ms).length = ms.length from List.length_map ..]
  split
  · rfl
  · exact congrArg Except.ok (set_mapV (fun x : Option Int × Nat => (x.1.map fun f => (k : Int) * f, x.2)) ms p (some f, i))

theorem doMergesLoop_times (hk : 0 < k) : ∀ (n i : Nat) (v : SplitVocab) (c : PriorityCounter Pair) (ms : MergeList),
    doMergesLoop n i (timesWords k v) (queue k c) (timesMerges k ms) =
      (doMergesLoop n i v c ms).map fun x => (timesWords k x.1, timesMerges k x.2)
  | 0, i, v, c, ms => rfl
  | n + 1, i, v, c, ms => by
    unfold doMergesLoop
    rw [popPair_queue hk]
    cases c.popPair with
    | none => rfl
    | some x =>
      obtain ⟨best, occ, c'⟩ := x
      simp only [Option.map_some]
      rw [append_times]
      cases MergeList.append ms ⟨best, some occ, some i⟩ with
      | error e => rfl
      | ok ms' =>
        have hv := mergeVocabLoop_changes (k := k) best v [] []
        have hv' : mergeVocab best (timesWords k v) = (timesWords k (mergeVocab best v).1, changes k (mergeVocab best v).2) := hv
        show (Except.bind (addAll (queue k c') (mergeVocab best (timesWords k v)).2) _) = _
        rw [hv', addAll_queue hk]
        show _ = Except.map _ (Except.bind (addAll c' (mergeVocab best v).2) _)
        cases addAll c' (mergeVocab best v).2 with
        | error e => rfl
        | ok c'' => exact doMergesLoop_times hk n (i + 1) (mergeVocab best v).1 c'' ms'

end Times
end Verif.Props
