import Verif.Model.BpeLearner
/-!
# Learning from frequencies that are all multiplied by the same number
-/
namespace Verif.Scale
open Verif

/-- A dictionary whose values are replaced. -/
def vals {α β γ : Type} (f : β → γ) (d : Dict α β) : Dict α γ := List.map (fun e => (e.1, f e.2)) d

section dict
variable {α β γ : Type} [DecidableEq α] (f : β → γ)

theorem get?_vals (d : Dict α β) (a : α) : Dict.get? (vals f d) a = (Dict.get? d a).map f := by
  induction d with
  | nil => rfl
  | cons e d ih =>
    obtain ⟨x, v⟩ := e
    show (if x = a then some (f v) else Dict.get? (vals f d) a) = _
    by_cases h : x = a
    · rw [if_pos h]; simp [Dict.get?, h]
    · rw [if_neg h, ih]; simp [Dict.get?, h]

theorem set_vals (d : Dict α β) (a : α) (v : β) : Dict.set (vals f d) a (f v) = vals f (Dict.set d a v) := by
  induction d with
  | nil => rfl
  | cons e d ih =>
    obtain ⟨x, w⟩ := e
    show (if x = a then (x, f v) :: vals f d else (x, f w) :: Dict.set (vals f d) a (f v)) = _
    by_cases h : x = a
    · rw [if_pos h]; simp [Dict.set, h, vals]
    · rw [if_neg h, ih]; simp [Dict.set, h, vals]

theorem del_vals (d : Dict α β) (a : α) : Dict.del (vals f d) a = vals f (Dict.del d a) := by
  unfold Dict.del vals
  rw [List.filter_map]
  rfl

omit [DecidableEq α] in
theorem length_vals (d : Dict α β) : (vals f d).length = d.length := List.length_map ..

end dict

/-- Frequencies times `k`. -/
def times (k : Nat) (v : SplitVocab) : SplitVocab := vals (k * ·) v
def timesI {α : Type} (k : Nat) (d : Dict α Int) : Dict α Int := vals ((k : Int) * ·) d
def timesM (k : Nat) (m : MergeList) : MergeList := vals (fun e : Option Int × Nat => (e.1.map ((k : Int) * ·), e.2)) m

theorem bump_times (k : Nat) (d : Dict Pair Int) (p : Pair) (x : Int) : bump (timesI k d) p ((k : Int) * x) = timesI k (bump d p x) := by
  unfold bump timesI
  rw [get?_vals, ← set_vals]
  congr 1
  cases Dict.get? d p with
  | none => simp
  | some y => simp [Int.mul_add]

theorem statsWord_times (k freq : Nat) (w : List Str) (d : Dict Pair Int) :
    statsWord (k * freq) w (timesI k d) = timesI k (statsWord freq w d) := by
  induction w generalizing d with
  | nil => rfl
  | cons a w ih =>
    cases w with
    | nil => rfl
    | cons b r =>
      show statsWord (k * freq) (b :: r) (bump (timesI k d) (a, b) ((k * freq : Nat) : Int)) = _
      rw [Int.natCast_mul, bump_times, ih]
      rfl

theorem statsDict_times (k : Nat) (v : SplitVocab) : statsDict (times k v) = timesI k (statsDict v) := by
  have : ∀ d, List.foldl (fun d (e : List Str × Nat) => statsWord e.2 e.1 d) (timesI k d) (times k v) =
      timesI k (List.foldl (fun d (e : List Str × Nat) => statsWord e.2 e.1 d) d v) := by
    induction v with
    | nil => intro d; rfl
    | cons e v ih =>
      intro d
      show List.foldl _ (statsWord (k * e.2) e.1 (timesI k d)) (times k v) = _
      rw [statsWord_times]
      exact ih _
  exact this []

/-! ## The queue -/

/-- A queue with all priorities times `k`. -/
def entry {α : Type} (k : Nat) (e : PQEntry α) : PQEntry α := { e with prio := k * e.prio }
def queue {α : Type} (k : Nat) (c : PriorityCounter α) : PriorityCounter α :=
  ⟨c.next, c.pq.map (entry k), vals (fun e : Int × Nat => ((k : Int) * e.1, e.2)) c.finder⟩

theorem entries_times {α : Type} (k n : Nat) (d : List (α × Int)) :
    PriorityCounter.initEntries n (timesI k d) = (PriorityCounter.initEntries n d).map (entry k) := by
  induction d generalizing n with
  | nil => rfl
  | cons e d ih =>
    obtain ⟨a, v⟩ := e
    show (⟨-((k : Int) * v), n, some a⟩ : PQEntry α) :: PriorityCounter.initEntries (n + 1) (timesI k d) = _
    rw [ih]
    show _ = (⟨(k : Int) * -v, n, some a⟩ : PQEntry α) :: _
    rw [Int.mul_neg]

theorem init_times {α : Type} [DecidableEq α] (k : Nat) (d : Dict α Int) : PriorityCounter.init (timesI k d) = queue k (PriorityCounter.init d) := by
  unfold PriorityCounter.init queue
  simp only [entries_times, PriorityCounter.mk.injEq, true_and]
  refine ⟨length_vals _ d, ?_⟩
  unfold vals
  rw [List.filterMap_map, List.map_filterMap]
  congr 1
  funext e
  cases h : e.key <;> simp [entry, h]

theorem before_times {α : Type} {k : Nat} (hk : 0 < k) (a b : PQEntry α) : (entry k a).before (entry k b) = a.before b := by
  have h : (0 : Int) < k := by omega
  unfold PQEntry.before entry
  have h1 : ((k : Int) * a.prio < k * b.prio) ↔ a.prio < b.prio := Int.mul_lt_mul_left h
  have h2 : ((k : Int) * a.prio = k * b.prio) ↔ a.prio = b.prio := Int.mul_eq_mul_left_iff (by omega)
  simp only [h1, h2]

theorem heapPop_times {α : Type} {k : Nat} (hk : 0 < k) (l : List (PQEntry α)) :
    heapPop (l.map (entry k)) = (heapPop l).map fun e => (entry k e.1, e.2.map (entry k)) := by
  induction l with
  | nil => rfl
  | cons e l ih =>
    simp only [List.map_cons, heapPop, ih]
    cases heapPop l with
    | none => rfl
    | some x =>
      obtain ⟨e', r'⟩ := x
      simp only [Option.map_some, before_times hk]
      split <;> rfl

theorem popLoop_times {α : Type} [DecidableEq α] {k : Nat} (hk : 0 < k) (n : Nat) (c : PriorityCounter α) :
    (queue k c).popLoop n = (c.popLoop n).map fun e => (e.1, (k : Int) * e.2.1, queue k e.2.2) := by
  induction n generalizing c with
  | zero => rfl
  | succ n ih =>
    unfold PriorityCounter.popLoop
    have hp : heapPop (queue k c).pq = (heapPop c.pq).map fun e => (entry k e.1, e.2.map (entry k)) := heapPop_times hk c.pq
    rw [hp]
    cases heapPop c.pq with
    | none => rfl
    | some x =>
      obtain ⟨e, r⟩ := x
      simp only [Option.map_some]
      cases he : e.key with
      | none =>
        have : (entry k e).key = none := he
        rw [this]
        exact ih { c with pq := r }
      | some a =>
        have : (entry k e).key = some a := he
        rw [this]
        show some (a, -((k : Int) * e.prio), _) = some (a, (k : Int) * -e.prio, _)
        rw [Int.mul_neg]
        unfold queue
        rw [del_vals]

theorem popPair_times {α : Type} [DecidableEq α] {k : Nat} (hk : 0 < k) (c : PriorityCounter α) :
    (queue k c).popPair = c.popPair.map fun e => (e.1, (k : Int) * e.2.1, queue k e.2.2) := by
  unfold PriorityCounter.popPair
  have : (queue k c).pq.length = c.pq.length := List.length_map ..
  rw [this, popLoop_times hk]

theorem removeTask_times {α : Type} [DecidableEq α] (k : Nat) (c : PriorityCounter α) (a : α) :
    (queue k c).removeTask a = (c.removeTask a).map (queue k) := by
  unfold PriorityCounter.removeTask
  have hf : (queue k c).finder.get? a = (c.finder.get? a).map fun e : Int × Nat => ((k : Int) * e.1, e.2) :=
    get?_vals (fun e : Int × Nat => ((k : Int) * e.1, e.2)) c.finder a
  rw [hf]
  cases c.finder.get? a with
  | none => rfl
  | some x =>
    obtain ⟨p, cnt⟩ := x
    simp only [Option.map_some, queue, del_vals, List.map_map, Option.some.injEq, PriorityCounter.mk.injEq, true_and, and_true]
    apply List.map_congr_left
    intro e _
    simp only [Function.comp]
    by_cases h : e.count = cnt
    · rw [if_pos h, if_pos (show (entry k e).count = cnt from h)]
      rfl
    · rw [if_neg h, if_neg (show ¬ (entry k e).count = cnt from h)]

theorem add_times {α : Type} [DecidableEq α] {k : Nat} (hk : 0 < k) (c : PriorityCounter α) (a : α) (x : Int) :
    (queue k c).add a ((k : Int) * x) = (c.add a x).map (queue k) := by
  have hne : ∀ y : Int, ((k : Int) * y ≠ 0) ↔ y ≠ 0 := by
    intro y
    rw [ne_eq, Int.mul_eq_zero]
    constructor
    · exact fun h hy => h (.inr hy)
    · rintro h (h' | h')
      · omega
      · exact h h'
  have hf : (queue k c).finder.get? a = (c.finder.get? a).map fun e : Int × Nat => ((k : Int) * e.1, e.2) :=
    get?_vals (fun e : Int × Nat => ((k : Int) * e.1, e.2)) c.finder a
  have hput : ∀ (c' : PriorityCounter α) (y : Int) (n : Nat),
      ({ queue k c' with finder := (queue k c').finder.set a ((k : Int) * y, n), pq := ⟨(k : Int) * y, n, some a⟩ :: (queue k c').pq } : PriorityCounter α) =
        queue k { c' with finder := c'.finder.set a (y, n), pq := ⟨y, n, some a⟩ :: c'.pq } := by
    intro c' y n
    have := set_vals (fun e : Int × Nat => ((k : Int) * e.1, e.2)) c'.finder a (y, n)
    simp only [queue, List.map_cons, entry, PriorityCounter.mk.injEq, true_and]
    exact this
  unfold PriorityCounter.add
  simp only [hf]
  cases hg : c.finder.get? a with
  | none =>
    simp only [Option.map_none]
    rw [← Int.mul_neg]
    by_cases h : -x ≠ 0
    · rw [if_pos ((hne _).mpr h), if_pos h]
      exact congrArg some (hput { c with next := c.next + 1 } (-x) c.next)
    · rw [if_neg (fun h' => h ((hne _).mp h')), if_neg h]
      rfl
  | some y =>
    obtain ⟨pr, cnt⟩ := y
    simp only [Option.map_some]
    have hr : ({ queue k c with next := (queue k c).next + 1 } : PriorityCounter α).removeTask a =
        (({ c with next := c.next + 1 } : PriorityCounter α).removeTask a).map (queue k) := removeTask_times k { c with next := c.next + 1 } a
    rw [hr]
    cases ({ c with next := c.next + 1 } : PriorityCounter α).removeTask a with
    | none => rfl
    | some c' =>
      simp only [Option.map_some]
      rw [← Int.mul_neg, ← Int.mul_add]
      by_cases h : pr + -x ≠ 0
      · rw [if_pos ((hne _).mpr h), if_pos h]
        exact congrArg some (hput c' (pr + -x) c.next)
      · rw [if_neg (fun h' => h ((hne _).mp h')), if_neg h]
        rfl

/-! ## Learning -/

theorem addedFor_times (k : Nat) (p : Pair) (occ : Nat) (pre post : List Str) :
    addedFor p (k * occ) pre post = timesI k (addedFor p occ pre post) := by
  unfold addedFor timesI vals
  rw [List.map_append]
  congr 1
  · cases pre.getLast? with
    | none => rfl
    | some b => simp only [List.map_cons]; split <;> simp [Int.mul_neg]
  · cases post.head? with
    | none => rfl
    | some b => simp only [List.map_cons]; split <;> simp [Int.mul_neg]

theorem mergeWord_times (k : Nat) (p : Pair) (occ n : Nat) (w : List Str) (acc : List (Pair × Int)) :
    mergeWord p (k * occ) n w (timesI k acc) = ((mergeWord p occ n w acc).1, timesI k (mergeWord p occ n w acc).2) := by
  induction n generalizing w acc with
  | zero => rfl
  | succ n ih =>
    unfold mergeWord
    cases findPair p w with
    | none => rfl
    | some x =>
      obtain ⟨pre, post⟩ := x
      simp only
      rw [addedFor_times, show timesI k acc ++ timesI k (addedFor p occ pre post) = timesI k (acc ++ addedFor p occ pre post) from
        (List.map_append ..).symm]
      exact ih _ _

theorem mergeVocabLoop_times (k : Nat) (p : Pair) (v out : SplitVocab) (acc : List (Pair × Int)) :
    mergeVocabLoop p (times k v) (times k out) (timesI k acc) =
      (times k (mergeVocabLoop p v out acc).1, timesI k (mergeVocabLoop p v out acc).2) := by
  induction v generalizing out acc with
  | nil => rfl
  | cons e v ih =>
    obtain ⟨w, occ⟩ := e
    show mergeVocabLoop p (times k v) (Dict.set (times k out) (mergeWord p (k * occ) w.length w (timesI k acc)).1 (k * occ))
      (mergeWord p (k * occ) w.length w (timesI k acc)).2 = _
    rw [mergeWord_times]
    have := set_vals (k * ·) out (mergeWord p occ w.length w acc).1 occ
    rw [show Dict.set (times k out) (mergeWord p occ w.length w acc).1 (k * occ) = times k (Dict.set out (mergeWord p occ w.length w acc).1 occ) from this]
    exact ih _ _

theorem addAll_times {k : Nat} (hk : 0 < k) (c : PriorityCounter Pair) (l : List (Pair × Int)) :
    addAll (queue k c) (timesI k l) = (addAll c l).map (queue k) := by
  induction l generalizing c with
  | nil => rfl
  | cons e l ih =>
    obtain ⟨p, x⟩ := e
    show (match (queue k c).add p ((k : Int) * x) with | none => Except.error PyErr.keyError | some c' => addAll c' (timesI k l)) = _
    rw [add_times hk, show addAll c ((p, x) :: l) = (match c.add p x with | none => Except.error PyErr.keyError | some c' => addAll c' l) from rfl]
    cases c.add p x with
    | none => rfl
    | some c' => exact ih c'

/-- A merge with its frequency times `k`. -/
def timesMerge (k : Nat) (mg : Merge) : Merge := { mg with freq := mg.freq.map ((k : Int) * ·) }

theorem append_times (k : Nat) (m : MergeList) (mg : Merge) : (timesM k m).append (timesMerge k mg) = (m.append mg).map (timesM k) := by
  obtain ⟨p, f, i⟩ := mg
  have hset : ∀ j, Dict.set (timesM k m) p (f.map ((k : Int) * ·), j) = timesM k (Dict.set m p (f, j)) :=
    fun j => set_vals (fun e : Option Int × Nat => (e.1.map ((k : Int) * ·), e.2)) m p (f, j)
  have hl : (timesM k m).length = m.length := length_vals _ m
  unfold MergeList.append timesMerge
  simp only [hl, hset]
  cases i with
  | none => rfl
  | some i =>
    simp only
    split <;> rfl

theorem appendAll_times (k : Nat) (m : MergeList) (l : List Merge) :
    (timesM k m).appendAll (l.map (timesMerge k)) = (m.appendAll l).map (timesM k) := by
  induction l generalizing m with
  | nil => rfl
  | cons mg l ih =>
    show ((timesM k m).append (timesMerge k mg)).bind (fun m' => MergeList.appendAll m' (l.map (timesMerge k))) =
      ((m.append mg).bind fun m' => MergeList.appendAll m' l).map (timesM k)
    rw [append_times]
    cases m.append mg with
    | error e => rfl
    | ok m' => exact ih m'

theorem addLists_times (k : Nat) (m m' : MergeList) : (timesM k m).add (timesM k m') = (m.add m').map (timesM k) := by
  unfold MergeList.add
  rw [← appendAll_times]
  congr 1
  have hl : (timesM k m).length = m.length := length_vals _ m
  rw [hl]
  simp only [MergeList.toMerges, timesM, vals, List.map_map]
  rfl

theorem doMergesLoop_times {k : Nat} (hk : 0 < k) (n i : Nat) (v : SplitVocab) (c : PriorityCounter Pair) (ms : MergeList) :
    doMergesLoop n i (times k v) (queue k c) (timesM k ms) = (doMergesLoop n i v c ms).map fun r => (times k r.1, timesM k r.2) := by
  induction n generalizing i v c ms with
  | zero => rfl
  | succ n ih =>
    unfold doMergesLoop
    rw [popPair_times hk]
    cases c.popPair with
    | none => rfl
    | some x =>
      obtain ⟨best, occ, c'⟩ := x
      simp only [Option.map_some]
      rw [show (timesM k ms).append ⟨best, some ((k : Int) * occ), some i⟩ = (ms.append ⟨best, some occ, some i⟩).map (timesM k) from
        append_times k ms ⟨best, some occ, some i⟩]
      cases ms.append ⟨best, some occ, some i⟩ with
      | error e => rfl
      | ok ms' =>
        simp only [Except.map, bind, Except.bind]
        have hm : mergeVocab best (times k v) = (times k (mergeVocab best v).1, timesI k (mergeVocab best v).2) := mergeVocabLoop_times k best v [] []
        rw [hm]
        simp only [addAll_times hk]
        cases addAll c' (mergeVocab best v).2 with
        | error e => rfl
        | ok c'' => exact ih _ _ _ _

theorem doMerges_times {k : Nat} (hk : 0 < k) (v : SplitVocab) (n : Nat) :
    doMerges (times k v) n = (doMerges v n).map fun r => (times k r.1, timesM k r.2) := by
  unfold doMerges getStats
  rw [statsDict_times, init_times]
  exact doMergesLoop_times hk n 0 v _ []

/-! ## The learner -/

theorem foldl_set_times {κ β : Type} [DecidableEq κ] (k : Nat) (g : β → κ) (l : Dict β Nat) (d : Dict κ Nat) :
    List.foldl (fun d (e : β × Nat) => Dict.set d (g e.1) e.2) (vals (k * ·) d) (vals (k * ·) l) =
      vals (k * ·) (List.foldl (fun d (e : β × Nat) => Dict.set d (g e.1) e.2) d l) := by
  induction l generalizing d with
  | nil => rfl
  | cons e l ih =>
    show List.foldl _ (Dict.set (vals (k * ·) d) (g e.1) (k * e.2)) (vals (k * ·) l) = _
    rw [set_vals (k * ·) d]
    exact ih _

theorem separate_times {κ : Type} [DecidableEq κ] (k : Nat) (v : Dict κ Nat) (excl : κ → Bool) :
    separateVocabs (vals (k * ·) v) excl = (vals (k * ·) (separateVocabs v excl).1, vals (k * ·) (separateVocabs v excl).2) := by
  unfold separateVocabs
  have : ∀ a b : Dict κ Nat, List.foldl (fun st (e : κ × Nat) => if ¬ excl e.1 then (st.1.set e.1 e.2, st.2) else (st.1, st.2.set e.1 e.2))
      ((vals (k * ·) a, vals (k * ·) b) : Dict κ Nat × Dict κ Nat) (vals (k * ·) v) =
      (vals (k * ·) (List.foldl (fun st (e : κ × Nat) => if ¬ excl e.1 then (st.1.set e.1 e.2, st.2) else (st.1, st.2.set e.1 e.2)) (a, b) v).1,
        vals (k * ·) (List.foldl (fun st (e : κ × Nat) => if ¬ excl e.1 then (st.1.set e.1 e.2, st.2) else (st.1, st.2.set e.1 e.2)) (a, b) v).2) := by
    induction v with
    | nil => intro a b; rfl
    | cons e v ih =>
      intro a b
      obtain ⟨x, n⟩ := e
      simp only [show vals (k * ·) ((x, n) :: v) = (x, k * n) :: vals (k * ·) v from rfl, List.foldl_cons]
      by_cases h : excl x = true
      · simp only [h, not_true_eq_false, if_false]
        rw [set_vals (k * ·) b]
        exact ih _ _
      · simp only [h]
        rw [set_vals (k * ·) a]
        exact ih _ _
  exact this [] []

theorem learnRun_times {k : Nat} (hk : 0 < k) (base other : SplitVocab) (done : MergeList) (n : Nat) :
    learnRun (times k base) (times k other) (timesM k done) n = (learnRun base other done n).map fun r => (times k r.1, timesM k r.2) := by
  unfold learnRun
  have hl : (timesM k done).length = done.length := length_vals _ done
  rw [hl, doMerges_times hk]
  cases doMerges base (n - done.length) with
  | error e => rfl
  | ok r =>
    obtain ⟨v, ms⟩ := r
    simp only [Except.map, bind, Except.bind]
    rw [addLists_times]
    cases done.add ms with
    | error e => rfl
    | ok ms' =>
      simp only [Except.map]
      exact congrArg (fun x => Except.ok (x, timesM k ms')) (foldl_set_times k id other v)

theorem splitBase_times (k : Nat) (v : Dict Str Nat) : splitBaseVocab (vals (k * ·) v) = times k (splitBaseVocab v) :=
  foldl_set_times k (fun w : Str => pySplit ' ' (escape (pyJoin [' '] (w.map fun c => [c])) false)) v []

theorem escapedOther_times (k : Nat) (v : Dict Str Nat) : escapedOther (vals (k * ·) v) = times k (escapedOther v) :=
  foldl_set_times k (fun w : Str => [escape w true]) v []

theorem prepare_times (k : Nat) (all : Dict Str Nat) (nb : List Str) :
    prepareScratch (vals (k * ·) all) nb = (times k (prepareScratch all nb).1, times k (prepareScratch all nb).2) := by
  unfold prepareScratch
  rw [separate_times]
  simp only [splitBase_times, escapedOther_times]

theorem resulting_times (k : Nat) (v : SplitVocab) : createResultingVocab (times k v) = vals (k * ·) (createResultingVocab v) := by
  have inner : ∀ (f : Nat) (w : List Str) (d : Dict Str Nat), List.foldl (fun d s => bumpN d s (k * f)) (vals (k * ·) d) w =
      vals (k * ·) (List.foldl (fun d s => bumpN d s f) d w) := by
    intro f w
    induction w with
    | nil => intro d; rfl
    | cons s w ih =>
      intro d
      simp only [List.foldl_cons]
      rw [← ih]
      congr 1
      unfold bumpN
      rw [get?_vals, ← set_vals]
      congr 1
      cases Dict.get? d s <;> simp [Nat.mul_add]
  unfold createResultingVocab
  have : ∀ d, List.foldl (fun d (e : List Str × Nat) => e.1.foldl (fun d s => bumpN d s e.2) d) (vals (k * ·) d) (times k v) =
      vals (k * ·) (List.foldl (fun d (e : List Str × Nat) => e.1.foldl (fun d s => bumpN d s e.2) d) d v) := by
    induction v with
    | nil => intro d; rfl
    | cons e v ih =>
      intro d
      show List.foldl _ (List.foldl (fun d s => bumpN d s (k * e.2)) (vals (k * ·) d) e.1) (times k v) = _
      rw [inner]
      exact ih _
  exact this []

theorem cache_times (k : Nat) (v : SplitVocab) : createBpeCache (times k v) = createBpeCache v := by
  unfold createBpeCache times vals
  rw [List.foldl_map]

end Verif.Scale
