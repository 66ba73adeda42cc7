import Verif.Model.BpeLearn
import Verif.Spec.BpeLearn
import Verif.Proofs.BpeCore
import Verif.Proofs.PriorityCounter
/-!
# Proofs about byte-pair learning
-/
namespace Verif
set_option linter.unusedSimpArgs false
set_option linter.unusedSectionVars false
set_option linter.unnecessarySeqFocus false
open Spec Dict

/-! ## Reference counter values -/
section ref
variable {α : Type} [DecidableEq α]

theorem Spec.Ref.value_erase (r : Ref α) (k q : α) : (r.erase k).value q = if q = k then 0 else r.value q := by
  induction r with
  | nil => simp [Ref.erase, Ref.value]
  | cons e r ih =>
    simp only [Ref.erase, Ref.value] at ih ⊢
    by_cases h : e.1 = k
    · have : (decide (e.1 ≠ k)) = false := by simp [h]
      rw [List.filter_cons_of_neg (by simp [h]), ih]
      split
      · rfl
      · rename_i hq
        have : e.1 ≠ q := by rw [h]; exact Ne.symm hq
        simp [List.find?_cons, this]
    · rw [List.filter_cons_of_pos (by simp [h])]
      by_cases hq : e.1 = q
      · have : q ≠ k := by rw [← hq]; exact h
        simp [List.find?_cons, hq, this]
      · simp only [List.find?_cons, hq, decide_false]
        exact ih

theorem Spec.Ref.value_append_single (r : Ref α) (k q : α) (x : Int) (h : ∀ e ∈ r, e.1 ≠ k) :
    Ref.value (r ++ [(k, x)]) q = if q = k then x else r.value q := by
  induction r with
  | nil => simp only [Ref.value, List.nil_append, List.find?_cons]; by_cases hq : k = q <;> simp [hq, eq_comm]
  | cons e r ih =>
    have := ih (fun e he => h e (List.mem_cons_of_mem _ he))
    simp only [Ref.value, List.cons_append] at this ⊢
    by_cases hq : e.1 = q
    · have hk : q ≠ k := by rw [← hq]; exact h e (by simp)
      simp [List.find?_cons, hq, hk]
    · simp only [List.find?_cons, hq, decide_false]; exact this

theorem Spec.Ref.value_add (r : Ref α) (k q : α) (x : Int) :
    (r.add k x).value q = r.value q + if q = k then x else 0 := by
  unfold Ref.add
  split
  · rename_i h
    rw [Ref.value_erase]
    split
    · rename_i hq; subst hq; omega
    · simp
  · rw [Ref.value_append_single _ _ _ _ (by intro e he; simpa using (List.mem_filter.1 he).2), Ref.value_erase]
    split
    · rename_i hq; subst hq; omega
    · simp

theorem Spec.Ref.nonzero_add {r : Ref α} (h : ∀ e ∈ r, e.2 ≠ 0) (k : α) (x : Int) : ∀ e ∈ r.add k x, e.2 ≠ 0 := by
  unfold Ref.add
  intro e he
  split at he
  · exact h e (List.mem_filter.1 he).1
  · rename_i hz
    rcases List.mem_append.1 he with he | he
    · exact h e (List.mem_filter.1 he).1
    · simp only [List.mem_singleton] at he; subst he; exact hz

theorem Refines.nodup {c : PriorityCounter α} {r : Ref α} (h : Refines c r) : (r.map (·.1)).Nodup := by
  obtain ⟨L, hL, rfl⟩ := h
  rw [List.map_map]; exact hL.keys

theorem Spec.Ref.value_mem {r : Ref α} (hk : (r.map (·.1)).Nodup) {k : α} {x : Int} (h : (k, x) ∈ r) : r.value k = x := by
  induction r with
  | nil => simp at h
  | cons e r ih =>
    simp only [List.map_cons, List.nodup_cons] at hk
    rcases List.mem_cons.1 h with rfl | h
    · simp [Ref.value]
    · have hne : e.1 ≠ k := by
        rintro rfl
        exact hk.1 (List.mem_map.2 ⟨_, h, rfl⟩)
      have := ih hk.2 h
      simp only [Ref.value, List.find?_cons, hne, decide_false] at this ⊢
      exact this

theorem Spec.Ref.value_ne_zero {r : Ref α} {k : α} (h : r.value k ≠ 0) : (k, r.value k) ∈ r := by
  by_cases hm : ∃ v, (k, v) ∈ r
  · simp only [Ref.value] at h ⊢
    cases hf : r.find? (fun e => e.1 = k) with
    | none => rw [hf] at h; simp at h
    | some e =>
      have h1 := List.find?_some hf
      have h2 := List.mem_of_find?_eq_some hf
      simp only [decide_eq_true_eq] at h1
      simp only [Option.map_some, Option.getD_some, ← h1]
      exact h2
  · exact absurd (value_of_not_mem (fun v hv => hm ⟨v, hv⟩)) h

theorem Spec.Ref.IsTop.mem {r : Ref α} {m : α × Int} (h : r.IsTop m) : m ∈ r := by
  obtain ⟨a, b, rfl, _⟩ := h; simp

theorem Spec.Ref.IsTop.max {r : Ref α} {m : α × Int} (h : r.IsTop m) : ∀ x ∈ r, x.2 ≤ m.2 := by
  obtain ⟨a, b, rfl, h1, h2⟩ := h
  intro x hx
  rcases List.mem_append.1 hx with hx | hx
  · exact Int.le_of_lt (h1 x hx)
  · rcases List.mem_cons.1 hx with rfl | hx
    · exact Int.le_refl _
    · exact h2 x hx

end ref

/-! ## Counting pairs -/

theorem pairCount_pos {p : Pair} : ∀ {s : List Str}, 0 < pairCount p s ↔ Adjacent p s
  | [] => by simp [pairCount, adjacent_nil]
  | [a] => by simp [pairCount, adjacent_single]
  | a :: b :: r => by
    rw [pairCount, adjacent_cons_cons, ← pairCount_pos (s := b :: r)]
    split <;> simp_all <;> omega

theorem pairCount_eq_zero {p : Pair} {s : List Str} : pairCount p s = 0 ↔ ¬ Adjacent p s := by
  rw [← pairCount_pos]; omega

/-- contribution of the boundary between two lists -/
def bd (q : Pair) (a b : Option Str) : Nat := if a = some q.1 ∧ b = some q.2 then 1 else 0

theorem pairCount_cons (q : Pair) (a : Str) (s : List Str) : pairCount q (a :: s) = bd q (some a) s.head? + pairCount q s := by
  cases s with
  | nil => simp [pairCount, bd]
  | cons b r => simp [pairCount, bd]

theorem pairCount_append (q : Pair) (s t : List Str) :
    pairCount q (s ++ t) = pairCount q s + bd q s.getLast? t.head? + pairCount q t := by
  induction s with
  | nil => simp [pairCount, bd]
  | cons a r ih =>
    rw [List.cons_append, pairCount_cons, ih, pairCount_cons]
    cases r with
    | nil => simp [bd, pairCount]
    | cons b r' => simp [List.getLast?_cons_cons]; omega

/-- total change recorded for the pair `q` -/
def sumAdd (q : Pair) (l : List (Pair × Int)) : Int := (l.map fun e => if e.1 = q then e.2 else 0).sum

theorem sumAdd_append (q : Pair) (a b : List (Pair × Int)) : sumAdd q (a ++ b) = sumAdd q a + sumAdd q b := by
  simp [sumAdd]

theorem sumAdd_nil (q : Pair) : sumAdd q [] = 0 := rfl

theorem sumAdd_cons (q : Pair) (e : Pair × Int) (l : List (Pair × Int)) :
    sumAdd q (e :: l) = (if e.1 = q then e.2 else 0) + sumAdd q l := by simp [sumAdd]

theorem append_ne_left {x y : Str} (h : y ≠ []) : x ++ y ≠ x := by
  intro e; exact h (by simpa using e)

theorem append_ne_right {x y : Str} (h : x ≠ []) : x ++ y ≠ y := by
  intro e; exact h (by simpa using e)

/-- first half of `addedFor` -/
def addedBefore (p : Pair) (occ : Nat) : Option Str → List (Pair × Int)
  | none => []
  | some before => ((before, p.1 ++ p.2), (occ : Int)) ::
      (if p ≠ (before, p.1) then [((before, p.1), -(occ : Int))] else [])

/-- second half of `addedFor` -/
def addedAfter (p : Pair) (occ : Nat) : Option Str → List (Pair × Int)
  | none => []
  | some after => ((p.1 ++ p.2, after), (occ : Int)) ::
      (if p ≠ (p.2, after) then [((p.2, after), -(occ : Int))] else [])

theorem addedFor_eq (p : Pair) (occ : Nat) (pre post : List Str) :
    addedFor p occ pre post = addedBefore p occ pre.getLast? ++ addedAfter p occ post.head? := by
  simp only [addedFor]
  congr 1

theorem addedFor_self {p : Pair} (h1 : p.1 ≠ []) (h2 : p.2 ≠ []) (occ : Nat) (pre post : List Str) :
    sumAdd p (addedFor p occ pre post) = 0 := by
  have e1 := append_ne_left (x := p.1) h2
  have e2 := append_ne_right (y := p.2) h1
  have n1 : ∀ b, ¬ ((b, p.1 ++ p.2) = p) := by
    intro b e; have := congrArg Prod.snd e; exact e2 this
  have n2 : ∀ b, ¬ ((p.1 ++ p.2, b) = p) := by
    intro b e; have := congrArg Prod.fst e; exact e1 this
  rw [addedFor_eq, sumAdd_append]
  have l1 : ∀ o : Option Str, sumAdd p (addedBefore p occ o) = 0 := by
    intro o
    cases o with
    | none => rfl
    | some b =>
      simp only [addedBefore, sumAdd_cons, n1, if_false]
      split
      · rename_i h; simp [sumAdd_cons, sumAdd_nil, Ne.symm h]
      · simp [sumAdd_nil]
  have l2 : ∀ o : Option Str, sumAdd p (addedAfter p occ o) = 0 := by
    intro o
    cases o with
    | none => rfl
    | some b =>
      simp only [addedAfter, sumAdd_cons, n2, if_false]
      split
      · rename_i h; simp [sumAdd_cons, sumAdd_nil, Ne.symm h]
      · simp [sumAdd_nil]
  rw [l1, l2]; rfl

theorem addedFor_other {p q : Pair} (hq : q ≠ p) (occ : Nat) (pre post : List Str) :
    sumAdd q (addedFor p occ pre post) =
      (occ : Int) * pairCount q (pre ++ (p.1 ++ p.2) :: post) - occ * pairCount q (pre ++ p.1 :: p.2 :: post) := by
  have hpq : bd q (some p.1) (some p.2) = 0 := by
    simp only [bd]
    split
    · rename_i h
      simp only [Option.some.injEq] at h
      exact absurd (Prod.ext h.1.symm h.2.symm) hq
    · rfl
  rw [addedFor_eq, sumAdd_append]
  have l1 : ∀ o : Option Str, sumAdd q (addedBefore p occ o)
      = occ * (bd q o (some (p.1 ++ p.2)) : Int) - occ * (bd q o (some p.1) : Int) := by
    intro o
    cases o with
    | none => simp [sumAdd, bd, addedBefore, addedAfter]
    | some b =>
      simp only [addedBefore, sumAdd_cons, bd, Option.some.injEq]
      have e1 : ((b, p.1 ++ p.2) = q) = (b = q.1 ∧ p.1 ++ p.2 = q.2) := by rw [Prod.ext_iff]
      have e2 : ((b, p.1) = q) = (b = q.1 ∧ p.1 = q.2) := by rw [Prod.ext_iff]
      simp only [e1]
      have : sumAdd q (if p ≠ (b, p.1) then [((b, p.1), -(occ : Int))] else [])
          = if b = q.1 ∧ p.1 = q.2 then -(occ : Int) else 0 := by
        split
        · simp only [sumAdd_cons, sumAdd_nil, e2, Int.add_zero]
        · rename_i h
          simp only [ne_eq, Decidable.not_not] at h
          simp only [← e2]
          rw [if_neg (by rw [← h]; exact Ne.symm hq)]; rfl
      rw [this]
      split <;> split <;> simp <;> omega
  have l2 : ∀ o : Option Str, sumAdd q (addedAfter p occ o)
      = occ * (bd q (some (p.1 ++ p.2)) o : Int) - occ * (bd q (some p.2) o : Int) := by
    intro o
    cases o with
    | none => simp [sumAdd, bd, addedBefore, addedAfter]
    | some b =>
      simp only [addedAfter, sumAdd_cons, bd, Option.some.injEq]
      have e1 : ((p.1 ++ p.2, b) = q) = (p.1 ++ p.2 = q.1 ∧ b = q.2) := by rw [Prod.ext_iff]
      have e2 : ((p.2, b) = q) = (p.2 = q.1 ∧ b = q.2) := by rw [Prod.ext_iff]
      simp only [e1]
      have : sumAdd q (if p ≠ (p.2, b) then [((p.2, b), -(occ : Int))] else [])
          = if p.2 = q.1 ∧ b = q.2 then -(occ : Int) else 0 := by
        split
        · simp only [sumAdd_cons, sumAdd_nil, e2, Int.add_zero]
        · rename_i h
          simp only [ne_eq, Decidable.not_not] at h
          simp only [← e2]
          rw [if_neg (by rw [← h]; exact Ne.symm hq)]; rfl
      rw [this]
      split <;> split <;> simp <;> omega
  rw [l1, l2, pairCount_append, pairCount_append, pairCount_cons, pairCount_cons, pairCount_cons]
  simp only [List.head?_cons, hpq]
  simp only [Int.natCast_add, Int.mul_add]
  omega

/-! ## merging in one word -/

theorem findPair_none {p : Pair} : ∀ {w : List Str}, findPair p w = none → ¬ Adjacent p w
  | [], _ => adjacent_nil p
  | [a], _ => adjacent_single p a
  | a :: b :: r, h => by
    simp only [findPair] at h
    split at h
    · simp at h
    · rename_i hm
      simp only [Option.map_eq_none_iff] at h
      rw [adjacent_cons_cons]
      rintro (h' | h')
      · exact hm h'
      · exact findPair_none h h'

theorem findPair_some {p : Pair} : ∀ {w pre post : List Str}, findPair p w = some (pre, post) →
    w = pre ++ p.1 :: p.2 :: post ∧ ¬ Adjacent p (pre ++ [p.1])
  | [], _, _, h => by simp [findPair] at h
  | [a], _, _, h => by simp [findPair] at h
  | a :: b :: r, pre, post, h => by
    simp only [findPair] at h
    split at h
    · rename_i hm
      simp only [Option.some.injEq, Prod.mk.injEq] at h
      obtain ⟨rfl, rfl⟩ := h
      exact ⟨by simp [hm.1, hm.2], adjacent_single _ _⟩
    · rename_i hm
      simp only [Option.map_eq_some_iff, Prod.mk.injEq, Prod.exists] at h
      obtain ⟨pre', post', h, rfl, rfl⟩ := h
      obtain ⟨e, hn⟩ := findPair_some h
      refine ⟨by simp [e], ?_⟩
      cases pre' with
      | nil =>
        simp only [List.nil_append, List.cons.injEq] at e
        rw [List.cons_append, List.nil_append, adjacent_cons_cons]
        rintro (⟨h1, h2⟩ | h')
        · exact hm ⟨h1, e.1.trans h2⟩
        · exact adjacent_single _ _ h'
      | cons c t =>
        simp only [List.cons_append, List.cons.injEq] at e
        rw [List.cons_append, List.cons_append, adjacent_cons_cons]
        rintro (⟨h1, h2⟩ | h')
        · exact hm ⟨h1, e.1.trans h2⟩
        · exact hn h'

theorem replaceAll_append {p : Pair} {a : List Str} {c : Str} (h : ¬ Adjacent p (a ++ [c])) (r : List Str) :
    replaceAll p (a ++ c :: r) = a ++ replaceAll p (c :: r) := by
  induction a with
  | nil => rfl
  | cons x t ih =>
    have hstep : ∀ y l, (¬ (x = p.1 ∧ y = p.2)) → replaceAll p (x :: y :: l) = x :: replaceAll p (y :: l) := by
      intro y l hm; simp only [replaceAll, hm, if_false]
    cases t with
    | nil =>
      simp only [List.cons_append, List.nil_append] at h ⊢
      exact hstep c r (fun e => h (adjacent_cons_cons.2 (Or.inl e)))
    | cons y t' =>
      simp only [List.cons_append] at h ih ⊢
      rw [hstep y _ (fun e => h (adjacent_cons_cons.2 (Or.inl e))), ih (fun e => h (adjacent_cons_cons.2 (Or.inr e)))]

theorem adjacent_append_single {p : Pair} {a : List Str} {c : Str} :
    Adjacent p (a ++ [c]) ↔ Adjacent p a ∨ (a.getLast? = some p.1 ∧ c = p.2) := by
  rw [← pairCount_pos, pairCount_append, ← pairCount_pos]
  simp only [pairCount, bd, List.head?_cons, Option.some.injEq, Nat.add_zero]
  split <;> simp_all

theorem replaceAll_found {p : Pair} (h1 : p.1 ≠ []) (h2 : p.2 ≠ []) {pre post : List Str}
    (hn : ¬ Adjacent p (pre ++ [p.1])) :
    replaceAll p (pre ++ (p.1 ++ p.2) :: post) = replaceAll p (pre ++ p.1 :: p.2 :: post) := by
  have e1 : p.1 ++ p.2 ≠ p.1 := append_ne_left h2
  have e2 : p.1 ++ p.2 ≠ p.2 := append_ne_right h1
  have hn' : ¬ Adjacent p (pre ++ [p.1 ++ p.2]) := by
    rw [adjacent_append_single] at hn ⊢
    rintro (h | ⟨_, h⟩)
    · exact hn (Or.inl h)
    · exact e2 h
  rw [replaceAll_append hn, replaceAll_append hn']
  congr 1
  cases post with
  | nil => simp [replaceAll]
  | cons c r => simp [replaceAll, e1]

theorem mergeWord_spec {p : Pair} (h1 : p.1 ≠ []) (h2 : p.2 ≠ []) (occ : Nat) :
    ∀ (fuel : Nat) (w : List Str) (acc : List (Pair × Int)), w.length ≤ fuel →
      ∃ added, mergeWord p occ fuel w acc = (replaceAll p w, acc ++ added) ∧ sumAdd p added = 0 ∧
        ∀ q, q ≠ p → sumAdd q added = (occ : Int) * pairCount q (replaceAll p w) - occ * pairCount q w
  | 0, w, acc, hl => by
    have : w = [] := List.eq_nil_of_length_eq_zero (by omega)
    subst this
    exact ⟨[], by simp [mergeWord, replaceAll], rfl, by simp [sumAdd, replaceAll]⟩
  | fuel + 1, w, acc, hl => by
    simp only [mergeWord]
    cases hf : findPair p w with
    | none =>
      have hr := replaceAll_eq_self (findPair_none hf)
      exact ⟨[], by simp [hr], rfl, by intro q _; rw [hr]; simp [sumAdd]⟩
    | some pp =>
      obtain ⟨pre, post⟩ := pp
      obtain ⟨rfl, hn⟩ := findPair_some hf
      obtain ⟨added, ha, hp, hq⟩ := mergeWord_spec h1 h2 occ fuel (pre ++ (p.1 ++ p.2) :: post)
        (acc ++ addedFor p occ pre post) (by simp at hl ⊢; omega)
      have hr := replaceAll_found (post := post) h1 h2 hn
      refine ⟨addedFor p occ pre post ++ added, ?_, ?_, ?_⟩
      · simp only [ha, hr, List.append_assoc]
      · rw [sumAdd_append, hp, addedFor_self h1 h2]; rfl
      · intro q hne
        rw [sumAdd_append, hq q hne, addedFor_other hne, hr]
        omega

/-! ## merging in the vocabulary -/

theorem mergeVocabLoop_spec {p : Pair} (h1 : p.1 ≠ []) (h2 : p.2 ≠ []) :
    ∀ (v : SplitVocab) (out : SplitVocab) (acc : List (Pair × Int)),
      ((out ++ v).map fun e => e.1.flatten).Nodup →
      ∃ added, mergeVocabLoop p v out acc = (out ++ mergeIn p v, acc ++ added) ∧ sumAdd p added = 0 ∧
        ∀ q, q ≠ p → sumAdd q added = (weightedCount (mergeIn p v) q : Int) - weightedCount v q
  | [], out, acc, _ => ⟨[], by simp [mergeVocabLoop, mergeIn], rfl, by simp [sumAdd, mergeIn, weightedCount]⟩
  | (w, occ) :: r, out, acc, hnd => by
    obtain ⟨ad1, he1, hp1, hq1⟩ := mergeWord_spec h1 h2 occ w.length w acc (Nat.le_refl _)
    have hset : Dict.set out (replaceAll p w) occ = out ++ [(replaceAll p w, occ)] := by
      apply set_of_not_mem
      intro hm
      obtain ⟨e, he, heq⟩ := List.mem_map.1 hm
      rw [List.map_append, List.nodup_append] at hnd
      refine hnd.2.2 e.1.flatten (List.mem_map.2 ⟨e, he, rfl⟩) w.flatten (by simp) ?_
      rw [heq, replaceAll_flatten]
    obtain ⟨ad2, he2, hp2, hq2⟩ := mergeVocabLoop_spec h1 h2 r (out ++ [(replaceAll p w, occ)]) (acc ++ ad1) (by
      simp only [List.append_assoc, List.map_append, List.map_cons, List.cons_append, List.nil_append,
        replaceAll_flatten] at hnd ⊢
      exact hnd)
    refine ⟨ad1 ++ ad2, ?_, ?_, ?_⟩
    · simp only [mergeVocabLoop, he1, hset, he2, mergeIn, List.map_cons, List.append_assoc, List.cons_append,
        List.nil_append]
    · rw [sumAdd_append, hp1, hp2]; rfl
    · intro q hq
      rw [sumAdd_append, hq1 q hq, hq2 q hq]
      simp only [weightedCount, mergeIn, List.map_cons, List.sum_cons, Int.natCast_add, Int.natCast_mul]
      omega

theorem mergeVocab_spec {p : Pair} (h1 : p.1 ≠ []) (h2 : p.2 ≠ []) (v : SplitVocab)
    (hnd : (v.map fun e => e.1.flatten).Nodup) :
    ∃ added, mergeVocab p v = (mergeIn p v, added) ∧ sumAdd p added = 0 ∧
        ∀ q, q ≠ p → sumAdd q added = (weightedCount (mergeIn p v) q : Int) - weightedCount v q := by
  obtain ⟨added, h, h'⟩ := mergeVocabLoop_spec h1 h2 v [] [] (by simpa using hnd)
  exact ⟨added, by simpa [mergeVocab] using h, h'⟩

/-! ## get_stats -/

theorem bump_get (d : Dict Pair Int) (p q : Pair) (x : Int) :
    ((bump d p x).get? q).getD 0 = (d.get? q).getD 0 + if p = q then x else 0 := by
  simp only [bump, get?_set]
  split
  · rename_i h; subst h; rfl
  · simp

theorem statsWord_get (freq : Nat) : ∀ (w : List Str) (d : Dict Pair Int) (q : Pair),
    ((statsWord freq w d).get? q).getD 0 = (d.get? q).getD 0 + (freq : Int) * pairCount q w
  | [], d, q => by simp [statsWord, pairCount]
  | [a], d, q => by simp [statsWord, pairCount]
  | a :: b :: r, d, q => by
    rw [statsWord, statsWord_get freq (b :: r), bump_get, pairCount]
    have : ((a, b) = q) = (a = q.1 ∧ b = q.2) := by rw [Prod.ext_iff]
    simp only [this]
    split <;> simp [Int.mul_add] <;> omega

theorem statsWord_wf (freq : Nat) : ∀ (w : List Str) (d : Dict Pair Int), d.WF → (statsWord freq w d).WF
  | [], d, h => by simpa [statsWord] using h
  | [a], d, h => by simpa [statsWord] using h
  | a :: b :: r, d, h => by rw [statsWord]; exact statsWord_wf freq (b :: r) _ (WF_set h _ _)

theorem mem_set {α β : Type} [DecidableEq α] {d : Dict α β} {k : α} {v : β} {e : α × β} (h : e ∈ d.set k v) :
    e ∈ d ∨ e = (k, v) := by
  induction d with
  | nil => simpa [Dict.set] using h
  | cons x r ih =>
    simp only [Dict.set] at h
    split at h
    · rename_i hk
      rcases List.mem_cons.1 h with rfl | h
      · right; simp [hk]
      · left; exact List.mem_cons_of_mem _ h
    · rcases List.mem_cons.1 h with rfl | h
      · left; simp
      · rcases ih h with h | h
        · left; exact List.mem_cons_of_mem _ h
        · right; exact h

theorem statsWord_pos {freq : Nat} (hf : 0 < freq) : ∀ (w : List Str) (d : Dict Pair Int), (∀ e ∈ d, 0 < e.2) →
    ∀ e ∈ statsWord freq w d, 0 < e.2
  | [], d, h => by simpa [statsWord] using h
  | [a], d, h => by simpa [statsWord] using h
  | a :: b :: r, d, h => by
    rw [statsWord]
    refine statsWord_pos hf (b :: r) _ ?_
    intro e he
    rcases mem_set he with he | rfl
    · exact h e he
    · show 0 < (d.get? (a, b)).getD 0 + (freq : Int)
      cases hg : d.get? (a, b) with
      | none => simp; omega
      | some x => have := h _ (get?_some_mem hg); simp at this ⊢; omega

theorem statsDict_aux (v : SplitVocab) : ∀ (d : Dict Pair Int), d.WF →
    (v.foldl (fun d e => statsWord e.2 e.1 d) d).WF ∧
    (∀ q, ((v.foldl (fun d e => statsWord e.2 e.1 d) d).get? q).getD 0 = (d.get? q).getD 0 + weightedCount v q) ∧
    ((∀ e ∈ v, 0 < e.2) → (∀ e ∈ d, 0 < e.2) → ∀ e ∈ v.foldl (fun d e => statsWord e.2 e.1 d) d, 0 < e.2) := by
  induction v with
  | nil => intro d h; exact ⟨h, by simp [weightedCount], by simp⟩
  | cons x r ih =>
    intro d h
    obtain ⟨h1, h2, h3⟩ := ih (statsWord x.2 x.1 d) (statsWord_wf _ _ _ h)
    refine ⟨h1, ?_, ?_⟩
    · intro q
      rw [List.foldl_cons, h2, statsWord_get]
      simp [weightedCount]; omega
    · intro hv hd
      exact h3 (fun e he => hv e (List.mem_cons_of_mem _ he)) (statsWord_pos (hv x (by simp)) _ _ hd)

theorem dict_value {d : Dict Pair Int} (q : Pair) : Ref.value d q = (d.get? q).getD 0 := by
  induction d with
  | nil => rfl
  | cons e r ih =>
    obtain ⟨k, x⟩ := e
    simp only [Ref.value, Dict.get?, List.find?_cons] at ih ⊢
    by_cases h : k = q
    · simp [h]
    · simp only [h, decide_false, if_false]; exact ih

/-! ## The learning loop -/

theorem addAll_spec (l : List (Pair × Int)) : ∀ (c : PriorityCounter Pair) (r : Ref Pair), Refines c r →
    (∀ e ∈ r, e.2 ≠ 0) →
    ∃ c' r', addAll c l = .ok c' ∧ Refines c' r' ∧ (∀ e ∈ r', e.2 ≠ 0) ∧
      ∀ q, r'.value q = r.value q + sumAdd q l := by
  induction l with
  | nil => intro c r h h0; exact ⟨c, r, rfl, h, h0, by simp [sumAdd]⟩
  | cons e t ih =>
    intro c r h h0
    obtain ⟨k, x⟩ := e
    obtain ⟨c1, hc1, hr1⟩ := add_refines h k x
    obtain ⟨c', r', h1, h2, h3, h4⟩ := ih c1 _ hr1 (Ref.nonzero_add h0 k x)
    refine ⟨c', r', by simp [addAll, hc1, h1], h2, h3, ?_⟩
    intro q
    rw [h4, Ref.value_add, sumAdd_cons]
    simp only [eq_comm (a := q)]
    omega

/-- What is required of a starting vocabulary. -/
structure Good (seg : Str → List Str) (v : SplitVocab) : Prop where
  coh : ∀ e ∈ v, Coh seg e.1
  distinct : (v.map fun e => e.1.flatten).Nodup
  pos : ∀ e ∈ v, 0 < e.2

/-- Apply merges to all words of a vocabulary. -/
def mergeSeq (ms : List Pair) (v : SplitVocab) : SplitVocab := v.map fun e => (seqAll ms e.1, e.2)

theorem mergeSeq_snoc (ms : List Pair) (p : Pair) (v : SplitVocab) :
    mergeSeq (ms ++ [p]) v = mergeIn p (mergeSeq ms v) := by
  simp [mergeSeq, mergeIn, seqAll_snoc, Function.comp_def]

theorem seqAll_flatten (ms : List Pair) (s : List Str) : (seqAll ms s).flatten = s.flatten :=
  (seqAll_coarsens ms s).flatten_eq

/-- the starting words -/
def wordsOf (v : SplitVocab) (s : List Str) : Prop := ∃ f, (s, f) ∈ v

/-- Invariant of the loop of `do_merges`. -/
structure Inv (seg : Str → List Str) (v0 : SplitVocab) (v : SplitVocab) (c : PriorityCounter Pair) (ms : MergeList) :
    Prop where
  good : Good seg v0
  vocab : v = mergeSeq ms.keys v0
  der : Derivable (wordsOf v0) ms.keys
  counter : ∃ r, Refines c r ∧ (∀ e ∈ r, e.2 ≠ 0) ∧ ∀ q, r.value q = weightedCount v q

theorem weightedCount_pos {v : SplitVocab} {p : Pair} (h : 0 < weightedCount v p) :
    ∃ s f, (s, f) ∈ v ∧ Adjacent p s := by
  induction v with
  | nil => simp [weightedCount] at h
  | cons e r ih =>
    simp only [weightedCount, List.map_cons, List.sum_cons] at h
    by_cases h0 : 0 < e.2 * pairCount p e.1
    · exact ⟨e.1, e.2, by simp, pairCount_pos.1 (Nat.pos_of_mul_pos_left h0)⟩
    · obtain ⟨s, f, hm, ha⟩ := ih (by simp only [weightedCount]; omega)
      exact ⟨s, f, List.mem_cons_of_mem _ hm, ha⟩

theorem weightedCount_zero {v : SplitVocab} {p : Pair} (h : ∀ s f, (s, f) ∈ v → ¬ Adjacent p s) :
    weightedCount v p = 0 := by
  rcases Nat.eq_zero_or_pos (weightedCount v p) with h0 | h0
  · exact h0
  · obtain ⟨s, f, hm, ha⟩ := weightedCount_pos h0
    exact absurd ha (h s f hm)

theorem inv_init {seg : Str → List Str} {v : SplitVocab} (h : Good seg v) : Inv seg v v (getStats v) [] := by
  obtain ⟨h1, h2, h3⟩ := statsDict_aux v [] (by simp [Dict.WF, Dict.keys])
  refine ⟨h, by simp [mergeSeq, seqAll, Dict.keys], ?_, statsDict v, init_refines _ h1, ?_, ?_⟩
  · intro pre p post e; simp [Dict.keys] at e
  · intro e he
    have := h3 h.pos (by simp) e he
    omega
  · intro q
    rw [dict_value]
    have := h2 q
    simpa [statsDict, Dict.get?] using this

theorem keys_append {α β : Type} (a b : Dict α β) : Dict.keys (a ++ b) = Dict.keys a ++ Dict.keys b := by
  simp [Dict.keys]

/-- One round of the loop. -/
theorem inv_step {seg : Str → List Str} {v0 v : SplitVocab} {c : PriorityCounter Pair} {ms : MergeList}
    (h : Inv seg v0 v c ms) :
    match c.popPair with
    | none => ∀ q, weightedCount v q = 0
    | some (best, occ, c') =>
      occ = weightedCount v best ∧ 0 < weightedCount v best ∧ (∀ q, weightedCount v q ≤ weightedCount v best) ∧
      ms.append ⟨best, some occ, some ms.length⟩ = .ok (ms ++ [(best, (some occ, ms.length))]) ∧
      ∃ added c'', mergeVocab best v = (mergeIn best v, added) ∧ addAll c' added = .ok c'' ∧
        Inv seg v0 (mergeIn best v) c'' (ms ++ [(best, (some occ, ms.length))]) := by
  obtain ⟨hg, hv, hd, r, hr, hnz, hval⟩ := h
  have hpop := popPair_refines hr
  split
  · rename_i hp
    rw [hp] at hpop
    simp only at hpop
    subst hpop
    intro q
    have := hval q
    simp only [Ref.value, List.find?_nil, Option.map_none, Option.getD_none] at this
    omega
  · rename_i best occ c' hp
    rw [hp] at hpop
    simp only at hpop
    obtain ⟨htop, hr'⟩ := hpop
    have hocc : occ = weightedCount v best := by
      rw [← hval best, Ref.value_mem hr.nodup htop.mem]
    have hposi : 0 < weightedCount v best := by
      have := hnz _ htop.mem
      simp only at this
      omega
    have hmax : ∀ q, weightedCount v q ≤ weightedCount v best := by
      intro q
      by_cases hq : r.value q = 0
      · have := hval q; omega
      · have h1 := htop.max _ (Ref.value_ne_zero hq)
        have h2 := hval q
        simp only at h1
        omega
    -- the pair is new
    have hder : Derivable (wordsOf v0) (ms.keys ++ [best]) := by
      intro pre p post e
      rcases List.eq_nil_or_concat post with rfl | ⟨post', l, rfl⟩
      · have e' := List.append_inj' e (by simp)
        have hb : best = p := by simpa using e'.2
        obtain ⟨s, f, hm, ha⟩ := weightedCount_pos hposi
        rw [hv] at hm
        simp only [mergeSeq, List.mem_map, Prod.mk.injEq] at hm
        obtain ⟨e0, he0, rfl, rfl⟩ := hm
        rw [← hb, ← e'.1]
        exact ⟨e0.1, ⟨e0.2, he0⟩, ha⟩
      · simp only [List.concat_eq_append] at e
        have e' : ms.keys ++ [best] = (pre ++ p :: post') ++ [l] := by simp [e]
        have e'' := List.append_inj' e' (by simp)
        exact hd pre p post' e''.1
    have hW : ∀ s, wordsOf v0 s → Coh seg s := by
      rintro s ⟨f, hf⟩; exact hg.coh _ hf
    have hnd := hder.nodup hW
    have hnew : best ∉ ms.keys := by
      rw [List.nodup_append] at hnd
      intro hb
      exact hnd.2.2 best hb best (by simp) rfl
    -- the parts of the pair are not empty
    obtain ⟨s, f, hm, ha⟩ := weightedCount_pos hposi
    rw [hv] at hm
    simp only [mergeSeq, List.mem_map, Prod.mk.injEq] at hm
    obtain ⟨e0, he0, hs0, rfl⟩ := hm
    have hcoh := coh_seqAll (hg.coh _ he0) ms.keys
    rw [hs0] at hcoh
    have hn1 := hcoh.ne _ ha.mem_left
    have hn2 := hcoh.ne _ ha.mem_right
    have hdist : (v.map fun e => e.1.flatten).Nodup := by
      rw [hv, mergeSeq, List.map_map]
      have : ((fun e : List Str × Nat => e.1.flatten) ∘ fun e : List Str × Nat => (seqAll ms.keys e.1, e.2)) =
          fun e => e.1.flatten := by
        funext e; simp [seqAll_flatten]
      rw [this]; exact hg.distinct
    obtain ⟨added, hadd, hself, hother⟩ := mergeVocab_spec hn1 hn2 v hdist
    obtain ⟨c'', r'', hc'', hr'', hnz'', hval''⟩ := addAll_spec added c' _ hr' (by
      intro e he; exact hnz e (List.mem_filter.1 he).1)
    refine ⟨hocc, hposi, hmax, ?_, added, c'', hadd, hc'', hg, ?_, ?_, r'', hr'', hnz'', ?_⟩
    · simp only [MergeList.append, ne_eq, not_true_eq_false, if_false, set_of_not_mem _ _ _ hnew]
    · rw [keys_append]
      show mergeIn best v = mergeSeq (ms.keys ++ [best]) v0
      rw [mergeSeq_snoc, hv]
    · rw [keys_append]; exact hder
    · intro q
      rw [hval'', Ref.value_erase]
      split
      · rename_i hq
        subst hq
        rw [hself, weightedCount_zero]
        · rfl
        · intro s f hm
          simp only [mergeIn, List.mem_map, Prod.mk.injEq] at hm
          obtain ⟨e, _, rfl, _⟩ := hm
          exact replaceAll_noAdj hn1 hn2 _
      · rename_i hq
        rw [hother q hq, hval]
        omega

theorem ranked_length (i : Nat) (l : List (Pair × Int)) : (ranked i l).length = l.length := by
  induction l generalizing i with
  | nil => rfl
  | cons e r ih => simp [ranked, ih]

theorem ranked_keys (i : Nat) (l : List (Pair × Int)) : Dict.keys (ranked i l) = l.map (·.1) := by
  induction l generalizing i with
  | nil => rfl
  | cons e r ih => simp only [ranked, Dict.keys, List.map_cons] at ih ⊢; rw [ih]

/-- The whole loop. -/
theorem doMergesLoop_spec {seg : Str → List Str} {v0 : SplitVocab} :
    ∀ (n : Nat) (v : SplitVocab) (c : PriorityCounter Pair) (ms : MergeList), Inv seg v0 v c ms →
      ∃ post v', doMergesLoop n ms.length v c ms = .ok (v', ms ++ ranked ms.length post) ∧ Learns v post v' ∧
        post.length ≤ n ∧ (post.length < n → ∀ q, weightedCount v' q = 0) ∧
        v' = mergeSeq (ms.keys ++ post.map (·.1)) v0 ∧ Derivable (wordsOf v0) (ms.keys ++ post.map (·.1))
  | 0, v, c, ms, h => ⟨[], v, by simp [doMergesLoop, ranked], Learns.done v, by simp, by simp,
      by simp [h.vocab], by simpa using h.der⟩
  | n + 1, v, c, ms, h => by
    have hstep := inv_step h
    simp only [doMergesLoop]
    cases hp : c.popPair with
    | none =>
      rw [hp] at hstep
      exact ⟨[], v, by simp [ranked], Learns.done v, by simp, fun _ => hstep, by simp [h.vocab], by simpa using h.der⟩
    | some x =>
      obtain ⟨best, occ, c'⟩ := x
      rw [hp] at hstep
      obtain ⟨hocc, hpos, hmax, happ, added, c'', hmv, haa, hinv⟩ := hstep
      obtain ⟨post, v', hl, hL, hlen, hdone, hv', hder⟩ := doMergesLoop_spec n _ c'' _ hinv
      refine ⟨(best, occ) :: post, v', ?_, ?_, by simp; omega, ?_, ?_, ?_⟩
      · simp only [List.length_append, List.length_cons, List.length_nil, Nat.zero_add] at hl
        simp only [bind, Except.bind, happ, hmv, haa, hl, ranked, List.append_assoc, List.cons_append,
          List.nil_append]
      · rw [hocc]; exact Learns.step hpos hmax hL
      · intro hlt; exact hdone (by simpa using hlt)
      · rw [hv', keys_append]; simp [Dict.keys]
      · rw [keys_append] at hder; simpa [Dict.keys] using hder

end Verif
