import Verif.Proofs.Resplit
import Verif.Props.Made
/-!
# C102: Words that have no characters in common do not influence each other's merges
-/
namespace Verif.Props.Alphabets
open Verif Spec

/-- The entries of a vocabulary whose words consist of characters of the alphabet `S`; the last character marks the end. -/
def partOf (S : Char → Bool) (v : List (List Str × Nat)) : List (List Str × Nat) := v.filter fun e => e.1.flatten.dropLast.all S

/-- A merge of characters of the alphabet. -/
def ofAlphabet (S : Char → Bool) (p : Str × Str) : Bool := p.1.all S

/-- No symbol is empty, and a word belongs to the alphabet or has no character of it. -/
def Apart (S : Char → Bool) (v : List (List Str × Nat)) : Prop :=
  ∀ e ∈ v, (∀ s ∈ e.1, s ≠ []) ∧ (e.1.flatten.dropLast.all S = true ∨ e.1.flatten.dropLast.all (fun c => !S c) = true)

theorem count_pos {p : Str × Str} : ∀ {s : List Str}, 0 < pairCount p s → ∃ u t, s = u ++ p.1 :: p.2 :: t
  | a :: b :: r, h => by
    by_cases hp : a = p.1 ∧ b = p.2
    · exact ⟨[], r, by rw [hp.1, hp.2]; rfl⟩
    · rw [pairCount, if_neg hp, Nat.zero_add] at h
      obtain ⟨u, t, e⟩ := count_pos h
      exact ⟨a :: u, t, by rw [e]; rfl⟩
  | [], h => absurd h (by simp [pairCount])
  | [_], h => absurd h (by simp [pairCount])

theorem replace_zero {p : Str × Str} : ∀ {s : List Str}, pairCount p s = 0 → replaceAll p s = s
  | a :: b :: r, h => by
    by_cases hp : a = p.1 ∧ b = p.2
    · rw [pairCount, if_pos hp] at h; omega
    · rw [pairCount, if_neg hp, Nat.zero_add] at h
      rw [replaceAll, if_neg hp, replace_zero h]
  | [], _ => rfl
  | [_], _ => rfl

theorem replace_ne {p : Str × Str} : ∀ {s : List Str}, (∀ x ∈ s, x ≠ []) → ∀ x ∈ replaceAll p s, x ≠ [] := by
  intro s
  induction s using replaceAll.induct p with
  | case1 => intro h; exact h
  | case2 a => intro h; exact h
  | case3 a b r hp ih =>
    intro h x hx
    rw [replaceAll, if_pos hp] at hx
    rcases List.mem_cons.mp hx with rfl | hx
    · exact fun e => h a (by simp) (List.append_eq_nil_iff.mp e).1
    · exact ih (fun y hy => h y (by simp [hy])) x hx
  | case4 a b r hp ih =>
    intro h x hx
    rw [replaceAll, if_neg hp] at hx
    rcases List.mem_cons.mp hx with rfl | hx
    · exact h _ (by simp)
    · exact ih (fun y hy => h y (by simp [hy])) x hx

/-- The first part of a pair in a word stands before its last character. -/
theorem first_all {p : Str × Str} {s : List Str} (hs : ∀ x ∈ s, x ≠ []) (h : 0 < pairCount p s) {q : Char → Bool}
    (hq : s.flatten.dropLast.all q = true) : p.1 ≠ [] ∧ p.1.all q = true := by
  obtain ⟨u, t, rfl⟩ := count_pos h
  have h1 : p.1 ≠ [] := hs _ (by simp)
  have h2 : p.2 ++ t.flatten ≠ [] := fun e => hs p.2 (by simp) (List.append_eq_nil_iff.mp e).1
  refine ⟨h1, ?_⟩
  have e : (u ++ p.1 :: p.2 :: t).flatten.dropLast = (u.flatten ++ p.1) ++ (p.2 ++ t.flatten).dropLast := by
    rw [← List.dropLast_append_of_ne_nil h2]; simp
  rw [e, List.all_append, List.all_append, Bool.and_eq_true, Bool.and_eq_true] at hq
  exact hq.1.2

theorem all_not_both {s : Str} (h0 : s ≠ []) {q : Char → Bool} (h1 : s.all q = true) (h2 : s.all (fun c => !q c) = true) : False := by
  cases s with
  | nil => exact h0 rfl
  | cons c s =>
    rw [List.all_cons, Bool.and_eq_true] at h1 h2
    rw [h1.1] at h2
    exact absurd h2.1 (by simp)

theorem apart_merge {S : Char → Bool} {v : List (List Str × Nat)} (h : Apart S v) (p : Str × Str) : Apart S (mergeIn p v) := by
  intro e he
  obtain ⟨e0, h0, rfl⟩ := List.mem_map.mp he
  refine ⟨replace_ne (h e0 h0).1, ?_⟩
  simp only [replaceAll_flatten]
  exact (h e0 h0).2

theorem part_merge (S : Char → Bool) (v : List (List Str × Nat)) (p : Str × Str) : partOf S (mergeIn p v) = mergeIn p (partOf S v) := by
  unfold partOf mergeIn
  rw [List.filter_map]
  congr 1
  refine List.filter_congr fun e _ => ?_
  simp only [Function.comp, replaceAll_flatten]

theorem part_same {S : Char → Bool} {v : List (List Str × Nat)} (h : Apart S v) {p : Str × Str} (hp : ofAlphabet S p = false) :
    mergeIn p (partOf S v) = partOf S v := by
  unfold mergeIn
  conv => rhs; rw [← List.map_id (partOf S v)]
  refine List.map_congr_left fun e he => ?_
  obtain ⟨h1, h2⟩ := List.mem_filter.mp he
  have : pairCount p e.1 = 0 := by
    refine Nat.eq_zero_of_not_pos fun hc => ?_
    have := (first_all (h e h1).1 hc h2).2
    unfold ofAlphabet at hp
    rw [this] at hp; cases hp
  rw [replace_zero this]; rfl

theorem weighted_le (S : Char → Bool) (v : List (List Str × Nat)) (p : Str × Str) : weightedCount (partOf S v) p ≤ weightedCount v p := by
  induction v with
  | nil => exact Nat.le_refl _
  | cons e v ih =>
    unfold weightedCount partOf at ih ⊢
    rw [List.filter_cons]
    split
    · simp only [List.map_cons, List.sum_cons]; omega
    · simp only [List.map_cons, List.sum_cons]; omega

theorem weighted_eq {S : Char → Bool} {v : List (List Str × Nat)} (h : Apart S v) {p : Str × Str} (hp : ofAlphabet S p = true) :
    weightedCount (partOf S v) p = weightedCount v p := by
  induction v with
  | nil => rfl
  | cons e v ih =>
    have ih := ih fun e he => h e (List.mem_cons_of_mem _ he)
    obtain ⟨h1, h2⟩ := h e (by simp)
    unfold weightedCount partOf at ih ⊢
    by_cases hS : e.1.flatten.dropLast.all S = true
    · rw [List.filter_cons_of_pos (by exact hS)]
      simp only [List.map_cons, List.sum_cons, ih]
    · rw [List.filter_cons_of_neg (by exact hS)]
      have h2 := h2.resolve_left hS
      have : pairCount p e.1 = 0 := Nat.eq_zero_of_not_pos fun hc => by
        obtain ⟨g1, g2⟩ := first_all h1 hc h2
        exact all_not_both g1 hp g2
      simp only [List.map_cons, List.sum_cons, ih, this, Nat.mul_zero, Nat.zero_add]

theorem learns_part {S : Char → Bool} {v v' : List (List Str × Nat)} {ms : List ((Str × Str) × Int)} (h : Learns v ms v') (ha : Apart S v) :
    Learns (partOf S v) (ms.filter fun e => ofAlphabet S e.1) (partOf S v') := by
  induction h with
  | done v => exact .done _
  | @step v v' p ms hpos hmax _ ih =>
    have ih := ih (apart_merge ha p)
    rw [part_merge] at ih
    cases hp : ofAlphabet S p with
    | true =>
      rw [List.filter_cons_of_pos (by exact hp), ← weighted_eq ha hp]
      refine .step (by rw [weighted_eq ha hp]; exact hpos) (fun q => ?_) ih
      rw [weighted_eq ha hp]
      exact Nat.le_trans (weighted_le S v q) (hmax q)
    | false =>
      rw [List.filter_cons_of_neg (by rw [hp]; simp)]
      rw [part_same ha hp] at ih
      exact ih

theorem initial_dropLast (q : Char → Bool) (w : Str) : (initialSymbols w).flatten.dropLast.all q = w.all q := by
  unfold initialSymbols
  rw [List.flatten_append]
  show (_ ++ ['@']).dropLast.all q = _
  rw [List.dropLast_concat]
  induction w with
  | nil => rfl
  | cons c w ih =>
    rw [List.map_cons, List.flatten_cons, List.all_append, ih, List.all_cons]
    split
    · rename_i h; subst h; simp
    · simp

theorem part_training (S : Char → Bool) (words : Dict Str Nat) : partOf S (trainingVocab words) = trainingVocab (words.filter fun e => e.1.all S) := by
  unfold partOf trainingVocab
  rw [List.filter_map]
  congr 1
  refine List.filter_congr fun e _ => ?_
  exact initial_dropLast S e.1

/-- **C102** If every word consists of characters of an alphabet or has none of them, then the learnt merges of this alphabet, in their
order and with their frequencies, are merges that may be learnt from the words of the alphabet alone: each is a most frequent pair at its
time.  The words of the alphabet are split in the same way at the end. -/
theorem C102_apart (words : Dict Str Nat) (hw : words.WF) (hp : ∀ e ∈ words, 0 < e.2) (S : Char → Bool)
    (hS : ∀ e ∈ words, (∀ c ∈ e.1, S c = true) ∨ ∀ c ∈ e.1, S c = false) (n : Nat) :
    ∃ ms v, doMerges (trainingVocab words) n = .ok (v, ranked 0 ms) ∧
      Learns (trainingVocab (words.filter fun e => e.1.all S)) (ms.filter fun e => e.1.1.all S)
        (v.filter fun e => e.1.flatten.dropLast.all S) := by
  obtain ⟨ms, v, h1, h2, -⟩ := learn_result words hw hp n
  refine ⟨ms, v, h1, ?_⟩
  have := learns_part (S := S) h2 ?_
  · rw [part_training] at this; exact this
  · intro e he
    obtain ⟨e0, h0, rfl⟩ := List.mem_map.mp he
    refine ⟨?_, ?_⟩
    · intro s hs
      rcases List.mem_append.mp hs with hs | hs
      · obtain ⟨c, -, rfl⟩ := List.mem_map.mp hs
        split <;> simp
      · rw [List.mem_singleton.mp hs]; simp
    · rw [initial_dropLast, initial_dropLast, List.all_eq_true, List.all_eq_true]
      exact (hS e0 h0).imp id fun h c hc => by rw [h c hc]; rfl

/-- **C102** The condition is needed: `bcd` shares characters with `abc`, and together `b`, `c` is merged first, but `a`, `b` is without
`bcd`. -/
theorem C102_shared_violated :
    (doMerges (trainingVocab [("abc".toList, 2), ("bcd".toList, 1)]) 1).toOption.map (fun r => r.2.map fun e => (e.1, e.2.1)) =
      some [(("b".toList, "c".toList), some 3)] ∧
    (doMerges (trainingVocab [("abc".toList, 2)]) 1).toOption.map (fun r => r.2.map fun e => (e.1, e.2.1)) =
      some [(("a".toList, "b".toList), some 2)] := by
  constructor <;> decide +kernel

/-- Two alphabets; the merges alternate. -/
example : (doMerges (trainingVocab [("ab".toList, 2), ("xyx".toList, 3), ("abb".toList, 2)]) 5).toOption.map (fun r => r.2.map fun e => (e.1, e.2.1)) =
      some [(("a".toList, "b".toList), some 4), (("x".toList, "y".toList), some 3), (("x".toList, "@".toList), some 3),
        (("xy".toList, "x@".toList), some 3), (("ab".toList, "@".toList), some 2)] := by decide +kernel

example := C102_apart [("ab".toList, 2), ("xyx".toList, 3), ("abb".toList, 2)] (by decide) (by decide) (fun c => c < 'm') (by decide) 5

end Verif.Props.Alphabets
