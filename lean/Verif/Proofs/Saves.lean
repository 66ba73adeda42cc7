import Verif.Spec.Saves
import Verif.Proofs.BpeLearn
/-!
# Lemmas: how many subwords there are after merges
-/
namespace Verif
open Spec

theorem length_le_pairCount (p : Str × Str) (s : List Str) : s.length ≤ (replaceAll p s).length + pairCount p s := by
  suffices h : ∀ n (s : List Str), s.length ≤ n → s.length ≤ (replaceAll p s).length + pairCount p s from h _ s (Nat.le_refl _)
  intro n
  induction n with
  | zero => intro s h; omega
  | succ n ih =>
    intro s h
    match s with
    | [] => simp
    | [a] => simp [replaceAll]
    | a :: b :: r =>
      simp only [List.length_cons] at h
      by_cases hm : a = p.1 ∧ b = p.2
      · have h1 := ih r (by omega)
        have h2 : pairCount p r ≤ pairCount p (b :: r) := by
          cases r with
          | nil => simp [pairCount]
          | cons c r => simp only [pairCount]; omega
        rw [replaceAll, if_pos hm, pairCount, if_pos hm]
        simp only [List.length_cons]
        omega
      · have h1 := ih (b :: r) (by simp; omega)
        rw [replaceAll, if_neg hm, pairCount, if_neg hm]
        simp only [List.length_cons] at h1 ⊢
        omega

theorem pairCount_le_twice (p : Str × Str) (s : List Str) : pairCount p s + 2 * (replaceAll p s).length ≤ 2 * s.length := by
  suffices h : ∀ n (s : List Str), s.length ≤ n → pairCount p s + 2 * (replaceAll p s).length ≤ 2 * s.length from h _ s (Nat.le_refl _)
  intro n
  induction n with
  | zero =>
    intro s h
    cases List.length_eq_zero_iff.mp (Nat.le_zero.mp h)
    simp [replaceAll, pairCount]
  | succ n ih =>
    intro s h
    match s with
    | [] => simp [replaceAll, pairCount]
    | [a] => simp [replaceAll, pairCount]
    | a :: b :: r =>
      simp only [List.length_cons] at h
      by_cases hm : a = p.1 ∧ b = p.2
      · have h1 := ih r (by omega)
        have h2 : pairCount p (b :: r) ≤ 1 + pairCount p r := by
          cases r with
          | nil => simp [pairCount]
          | cons c r => simp only [pairCount]; split <;> omega
        rw [replaceAll, if_pos hm, pairCount, if_pos hm]
        simp only [List.length_cons]
        omega
      · have h1 := ih (b :: r) (by simp; omega)
        rw [replaceAll, if_neg hm, pairCount, if_neg hm]
        simp only [List.length_cons] at h1 ⊢
        omega

theorem length_pairCount {p : Str × Str} (hp : p.1 ≠ p.2) (s : List Str) : (replaceAll p s).length + pairCount p s = s.length := by
  suffices h : ∀ n (s : List Str), s.length ≤ n → (replaceAll p s).length + pairCount p s = s.length from h _ s (Nat.le_refl _)
  intro n
  induction n with
  | zero =>
    intro s h
    cases List.length_eq_zero_iff.mp (Nat.le_zero.mp h)
    simp [replaceAll, pairCount]
  | succ n ih =>
    intro s h
    match s with
    | [] => simp [replaceAll, pairCount]
    | [a] => simp [replaceAll, pairCount]
    | a :: b :: r =>
      simp only [List.length_cons] at h
      by_cases hm : a = p.1 ∧ b = p.2
      · have h1 := ih r (by omega)
        have h2 : pairCount p (b :: r) = pairCount p r := by
          cases r with
          | nil => simp [pairCount]
          | cons c r =>
            rw [pairCount, if_neg]
            · omega
            · rintro ⟨e, -⟩
              exact hp (e.symm.trans hm.2)
        rw [replaceAll, if_pos hm, pairCount, if_pos hm]
        simp only [List.length_cons]
        omega
      · have h1 := ih (b :: r) (by simp; omega)
        rw [replaceAll, if_neg hm, pairCount, if_neg hm]
        simp only [List.length_cons] at h1 ⊢
        omega

theorem pieces_cons (e : List Str × Nat) (v) : pieces (e :: v) = e.2 * e.1.length + pieces v := by simp [pieces]

theorem weightedCount_cons' (e : List Str × Nat) (v) (p) : weightedCount (e :: v) p = e.2 * pairCount p e.1 + weightedCount v p := by
  simp [weightedCount]

theorem mergeIn_cons (e : List Str × Nat) (v) (p) : mergeIn p (e :: v) = (replaceAll p e.1, e.2) :: mergeIn p v := rfl

theorem size_merge_le (p : Str × Str) : ∀ v : List (List Str × Nat), pieces v ≤ pieces (mergeIn p v) + weightedCount v p
  | [] => by simp [pieces]
  | e :: v => by
    have h := Nat.mul_le_mul_left e.2 (length_le_pairCount p e.1)
    have ih := size_merge_le p v
    rw [mergeIn_cons, pieces_cons, pieces_cons, weightedCount_cons']
    rw [Nat.mul_add] at h
    dsimp only
    omega

theorem size_merge_twice (p : Str × Str) : ∀ v : List (List Str × Nat), weightedCount v p + 2 * pieces (mergeIn p v) ≤ 2 * pieces v
  | [] => by simp [pieces, weightedCount, mergeIn]
  | e :: v => by
    have h := Nat.mul_le_mul_left e.2 (pairCount_le_twice p e.1)
    have ih := size_merge_twice p v
    rw [mergeIn_cons, pieces_cons, pieces_cons, weightedCount_cons']
    rw [Nat.mul_add, Nat.mul_left_comm, Nat.mul_left_comm e.2 2] at h
    dsimp only
    omega

theorem size_merge_eq {p : Str × Str} (hp : p.1 ≠ p.2) : ∀ v : List (List Str × Nat), pieces (mergeIn p v) + weightedCount v p = pieces v
  | [] => by simp [pieces, weightedCount, mergeIn]
  | e :: v => by
    have h := congrArg (e.2 * ·) (length_pairCount hp e.1)
    have ih := size_merge_eq hp v
    rw [mergeIn_cons, pieces_cons, pieces_cons, weightedCount_cons']
    simp only [Nat.mul_add] at h
    dsimp only
    omega

theorem learns_size_le {v v'} {ms} (h : Learns v ms v') : (pieces v : Int) ≤ pieces v' + freqSum ms := by
  induction h with
  | done => simp [freqSum]
  | @step v v' p ms _ _ _ ih =>
    have := size_merge_le p v
    simp only [freqSum, List.map_cons, List.sum_cons] at ih ⊢
    omega

theorem learns_size_twice {v v'} {ms} (h : Learns v ms v') : freqSum ms + 2 * pieces v' ≤ 2 * pieces v := by
  induction h with
  | done => simp [freqSum]
  | @step v v' p ms _ _ _ ih =>
    have := size_merge_twice p v
    simp only [freqSum, List.map_cons, List.sum_cons] at ih ⊢
    omega

theorem learns_size_eq {v v'} {ms} (h : Learns v ms v') (hd : ∀ e ∈ ms, e.1.1 ≠ e.1.2) : (pieces v' : Int) + freqSum ms = pieces v := by
  induction h with
  | done => simp [freqSum]
  | @step v v' p ms _ _ _ ih =>
    have : pieces (mergeIn p v) + weightedCount v p = pieces v := size_merge_eq (hd _ List.mem_cons_self) v
    have ih := ih (fun e he => hd e (List.mem_cons_of_mem _ he))
    simp only [freqSum, List.map_cons, List.sum_cons] at ih ⊢
    omega

theorem learns_sum_nonneg {v v'} {ms} (h : Learns v ms v') : 0 ≤ freqSum ms := by
  induction h with
  | done => simp [freqSum]
  | step _ _ _ ih =>
    simp only [freqSum, List.map_cons, List.sum_cons] at ih ⊢
    omega

theorem learns_less {v v'} {ms} (h : Learns v ms v') : pieces v' + ms.length ≤ pieces v := by
  induction h with
  | done => simp
  | @step v v' p ms hpos _ _ ih =>
    have := size_merge_twice p v
    simp only [List.length_cons]
    omega

/-! ## Without frequencies -/

theorem replaceAll_le (p : Str × Str) (s : List Str) : (replaceAll p s).length ≤ s.length := by
  have := pairCount_le_twice p s
  omega

theorem symbols_merge_le (p : Str × Str) : ∀ v : List (List Str × Nat), ((mergeIn p v).map (·.1.length)).sum ≤ (v.map (·.1.length)).sum
  | [] => by simp [mergeIn]
  | e :: v => by
    have h := replaceAll_le p e.1
    have ih := symbols_merge_le p v
    rw [mergeIn_cons, List.map_cons, List.map_cons, List.sum_cons, List.sum_cons]
    dsimp only
    omega

theorem symbols_merge_lt (p : Str × Str) : ∀ v : List (List Str × Nat), 0 < weightedCount v p →
    ((mergeIn p v).map (·.1.length)).sum < (v.map (·.1.length)).sum
  | [], h => by simp [weightedCount] at h
  | e :: v, h => by
    rw [weightedCount_cons'] at h
    rw [mergeIn_cons, List.map_cons, List.map_cons, List.sum_cons, List.sum_cons]
    dsimp only
    by_cases hv : 0 < weightedCount v p
    · have ih := symbols_merge_lt p v hv
      have := replaceAll_le p e.1
      omega
    · have h1 : 0 < pairCount p e.1 := by
        rcases Nat.eq_zero_or_pos (pairCount p e.1) with h0 | h0
        · rw [h0] at h; omega
        · exact h0
      have h2 := pairCount_le_twice p e.1
      have ih := symbols_merge_le p v
      omega

theorem learns_symbols {v v'} {ms} (h : Learns v ms v') : (v'.map (·.1.length)).sum + ms.length ≤ (v.map (·.1.length)).sum := by
  induction h with
  | done => simp
  | @step v v' p ms hpos _ _ ih =>
    have := symbols_merge_lt p v hpos
    simp only [List.length_cons]
    omega

theorem mem_weightedCount_le (p : Str × Str) : ∀ (v : List (List Str × Nat)), ∀ e ∈ v, e.2 * pairCount p e.1 ≤ weightedCount v p
  | [], e, h => by simp at h
  | x :: v, e, h => by
    rw [weightedCount_cons']
    rcases List.mem_cons.1 h with rfl | h
    · omega
    · have := mem_weightedCount_le p v e h
      omega

/-- A word without any pair is whole. -/
theorem whole_of_no_pair {v : List (List Str × Nat)} (h : ∀ q, weightedCount v q = 0) (hp : ∀ e ∈ v, 0 < e.2) :
    ∀ e ∈ v, e.1.length ≤ 1 := by
  intro e he
  match hs : e.1 with
  | [] => simp
  | [a] => simp
  | a :: b :: r =>
    exfalso
    have h0 := h (a, b)
    have : e.2 * pairCount (a, b) e.1 ≤ weightedCount v (a, b) := by
      exact mem_weightedCount_le (a, b) v e he
    rw [h0, hs, pairCount, if_pos ⟨rfl, rfl⟩] at this
    have h1 := hp e he
    have h2 : e.2 * (1 + pairCount (a, b) (b :: r)) = 0 := by omega
    rcases Nat.mul_eq_zero.1 h2 with h3 | h3 <;> omega

theorem length_of_sum_le : ∀ (l : List Nat), (∀ x ∈ l, 1 ≤ x) → l.sum ≤ l.length → ∀ x ∈ l, x = 1
  | [], _, _, x, hx => by simp at hx
  | y :: l, h1, h2, x, hx => by
    have hl : l.length ≤ l.sum := by
      clear h2 hx
      induction l with
      | nil => simp
      | cons z l ih =>
        have := ih (fun w hw => h1 w (by
          rcases List.mem_cons.1 hw with rfl | hw
          · simp
          · simp [hw]))
        have := h1 z (by simp)
        simp only [List.length_cons, List.sum_cons]
        omega
    have hy := h1 y (by simp)
    simp only [List.length_cons, List.sum_cons] at h2
    rcases List.mem_cons.1 hx with rfl | hx
    · omega
    · exact length_of_sum_le l (fun w hw => h1 w (by simp [hw])) (by omega) x hx

end Verif
