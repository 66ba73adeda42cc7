import Verif.Model.WildPairs
import Verif.Proofs.WildKeys
/-!
# C97: helpers for pairs of tokens
-/
namespace Verif.Props
open Verif Verif.Wild

/-- A pair of two tokens is swapped. -/
theorem C97_swap (x y : Str) (hx : ' ' ∉ x) (hy : ' ' ∉ y) : swapPair (x ++ ' ' :: y) = .ok (y ++ ' ' :: x) := by
  rw [← join_eq, ← join_eq]
  unfold swapPair
  rw [part_one hx hy, part_zero hx hy]
  rfl

/-- A text that is not a pair is an `IndexError`. -/
theorem C97_swap_single (x : Str) (hx : ' ' ∉ x) : swapPair x = .error .indexError := by
  unfold swapPair part
  rw [pySplit_noSep hx]
  rfl

/-- Two pairs are symmetric if and only if one is the other one swapped. -/
theorem C97_symmetric (x y u v : Str) (hx : ' ' ∉ x) (hy : ' ' ∉ y) (hu : ' ' ∉ u) (hv : ' ' ∉ v) :
    areSymmetric (x ++ ' ' :: y) (u ++ ' ' :: v) = .ok (decide (u ++ ' ' :: v = y ++ ' ' :: x)) := by
  have he : (u ++ ' ' :: v = y ++ ' ' :: x) ↔ u = y ∧ v = x := by
    rw [← join_eq, ← join_eq]; exact join_inj hu hy
  have hd : decide (u ++ ' ' :: v = y ++ ' ' :: x) = decide (u = y ∧ v = x) := decide_eq_decide.2 he
  rw [hd]
  unfold areSymmetric
  by_cases hl : (x ++ ' ' :: y).length ≠ (u ++ ' ' :: v).length
  · rw [if_pos hl]
    congr 1
    symm
    rw [decide_eq_false_iff_not]
    rintro ⟨rfl, rfl⟩
    apply hl
    simp
    omega
  · rw [if_neg hl, ← join_eq, ← join_eq, part_zero hx hy, part_one hx hy, part_zero hu hv, part_one hu hv]
    simp only [bind, Except.bind]
    by_cases h1 : x = v
    · rw [if_neg (by simp [h1])]
      congr 1
      rw [decide_eq_decide]
      exact ⟨fun h => ⟨h.symm, h1.symm⟩, fun h => h.1.symm⟩
    · rw [if_pos h1]
      congr 1
      symm
      rw [decide_eq_false_iff_not]
      exact fun h => h1 h.2.symm

/-- Being symmetric does not depend on the order. -/
theorem C97_symmetric_comm (x y u v : Str) (hx : ' ' ∉ x) (hy : ' ' ∉ y) (hu : ' ' ∉ u) (hv : ' ' ∉ v) :
    areSymmetric (x ++ ' ' :: y) (u ++ ' ' :: v) = areSymmetric (u ++ ' ' :: v) (x ++ ' ' :: y) := by
  rw [C97_symmetric x y u v hx hy hu hv, C97_symmetric u v x y hu hv hx hy]
  congr 1
  rw [decide_eq_decide, ← join_eq, ← join_eq, ← join_eq, ← join_eq, join_inj hu hy, join_inj hx hv]
  exact ⟨fun h => ⟨h.2.symm, h.1.symm⟩, fun h => ⟨h.2.symm, h.1.symm⟩⟩

/-- In a row of `n` occurrences of a token, one right after the other, every second one begins a pair, so that pairs do not overlap. -/
theorem C97_row (s : Int) : ∀ (n : Nat) (p : Int),
    selfMerge s ((List.range n).map fun i : Nat => p + s * i) = (List.range (n / 2)).map fun i : Nat => p + s * (2 * i)
  | 0, p => rfl
  | 1, p => rfl
  | n + 2, p => by
    have h1 : (List.range (n + 2)).map (fun i : Nat => p + s * i)
        = p :: (p + s) :: (List.range n).map (fun i : Nat => (p + s * 2) + s * i) := by
      rw [List.range_succ_eq_map, List.range_succ_eq_map]
      simp only [List.map_cons, List.map_map, List.cons.injEq]
      refine ⟨by simp, by simp, List.map_congr_left fun i _ => ?_⟩
      simp only [Function.comp]
      push_cast
      rw [Int.mul_add, Int.mul_add]
      omega
    have h2 : (n + 2) / 2 = n / 2 + 1 := by omega
    rw [h1, h2, List.range_succ_eq_map]
    unfold selfMerge
    rw [if_pos rfl, C97_row s n]
    simp only [List.map_cons, List.map_map, List.cons.injEq]
    refine ⟨by simp, List.map_congr_left fun i _ => ?_⟩
    simp only [Function.comp]
    push_cast
    rw [Int.mul_add, Int.mul_add]
    omega

theorem selfMerge_cut (s : Int) (x : Int) (l2 : List Int) (h : l2.head? ≠ some (x + s)) (l1 : List Int) :
    selfMerge s (l1 ++ x :: l2) = selfMerge s (l1 ++ [x]) ++ selfMerge s l2 := by
  induction l1 using selfMerge.induct s with
  | case1 a r ih =>
    simp only [List.cons_append]
    rw [selfMerge, if_pos rfl, ih]
    conv => rhs; rw [selfMerge, if_pos rfl]
    rfl
  | case2 a b r hn ih =>
    simp only [List.cons_append] at ih ⊢
    rw [selfMerge, if_neg hn, ih]
    conv => rhs; rw [selfMerge, if_neg hn]
  | case3 l hl =>
    match l, hl with
    | [], _ =>
      cases l2 with
      | nil => rfl
      | cons b r =>
        simp only [List.head?_cons, ne_eq, Option.some.injEq] at h
        simp only [List.nil_append]
        rw [selfMerge, if_neg (fun e => h e.symm)]
        rfl
    | [a], _ =>
      by_cases ha : a + s = x
      · simp only [List.cons_append, List.nil_append]
        rw [selfMerge, if_pos ha]
        conv => rhs; rw [selfMerge, if_pos ha]
        rfl
      · simp only [List.cons_append, List.nil_append]
        rw [selfMerge, if_neg ha]
        conv => rhs; rw [selfMerge, if_neg ha]
        cases l2 with
        | nil => rfl
        | cons b r =>
          simp only [List.head?_cons, ne_eq, Option.some.injEq] at h
          rw [selfMerge, if_neg (fun e => h e.symm)]
          rfl
    | a :: b :: r, hl => exact absurd rfl (hl a b r)

/-- Rows that do not follow each other directly are independent. -/
theorem C97_rows (s : Int) (l1 l2 : List Int) (h : ∀ x, l1.getLast? = some x → l2.head? ≠ some (x + s)) :
    selfMerge s (l1 ++ l2) = selfMerge s l1 ++ selfMerge s l2 := by
  rcases List.eq_nil_or_concat l1 with rfl | ⟨a, x, rfl⟩
  · rfl
  · have := selfMerge_cut s x l2 (h x (by simp)) a
    simpa using this

example : swapPair "abc d".toList = .ok "d abc".toList := by decide +kernel
example : areSymmetric "abc dcba".toList "dcba abc".toList = .ok true := by decide +kernel
example : areSymmetric "abc dfe".toList "efd cba".toList = .ok false := by decide +kernel
example : areSymmetric "a c".toList "ac".toList = .ok false := by decide +kernel
example : areSymmetric "ac".toList "ac".toList = .error .indexError := by decide +kernel
example : selfMerge 2 [0, 2, 4, 9, 11, 13, 15] = [0, 9, 13] := by decide

end Verif.Props
