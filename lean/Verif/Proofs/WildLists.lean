import Verif.Proofs.WildSeg
/-!
# The functions on lists of positions
-/
namespace Verif.Wild
open Verif Verif.Spec

theorem filter_all {l : List Int} {p : Int → Bool} (h : ∀ x ∈ l, p x = true) : l.filter p = l := List.filter_eq_self.mpr h

theorem filter_iff {P Q : Int → Prop} [DecidablePred P] [DecidablePred Q] {l : List Int} (h : ∀ z ∈ l, (P z ↔ Q z)) :
    l.filter (fun z => decide (P z)) = l.filter (fun z => decide (Q z)) :=
  List.filter_congr fun z hz => decide_eq_decide.mpr (h z hz)

theorem mergeLists_eq (shift : Int) : ∀ {main l : List Int}, main.Pairwise (· < ·) → l.Pairwise (· < ·) →
    mergeLists shift main l = (l.filter fun y => decide (y - shift ∉ main),
      (l.filter fun y => decide (y - shift ∈ main)).map fun y => min (y - shift) y) := by
  intro main
  induction main with
  | nil => intro l _ _; simp [mergeLists]
  | cons x m ih =>
    intro l hm hl
    rw [mergeLists]
    have hm' := List.pairwise_cons.mp hm
    induction l with
    | nil => rfl
    | cons y l ihl =>
      have hl' := List.pairwise_cons.mp hl
      rw [mergeListsGo]
      by_cases h1 : x + shift = y
      · rw [if_pos h1, ih hm'.2 hl'.2]
        have e : ∀ z ∈ l, (z - shift ∈ m ↔ z - shift ∈ x :: m) := by
          intro z hz
          have := hl'.1 z hz
          rw [List.mem_cons]
          exact ⟨.inr, fun h => h.elim (fun h => by omega) id⟩
        have e1 : l.filter (fun z => decide (z - shift ∉ m)) = l.filter (fun z => decide (z - shift ∉ x :: m)) :=
          List.filter_congr fun z hz => by rw [decide_eq_decide, not_congr (e z hz)]
        have e2 : l.filter (fun z => decide (z - shift ∈ m)) = l.filter (fun z => decide (z - shift ∈ x :: m)) :=
          List.filter_congr fun z hz => by rw [decide_eq_decide, e z hz]
        have hy : y - shift = x := by omega
        simp only [e1, e2]
        rw [List.filter_cons_of_neg (by simp [hy]), List.filter_cons_of_pos (by simp [hy]), List.map_cons, hy]
      · rw [if_neg h1]
        by_cases h2 : x + shift > y
        · rw [if_pos h2, ihl hl'.2]
          have hy : y - shift ∉ x :: m := by
            rw [List.mem_cons]
            rintro (h | h)
            · omega
            · have := hm'.1 _ h; omega
          rw [List.filter_cons_of_pos (by simpa using hy), List.filter_cons_of_neg (by simpa using hy)]
        · rw [if_neg h2, ih hm'.2 hl]
          have e : ∀ z ∈ y :: l, (z - shift ∈ m ↔ z - shift ∈ x :: m) := by
            intro z hz
            have : y ≤ z := by
              rcases List.mem_cons.mp hz with rfl | hz
              · omega
              · have := hl'.1 z hz; omega
            rw [List.mem_cons]
            exact ⟨.inr, fun h => h.elim (fun h => by omega) id⟩
          rw [filter_iff (Q := fun z => z - shift ∉ x :: m) fun z hz => not_congr (e z hz),
            filter_iff (P := fun z => z - shift ∈ m) (Q := fun z => z - shift ∈ x :: m) e]

theorem mergeBothLoop_eq {s0 s1 : Int} (h0 : 0 < s0) (h1 : s1 < 0) : ∀ {main l : List Int},
    main.Pairwise (fun (x y : Int) => x + (s0 - s1) ≤ y) → l.Pairwise (· < ·) →
    mergeBothLoop s0 s1 main l = (l.filter fun y => decide (¬ (y - s0 ∈ main ∧ y - s1 ∈ main)),
      (l.filter fun y => decide (y - s0 ∈ main ∧ y - s1 ∈ main)).map fun y => y - s0) := by
  intro main
  induction main with
  | nil => intro l _ _; simp [mergeBothLoop]
  | cons x m ih =>
    intro l hm hl
    have hm' := List.pairwise_cons.mp hm
    cases m with
    | nil =>
      rw [mergeBothLoop]
      · have e : ∀ z : Int, ¬ (z - s0 ∈ [x] ∧ z - s1 ∈ [x]) := by
          intro z ⟨g1, g2⟩
          simp only [List.mem_cons, List.not_mem_nil, or_false] at g1 g2
          omega
        rw [List.filter_eq_self.mpr fun z _ => decide_eq_true (e z),
          List.filter_eq_nil_iff.mpr fun z _ => by simpa only [decide_eq_true_eq] using e z]
        rfl
      · intro _ _ _ h; cases h
    | cons x' m =>
      rw [mergeBothLoop]
      induction l with
      | nil => rfl
      | cons y l ihl =>
        have hl' := List.pairwise_cons.mp hl
        have hx' : x + (s0 - s1) ≤ x' := hm'.1 x' (by simp)
        have big : ∀ z ∈ x' :: m, x + (s0 - s1) ≤ z := hm'.1
        have big' : ∀ z ∈ m, x' + (s0 - s1) ≤ z := (List.pairwise_cons.mp hm'.2).1
        rw [mergeBothGo]
        by_cases g1 : x + s0 = y
        · rw [if_pos g1, ih hm'.2 hl'.2]
          have e : ∀ z ∈ l, ((z - s0 ∈ x' :: m ∧ z - s1 ∈ x' :: m) ↔ (z - s0 ∈ x :: x' :: m ∧ z - s1 ∈ x :: x' :: m)) := by
            intro z hz
            have := hl'.1 z hz
            rw [List.mem_cons (a := z - s0) (b := x), List.mem_cons (a := z - s1) (b := x)]
            constructor
            · rintro ⟨a, b⟩; exact ⟨.inr a, .inr b⟩
            · rintro ⟨a, b⟩
              exact ⟨a.elim (fun h => by omega) id, b.elim (fun h => by omega) id⟩
          have e1 : l.filter (fun z => decide (¬ (z - s0 ∈ x' :: m ∧ z - s1 ∈ x' :: m))) =
              l.filter (fun z => decide (¬ (z - s0 ∈ x :: x' :: m ∧ z - s1 ∈ x :: x' :: m))) :=
            List.filter_congr fun z hz => by rw [decide_eq_decide, not_congr (e z hz)]
          have e2 : l.filter (fun z => decide (z - s0 ∈ x' :: m ∧ z - s1 ∈ x' :: m)) =
              l.filter (fun z => decide (z - s0 ∈ x :: x' :: m ∧ z - s1 ∈ x :: x' :: m)) :=
            List.filter_congr fun z hz => by rw [decide_eq_decide, e z hz]
          simp only [e1, e2]
          have k1 : y - s0 ∈ x :: x' :: m := by
            have : y - s0 = x := by omega
            rw [this]; simp
          have k2 : y - s1 ∈ x :: x' :: m ↔ x' + s1 = y := by
            rw [List.mem_cons, List.mem_cons]
            constructor
            · rintro (h | h | h)
              · omega
              · omega
              · have := big' _ h; omega
            · intro h; exact .inr (.inl (by omega))
          by_cases g2 : x' + s1 = y
          · rw [if_pos g2, List.filter_cons_of_neg (by simpa only [decide_eq_true_eq] using not_not_intro ⟨k1, k2.mpr g2⟩),
              List.filter_cons_of_pos (by simpa only [decide_eq_true_eq] using ⟨k1, k2.mpr g2⟩), List.map_cons,
              show y - s0 = x by omega]
          · rw [if_neg g2, List.filter_cons_of_pos (by simpa only [decide_eq_true_eq] using fun h => g2 (k2.mp h.2)),
              List.filter_cons_of_neg (by simpa only [decide_eq_true_eq] using fun h => g2 (k2.mp h.2))]
        · rw [if_neg g1]
          by_cases g2 : x + s0 > y
          · rw [if_pos g2, ihl hl'.2]
            have hy : y - s0 ∉ x :: x' :: m := by
              rw [List.mem_cons]
              rintro (h | h)
              · omega
              · have := big _ h; omega
            rw [List.filter_cons_of_pos (by simpa only [decide_eq_true_eq] using fun h => hy h.1),
              List.filter_cons_of_neg (by simpa only [decide_eq_true_eq] using fun h => hy h.1)]
          · rw [if_neg g2, ih hm'.2 hl]
            have e : ∀ z ∈ y :: l, ((z - s0 ∈ x' :: m ∧ z - s1 ∈ x' :: m) ↔
                (z - s0 ∈ x :: x' :: m ∧ z - s1 ∈ x :: x' :: m)) := by
              intro z hz
              have : y ≤ z := by
                rcases List.mem_cons.mp hz with rfl | hz
                · omega
                · have := hl'.1 z hz; omega
              rw [List.mem_cons (a := z - s0) (b := x), List.mem_cons (a := z - s1) (b := x)]
              constructor
              · rintro ⟨a, b⟩; exact ⟨.inr a, .inr b⟩
              · rintro ⟨a, b⟩
                exact ⟨a.elim (fun h => by omega) id, b.elim (fun h => by omega) id⟩
            rw [filter_iff (Q := fun z => ¬ (z - s0 ∈ x :: x' :: m ∧ z - s1 ∈ x :: x' :: m)) fun z hz => not_congr (e z hz),
              filter_iff (P := fun z => z - s0 ∈ x' :: m ∧ z - s1 ∈ x' :: m)
                (Q := fun z => z - s0 ∈ x :: x' :: m ∧ z - s1 ∈ x :: x' :: m) e]

/-- The chosen positions, and the others. -/
theorem choosePositions_mem {s : Int} (hs : 0 < s) : ∀ {l : List Int}, l.Pairwise (fun (x y : Int) => x + s ≤ y) →
    (∀ x, x ∈ (choosePositions s l).1 ↔ x ∈ l ∧ x - s ∉ (choosePositions s l).1) ∧
    (∀ x, x ∈ (choosePositions s l).2 ↔ x ∈ l ∧ x ∉ (choosePositions s l).1) ∧
    (choosePositions s l).1.Pairwise (· < ·) ∧ (choosePositions s l).2.Pairwise (· < ·) ∧
    (choosePositions s l).1.length + (choosePositions s l).2.length = l.length := by
  intro l
  induction l using choosePositions.induct (shift := s) with
  | case1 x r ih =>
    intro h
    obtain ⟨h1, h2⟩ := List.pairwise_cons.mp h
    obtain ⟨h3, h4⟩ := List.pairwise_cons.mp h2
    obtain ⟨i1, i2, i3, i4, i5⟩ := ih h4
    have m1 : ∀ z ∈ (choosePositions s r).1, z ∈ r := fun z hz => ((i1 z).mp hz).1
    have m2 : ∀ z ∈ (choosePositions s r).2, z ∈ r := fun z hz => ((i2 z).mp hz).1
    simp only [choosePositions, if_true]
    refine ⟨fun z => ?_, fun z => ?_, ?_, ?_, ?_⟩
    · simp only [List.mem_cons, not_or, i1 z]
      constructor
      · rintro (rfl | ⟨g1, g2⟩)
        · refine ⟨.inl rfl, by omega, fun g => ?_⟩
          have := h3 _ (m1 _ g); omega
        · have := h3 z g1
          exact ⟨.inr (.inr g1), by omega, g2⟩
      · rintro ⟨rfl | rfl | g1, g2, g3⟩
        · exact .inl rfl
        · omega
        · exact .inr ⟨g1, g3⟩
    · simp only [List.mem_cons, not_or, i2 z]
      constructor
      · rintro (rfl | ⟨g1, g2⟩)
        · refine ⟨.inr (.inl rfl), by omega, fun g => ?_⟩
          have := h3 _ (m1 _ g); omega
        · have := h3 z g1
          exact ⟨.inr (.inr g1), by omega, g2⟩
      · rintro ⟨rfl | rfl | g1, g2, g3⟩
        · exact absurd rfl g2
        · exact .inl rfl
        · exact .inr ⟨g1, g3⟩
    · refine List.pairwise_cons.mpr ⟨fun z hz => ?_, i3⟩
      have := h3 _ (m1 _ hz); omega
    · refine List.pairwise_cons.mpr ⟨fun z hz => ?_, i4⟩
      have := h3 _ (m2 _ hz); omega
    · simp only [List.length_cons]; omega
  | case2 x y r hxy ih =>
    intro h
    obtain ⟨h1, h2⟩ := List.pairwise_cons.mp h
    obtain ⟨i1, i2, i3, i4, i5⟩ := ih h2
    have m1 : ∀ z ∈ (choosePositions s (y :: r)).1, z ∈ y :: r := fun z hz => ((i1 z).mp hz).1
    have m2 : ∀ z ∈ (choosePositions s (y :: r)).2, z ∈ y :: r := fun z hz => ((i2 z).mp hz).1
    have far : ∀ z ∈ y :: r, x + s < z := by
      intro z hz
      have hy := h1 y (by simp)
      rcases List.mem_cons.mp hz with rfl | hz
      · omega
      · have := (List.pairwise_cons.mp h2).1 z hz; omega
    have e : choosePositions s (x :: y :: r) = (x :: (choosePositions s (y :: r)).1, (choosePositions s (y :: r)).2) := by
      simp only [choosePositions, hxy, if_false]
    rw [e]
    have c1 : ∀ z, z ∈ x :: (choosePositions s (y :: r)).1 ↔ z = x ∨ z ∈ (choosePositions s (y :: r)).1 :=
      fun z => List.mem_cons
    have c2 : ∀ z, z ∈ x :: y :: r ↔ z = x ∨ z ∈ y :: r := fun z => List.mem_cons
    refine ⟨fun z => ?_, fun z => ?_, ?_, i4, ?_⟩
    · show z ∈ x :: (choosePositions s (y :: r)).1 ↔ _ ∧ ¬ z - s ∈ x :: (choosePositions s (y :: r)).1
      rw [c1, c2, c1, i1 z]
      constructor
      · rintro (rfl | ⟨g1, g2⟩)
        · refine ⟨.inl rfl, fun g => ?_⟩
          rcases g with g | g
          · omega
          · have := far _ (m1 _ g); omega
        · have := far z g1
          refine ⟨.inr g1, fun g => ?_⟩
          rcases g with g | g
          · omega
          · exact g2 g
      · rintro ⟨rfl | g1, g2⟩
        · exact .inl rfl
        · exact .inr ⟨g1, fun g => g2 (.inr g)⟩
    · show z ∈ (choosePositions s (y :: r)).2 ↔ _ ∧ ¬ z ∈ x :: (choosePositions s (y :: r)).1
      rw [c2, c1, i2 z]
      constructor
      · rintro ⟨g1, g2⟩
        have := far z g1
        refine ⟨.inr g1, fun g => ?_⟩
        rcases g with g | g
        · omega
        · exact g2 g
      · rintro ⟨rfl | g1, g2⟩
        · exact absurd (.inl rfl) g2
        · exact ⟨g1, fun g => g2 (.inr g)⟩
    · refine List.pairwise_cons.mpr ⟨fun z hz => ?_, i3⟩
      have := far _ (m1 _ hz); omega
    · simp only [List.length_cons] at i5 ⊢; omega
  | case3 l hl =>
    intro h
    cases l with
    | nil => exact ⟨by simp [choosePositions], by simp [choosePositions], .nil, .nil, rfl⟩
    | cons x r =>
      cases r with
      | nil =>
        refine ⟨fun z => ?_, fun z => ?_, ?_, .nil, rfl⟩
        · simp only [choosePositions, List.mem_cons, List.not_mem_nil, or_false]
          constructor
          · rintro rfl; exact ⟨rfl, by omega⟩
          · exact fun h => h.1
        · simp [choosePositions]
        · simp [choosePositions]
      | cons y r => exact absurd rfl (hl x y r)

end Verif.Wild
