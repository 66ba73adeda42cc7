import Verif.Proofs.Fewer
import Verif.Spec.Resplit
/-!
# Splitting a part of a word again
-/
namespace Verif.Props
open Verif Spec

theorem adjacent_left {p : Str × Str} {s t : List Str} (h : Adjacent p s) : Adjacent p (s ++ t) := by
  obtain ⟨a, b, rfl⟩ := h
  exact ⟨a, b ++ t, by simp⟩

theorem adjacent_right {p : Str × Str} {s t : List Str} (h : Adjacent p t) : Adjacent p (s ++ t) := by
  obtain ⟨a, b, rfl⟩ := h
  exact ⟨s ++ a, b, by simp⟩

/-- Cutting the result of joining a pair: the two parts come from two parts of the symbols before. -/
theorem replaceAll_cut (p : Str × Str) (s : List Str) : ∀ t1 t2, replaceAll p s = t1 ++ t2 →
    ∃ s1 s2, s = s1 ++ s2 ∧ replaceAll p s1 = t1 ∧ replaceAll p s2 = t2 := by
  induction s using replaceAll.induct p with
  | case1 =>
    intro t1 t2 h
    obtain ⟨rfl, rfl⟩ := List.append_eq_nil_iff.1 h.symm
    exact ⟨[], [], rfl, rfl, rfl⟩
  | case2 a =>
    intro t1 t2 h
    cases t1 with
    | nil => exact ⟨[], [a], rfl, rfl, h⟩
    | cons x t1 =>
      have h' : [a] = x :: (t1 ++ t2) := h
      injection h' with h1 h2
      obtain ⟨rfl, rfl⟩ := List.append_eq_nil_iff.1 h2.symm
      exact ⟨[a], [], by simp, by rw [h1]; rfl, rfl⟩
  | case3 a b r hc ih =>
    intro t1 t2 h
    cases t1 with
    | nil => exact ⟨[], a :: b :: r, rfl, rfl, h⟩
    | cons x t1 =>
      rw [replaceAll, if_pos hc, List.cons_append] at h
      injection h with h1 h2
      obtain ⟨s1, s2, rfl, e1, e2⟩ := ih t1 t2 h2
      exact ⟨a :: b :: s1, s2, rfl, by rw [replaceAll, if_pos hc, h1, e1], e2⟩
  | case4 a b r hc ih =>
    intro t1 t2 h
    cases t1 with
    | nil => exact ⟨[], a :: b :: r, rfl, rfl, h⟩
    | cons x t1 =>
      rw [replaceAll, if_neg hc, List.cons_append] at h
      injection h with h1 h2
      obtain ⟨s1, s2, e0, e1, e2⟩ := ih t1 t2 h2
      refine ⟨a :: s1, s2, by rw [e0]; rfl, ?_, e2⟩
      cases s1 with
      | nil =>
        have : t1 = [] := e1.symm
        rw [this, ← h1]
        rfl
      | cons y s1 =>
        have hy : b = y := by
          rw [List.cons_append] at e0
          injection e0
        subst hy
        rw [replaceAll, if_neg hc, e1, h1]

theorem replaceAll_absent {p : Str × Str} {s : List Str} (h : ¬ Adjacent p s) : replaceAll p s = s := by
  induction s using replaceAll.induct p with
  | case1 => rfl
  | case2 a => rfl
  | case3 a b r hc ih => exact absurd ⟨[], r, by rw [hc.1, hc.2]; rfl⟩ h
  | case4 a b r hc ih =>
    rw [replaceAll, if_neg hc, ih]
    rintro ⟨x, y, e⟩
    exact h ⟨a :: x, y, by rw [e]; rfl⟩

/-- A step on a part of the symbols, or none. -/
theorem step_part {rank : Str × Str → Option Nat} {p : Str × Str} {k : Nat} (hk : rank p = some k) {s s' : List Str}
    (hmin : ∀ q k', rank q = some k' → Adjacent q s → k ≤ k') (hs : ∀ q, Adjacent q s' → Adjacent q s) {r : List Str}
    (h : Steps rank (replaceAll p s') r) : Steps rank s' r := by
  by_cases ha : Adjacent p s'
  · exact .head ⟨p, k, hk, ha, fun q k' hq h => hmin q k' hq (hs q h), rfl⟩ h
  · rw [replaceAll_absent ha] at h
    exact h

/-- What was done before a boundary and what was done after it are independent. -/
theorem steps_cut {rank : Str × Str → Option Nat} {s r : List Str} (h : Steps rank s r) : ∀ x y, r = x ++ y →
    ∃ s1 s2, s = s1 ++ s2 ∧ Steps rank s1 x ∧ Steps rank s2 y := by
  induction h with
  | refl s => exact fun x y e => ⟨x, y, e, .refl _, .refl _⟩
  | head hst _ ih =>
    intro x y e
    obtain ⟨t1, t2, ht, h1, h2⟩ := ih x y e
    obtain ⟨p, k, hk, -, hmin, rfl⟩ := hst
    obtain ⟨s1, s2, rfl, rfl, rfl⟩ := replaceAll_cut p _ t1 t2 ht
    exact ⟨s1, s2, rfl, step_part hk hmin (fun _ h => adjacent_left h) h1, step_part hk hmin (fun _ h => adjacent_right h) h2⟩

theorem final_left {rank : Str × Str → Option Nat} {x y : List Str} (h : Final rank (x ++ y)) : Final rank x :=
  fun p hp => h p (adjacent_left hp)

theorem final_right {rank : Str × Str → Option Nat} {x y : List Str} (h : Final rank (x ++ y)) : Final rank y :=
  fun p hp => h p (adjacent_right hp)

/-! ## The end of a word -/

theorem adjacent_snoc {p : Str × Str} {s : List Str} {e : Str} (h : Adjacent p (s ++ [e])) : Adjacent p s ∨ p.2 = e := by
  obtain ⟨a, b, h⟩ := h
  rcases List.eq_nil_or_concat b with rfl | ⟨b, z, rfl⟩
  · right
    have := congrArg List.getLast? h
    simpa using this.symm
  · left
    refine ⟨a, b, ?_⟩
    have e : a ++ p.1 :: p.2 :: (b.concat z) = (a ++ p.1 :: p.2 :: b) ++ [z] := by simp
    rw [e] at h
    exact List.append_inj_left' h rfl

theorem replaceAll_snoc {p : Str × Str} {e : Str} (he : p.2 ≠ e) (s : List Str) : replaceAll p (s ++ [e]) = replaceAll p s ++ [e] := by
  induction s using replaceAll.induct p with
  | case1 => rfl
  | case2 a =>
    show replaceAll p [a, e] = [a, e]
    rw [replaceAll, if_neg (fun h => he h.2.symm)]
    rfl
  | case3 a b r hc ih =>
    show replaceAll p (a :: b :: (r ++ [e])) = _
    rw [replaceAll, if_pos hc, ih, replaceAll, if_pos hc]
    rfl
  | case4 a b r hc ih =>
    show replaceAll p (a :: b :: (r ++ [e])) = _
    rw [replaceAll, if_neg hc]
    have ih' : replaceAll p (b :: (r ++ [e])) = replaceAll p (b :: r) ++ [e] := ih
    rw [ih', replaceAll, if_neg hc]
    rfl

theorem steps_snoc {rank : Str × Str → Option Nat} {e : Str} (he : ∀ p, p.2 = e → rank p = none) {s r : List Str} (h : Steps rank s r) :
    Steps rank (s ++ [e]) (r ++ [e]) := by
  induction h with
  | refl s => exact .refl _
  | head hst _ ih =>
    obtain ⟨p, k, hk, ha, hmin, rfl⟩ := hst
    refine .head ⟨p, k, hk, adjacent_left ha, ?_, (replaceAll_snoc (fun hp => ?_) _).symm⟩ ih
    · intro q k' hq h
      rcases adjacent_snoc h with h | h
      · exact hmin q k' hq h
      · rw [he q h] at hq; cases hq
    · rw [he p hp] at hk; cases hk

theorem final_snoc {rank : Str × Str → Option Nat} {e : Str} (he : ∀ p, p.2 = e → rank p = none) {r : List Str} (h : Final rank r) :
    Final rank (r ++ [e]) := by
  intro p hp
  rcases adjacent_snoc hp with hp | hp
  · exact h p hp
  · exact he p hp

/-! ## Words -/

theorem tailed_coded_inj : ∀ {a b : List Str}, tailed coded [escChar] a = tailed coded [escChar] b → a = b := by
  intro a
  induction a using tailed.induct with
  | case1 =>
    intro b h
    have := congrArg List.length h
    rw [tailed_length, tailed_length] at this
    exact (List.length_eq_zero_iff.1 this.symm).symm
  | case2 x =>
    intro b h
    match b with
    | [] => cases h
    | [y] =>
      simp only [tailed, List.cons.injEq, and_true] at h
      rw [coded_inj (List.append_cancel_right h)]
    | y :: z :: b => exact absurd (congrArg List.length h) (by simp [tailed, tailed_length])
  | case3 x y r ih =>
    intro b h
    match b with
    | [] => cases h
    | [z] => exact absurd (congrArg List.length h) (by simp [tailed, tailed_length])
    | z :: z' :: b =>
      simp only [tailed, List.cons.injEq] at h
      rw [coded_inj h.1, ih h.2]

/-- Words are always split, and as the merges say. -/
theorem genuine_splits {d : BpeData} (hg : GenuineWords d) {w : Str} (hs : ' ' ∉ w) {l : List Str} (hl : l ≠ [])
    (h : encodeWord (escape w true) d.merges = .ok (tailed coded [escChar] l)) : getBpeSubwords w d = .ok l := by
  obtain ⟨r, h1, h2, -⟩ := encodeWord_escape w d.merges hs
  have h0 := h1
  rw [h] at h1
  cases h1
  obtain ⟨v, md, hu, -⟩ := unescape_coarse h2
  have hok : ∃ l', getBpeSubwords w d = .ok l' := by
    unfold getBpeSubwords getBpeSubwordsSt
    cases hc : d.cache.get? (escape w true) with
    | some x =>
      have := hg _ _ hc
      rw [h0] at this
      cases this
      simp [hc, hu, bind, Except.bind, Except.map]
    | none => simp [hc, h0, hu, bind, Except.bind, Except.map]
  obtain ⟨l', hl'⟩ := hok
  have := (genuine_encoded hg hs hl').2
  rw [h] at this
  rw [hl', tailed_coded_inj (Except.ok.inj this)]

/-- The symbols of a word, cut in two. -/
theorem units_cut {w : Str} {s1 s2 : List Str} (h : initialSymbols w = s1 ++ s2) (h2 : s2 ≠ []) :
    ∃ u v, w = u ++ v ∧ s1 = u.map unitOf ∧ s2 = initialSymbols v := by
  rw [← unitsOf_eq_initialSymbols] at h
  unfold unitsOf at h
  have hl : s1.length ≤ (w.map unitOf).length := by
    have := congrArg List.length h
    have h3 := List.length_pos_iff.2 h2
    simp only [List.length_append, List.length_map, List.length_cons, List.length_nil] at this ⊢
    omega
  have e1 : s1 = (w.map unitOf).take s1.length := by
    have := congrArg (List.take s1.length) h
    rw [List.take_append_of_le_length hl, List.take_left] at this
    exact this.symm
  have e2 : s2 = (w.map unitOf).drop s1.length ++ [[escChar]] := by
    have := congrArg (List.drop s1.length) h
    rw [List.drop_append_of_le_length hl, List.drop_left] at this
    exact this.symm
  refine ⟨w.take s1.length, w.drop s1.length, (List.take_append_drop _ _).symm, ?_, ?_⟩
  · rw [List.map_take]; exact e1
  · rw [← unitsOf_eq_initialSymbols, unitsOf, List.map_drop]; exact e2

theorem coarsens_empty {c : List Str} (h : Coarsens c []) : c = [] :=
  List.length_eq_zero_iff.1 (Nat.le_zero.1 (coarsens_length h))

theorem unique_normal {m : MergeList} (hm : RanksOk m) {s r r' : List Str} (h1 : Steps m.priority? s r) (h2 : Steps m.priority? s r')
    (f1 : Final m.priority? r) (f2 : Final m.priority? r') : r = r' := by
  have h := steps_final hm h1 h2 f2
  cases h with
  | refl => rfl
  | head h _ =>
    obtain ⟨p, k, hk, ha, -⟩ := h
    rw [f1 p ha] at hk
    cases hk

/-- A split of a word, cut in two. -/
theorem split_cut {d : BpeData} (hg : GenuineWords d) (hm : RanksOk d.merges) {w : Str} (hs : ' ' ∉ w) {xs ys : List Str} (hy : ys ≠ [])
    (h : getBpeSubwords w d = .ok (xs ++ ys)) :
    Steps d.merges.priority? (xs.flatten.map unitOf) (xs.map coded) ∧ Final d.merges.priority? (xs.map coded) ∧
      Steps d.merges.priority? (initialSymbols ys.flatten) (tailed coded [escChar] ys) ∧
      Final d.merges.priority? (tailed coded [escChar] ys) ∧ w = xs.flatten ++ ys.flatten := by
  obtain ⟨-, h1⟩ := genuine_encoded hg hs h
  rw [tailed_append _ _ _ hy] at h1
  obtain ⟨r, g1, -, g2⟩ := encodeWord_escape w d.merges hs
  rw [h1] at g1
  obtain rfl := Except.ok.inj g1
  obtain ⟨a1, a2⟩ := encodeLoop_steps hm _ _ _ g2
  rw [unitsOf_eq_initialSymbols] at a1
  obtain ⟨s1, s2, hs12, b1, b2⟩ := steps_cut a1 _ _ rfl
  have hs2 : s2 ≠ [] := by
    rintro rfl
    have := coarsens_empty (steps_coarsens b2)
    have h3 := tailed_length coded [escChar] ys
    rw [this] at h3
    exact hy (List.length_eq_zero_iff.1 h3.symm)
  obtain ⟨u, v, rfl, rfl, rfl⟩ := units_cut hs12 hs2
  have hu : u = xs.flatten := by
    have := (steps_coarsens b1).flatten_eq
    rw [coded_flatten] at this
    exact (coded_inj this).symm
  have hv : v = ys.flatten := by
    have := (steps_coarsens b2).flatten_eq
    rw [tailed_coded_flatten hy, ← unitsOf_eq_initialSymbols, unitsOf, List.flatten_append] at this
    have h4 : coded ys.flatten ++ [escChar] = coded v ++ [escChar] := by
      rw [this]
      simp [coded]
    exact (coded_inj (List.append_cancel_right h4)).symm
  subst hu hv
  exact ⟨b1, final_left a2, b2, final_right a2, rfl⟩

/-- What the merges lead to is what a word is split into. -/
theorem split_of_steps {d : BpeData} (hg : GenuineWords d) (hm : RanksOk d.merges) {w : Str} (hs : ' ' ∉ w) {l : List Str} (hl : l ≠ [])
    (h : Steps d.merges.priority? (initialSymbols w) (tailed coded [escChar] l)) (hf : Final d.merges.priority? (tailed coded [escChar] l)) :
    getBpeSubwords w d = .ok l := by
  obtain ⟨r, g1, -, g2⟩ := encodeWord_escape w d.merges hs
  obtain ⟨a1, a2⟩ := encodeLoop_steps hm _ _ _ g2
  rw [unitsOf_eq_initialSymbols] at a1
  rw [unique_normal hm a1 h a2 hf] at g1
  exact genuine_splits hg hs hl g1

end Verif.Props
