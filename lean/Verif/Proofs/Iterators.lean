import Verif.Model.Iterators
import Verif.Proofs.Repr
/-!
# Iterators and end-of-token marks
-/
namespace Verif
open Spec

variable {α β : Type}

theorem boundsFrom_getElem? (n : Nat) (gs : List (List α)) (i : Nat) :
    (boundsFrom n gs)[i]? = if i ≤ gs.length then some (n + (gs.take i).flatten.length) else none := by
  induction gs generalizing n i with
  | nil => cases i <;> simp [boundsFrom]
  | cons g r ih =>
    cases i with
    | zero => simp [boundsFrom]
    | succ i =>
      simp only [boundsFrom, List.getElem?_cons_succ, ih, List.length_cons, Nat.add_le_add_iff_right, List.take_succ_cons,
        List.flatten_cons, List.length_append, Nat.add_assoc]

theorem boundsFrom_head? (n : Nat) (gs : List (List α)) : (boundsFrom n gs).head? = some n := by
  cases gs <;> rfl

theorem boundsFrom_ge (n : Nat) (gs : List (List α)) : ∀ b ∈ boundsFrom n gs, n ≤ b := by
  induction gs generalizing n with
  | nil => simp [boundsFrom]
  | cons g r ih =>
    intro b hb
    simp only [boundsFrom, List.mem_cons] at hb
    rcases hb with rfl | hb
    · exact Nat.le_refl _
    · have := ih _ b hb
      omega

theorem boundsFrom_pairwise (n : Nat) (gs : List (List α)) : (boundsFrom n gs).Pairwise (· ≤ ·) := by
  induction gs generalizing n with
  | nil => simp [boundsFrom]
  | cons g r ih =>
    simp only [boundsFrom, List.pairwise_cons]
    refine ⟨fun b hb => ?_, ih _⟩
    have := boundsFrom_ge _ _ b hb
    omega

theorem boundsFrom_strict (n : Nat) (gs : List (List α)) (h : ∀ g ∈ gs, g ≠ []) :
    (boundsFrom n gs).Pairwise (· < ·) := by
  induction gs generalizing n with
  | nil => simp [boundsFrom]
  | cons g r ih =>
    simp only [boundsFrom, List.pairwise_cons]
    refine ⟨fun b hb => ?_, ih _ fun x hx => h x (by simp [hx])⟩
    have := boundsFrom_ge _ _ b hb
    have := List.length_pos_iff.mpr (h g (by simp))
    omega

theorem boundsFrom_strict_iff (n : Nat) (gs : List (List α)) :
    (boundsFrom n gs).Pairwise (· < ·) ↔ ∀ g ∈ gs, g ≠ [] := by
  refine ⟨fun h => ?_, boundsFrom_strict n gs⟩
  induction gs generalizing n with
  | nil => simp
  | cons g r ih =>
    simp only [boundsFrom, List.pairwise_cons] at h
    intro x hx
    rcases List.mem_cons.mp hx with rfl | hx
    · rintro rfl
      have := h.1 (n + 0) (by cases r <;> simp [boundsFrom])
      omega
    · exact ih _ h.2 x hx

/-- Every well-formed list of boundaries is the list of boundaries of some groups. -/
theorem exists_groups (n : Nat) (l : List α) (b : Nat) (bs : List Nat) (hp : (b :: bs).Pairwise (· ≤ ·))
    (hl : (b :: bs).getLast? = some n) (hn : n = b + l.length) :
    ∃ gs : List (List α), gs.flatten = l ∧ b :: bs = boundsFrom b gs := by
  induction bs generalizing b l with
  | nil =>
    simp at hl
    have : l = [] := List.length_eq_zero_iff.mp (by omega)
    exact ⟨[], by simp [this], rfl⟩
  | cons c r ih =>
    rw [List.pairwise_cons] at hp
    have hbc := hp.1 c (by simp)
    rw [List.getLast?_cons_cons] at hl
    have hcn : c ≤ n := by
      cases hr : r with
      | nil => simp [hr] at hl; omega
      | cons d r' =>
        have : n ∈ r := by
          rw [hr] at hl ⊢
          rw [List.getLast?_cons_cons] at hl
          exact List.mem_of_getLast? hl
        exact (List.pairwise_cons.mp hp.2).1 n this
    obtain ⟨gs, hg, hb⟩ := ih (l.drop (c - b)) c hp.2 hl (by simp; omega)
    refine ⟨l.take (c - b) :: gs, by simp [hg], ?_⟩
    simp only [boundsFrom, List.length_take]
    rw [hb]
    congr 2
    omega

/-! ## Full tokens -/

theorem validate_boundsFrom (gs : List (List α)) : validateBoundaries gs.flatten.length (boundsFrom 0 gs) = .ok () := by
  unfold validateBoundaries
  rw [boundsFrom_head?, boundsFrom_getLast?]
  simp

theorem fullTokenIter_groups (gs : List (List α)) (format : List α → β) (wi : Bool) :
    fullTokenIter gs.flatten (boundsFrom 0 gs) format wi =
      .ok (gs.zipIdx.map fun gi => (if wi then some gi.2 else none, format gi.1)) := by
  unfold fullTokenIter
  rw [validate_boundsFrom]
  simp only [bind, Except.bind, boundsFrom_length]
  have key : ∀ (rest pre : List (List α)), gs = pre ++ rest →
      collectIter (fullTokenNext gs.flatten (boundsFrom 0 gs) format wi) (rest.length + 1) pre.length =
        .ok ((rest.zipIdx pre.length).map fun gi => (if wi then some gi.2 else none, format gi.1)) := by
    intro rest
    induction rest with
    | nil =>
      intro pre h
      simp only [List.length_nil, collectIter, fullTokenNext, boundsFrom_length]
      rw [if_pos (by simp [h])]
      rfl
    | cons g r ih =>
      intro pre h
      rw [List.length_cons, collectIter]
      have e1 : (boundsFrom 0 gs)[pre.length]? = some pre.flatten.length := by
        rw [boundsFrom_getElem?, if_pos (by simp [h])]
        simp [h]
      have e2 : (boundsFrom 0 gs)[pre.length + 1]? = some (pre.flatten.length + g.length) := by
        rw [boundsFrom_getElem?, if_pos (by simp [h])]
        have : gs.take (pre.length + 1) = pre ++ [g] := by rw [h]; simp [List.take_append]; exact List.take_of_length_le (by simp)
        rw [this]
        simp
      have e3 : (gs.flatten.take (pre.flatten.length + g.length)).drop pre.flatten.length = g := by
        rw [h]
        simp [List.take_append]
      have hnext : fullTokenNext gs.flatten (boundsFrom 0 gs) format wi pre.length =
          .ok (some ((if wi then some pre.length else none, format g), pre.length + 1)) := by
        unfold fullTokenNext
        rw [if_neg (by simp [boundsFrom_length, h]), e1, e2]
        simp only
        rw [e3]
      rw [hnext]
      simp only [bind, Except.bind]
      have := ih (pre ++ [g]) (by simp [h])
      rw [List.length_append, List.length_singleton] at this
      rw [this]
      rfl
  simpa using key gs [] rfl

/-! ## Subtokens -/

theorem subtokenIter_groups (gs : List (List α)) (hne : ∀ g ∈ gs, g ≠ []) (format : List α → β) (wi : Bool) :
    subtokenIter gs.flatten (boundsFrom 0 gs) format wi =
      .ok (gs.zipIdx.flatMap fun gi => gi.1.map fun x => (if wi then some gi.2 else none, format [x])) := by
  unfold subtokenIter
  rw [validate_boundsFrom]
  simp only [bind, Except.bind]
  have key : ∀ (rest : List (List α)) (q p : List α) (pre : List (List α)), gs = pre ++ (p ++ q) :: rest →
      q ≠ [] → (∀ g ∈ rest, g ≠ []) →
      collectIter (subtokenNext gs.flatten (boundsFrom 0 gs) format wi) (q.length + rest.flatten.length + 1)
        (pre.flatten.length + p.length, pre.length) =
        .ok ((q.map fun x => (if wi then some pre.length else none, format [x])) ++
          (rest.zipIdx (pre.length + 1)).flatMap fun gi => gi.1.map fun x => (if wi then some gi.2 else none, format [x])) := by
    intro rest
    induction rest with
    | nil =>
      intro q
      induction q with
      | nil => intro _ _ _ h; exact absurd rfl h
      | cons x q ihq =>
        intro p pre h _ _
        have e1 : gs.flatten[pre.flatten.length + p.length]? = some x := by
          rw [h]
          simp
        have e2 : (boundsFrom 0 gs)[pre.length + 1]? = some (pre.flatten.length + (p.length + (q.length + 1))) := by
          rw [boundsFrom_getElem?, if_pos (by simp [h])]
          have : gs.take (pre.length + 1) = pre ++ [p ++ x :: q] := by
            rw [h]; simp [List.take_append]; exact List.take_of_length_le (by simp)
          rw [this]
          simp
        have hlt : ¬ (pre.flatten.length + p.length ≥ gs.flatten.length) := by
          rw [h]; simp
        rw [List.length_cons]
        have : q.length + 1 + ([] : List (List α)).flatten.length + 1 = (q.length + ([] : List (List α)).flatten.length + 1) + 1 := by
          omega
        rw [this, collectIter]
        have hnext : subtokenNext gs.flatten (boundsFrom 0 gs) format wi (pre.flatten.length + p.length, pre.length) =
            .ok (some ((if wi then some pre.length else none, format [x]),
              (pre.flatten.length + p.length + 1, if pre.flatten.length + (p.length + (q.length + 1)) = pre.flatten.length + p.length + 1 then pre.length + 1 else pre.length))) := by
          unfold subtokenNext
          rw [if_neg hlt]
          simp only
          rw [e1, e2]
        rw [hnext]
        simp only [bind, Except.bind]
        by_cases hq : q = []
        · subst hq
          simp only [List.length_nil, Nat.zero_add, List.flatten_nil]
          rw [collectIter]
          have hstop : subtokenNext gs.flatten (boundsFrom 0 gs) format wi
              (pre.flatten.length + p.length + 1, if pre.flatten.length + (p.length + 1) = pre.flatten.length + p.length + 1
                then pre.length + 1 else pre.length) = .ok none := by
            unfold subtokenNext
            rw [if_pos]
            rw [h]; simp; omega
          rw [hstop]
          simp [bind, Except.bind]
        · have hl := List.length_pos_iff.mpr hq
          rw [if_neg (by omega)]
          have := ihq (p ++ [x]) pre (by simp [h]) hq (by simp)
          simp only [List.length_append, List.length_singleton, ← Nat.add_assoc] at this
          rw [this]
          simp
    | cons g rest ihr =>
      intro q
      induction q with
      | nil => intro _ _ _ h; exact absurd rfl h
      | cons x q ihq =>
        intro p pre h _ hr
        have e1 : gs.flatten[pre.flatten.length + p.length]? = some x := by
          rw [h]
          simp
        have e2 : (boundsFrom 0 gs)[pre.length + 1]? = some (pre.flatten.length + (p.length + (q.length + 1))) := by
          rw [boundsFrom_getElem?, if_pos (by simp [h])]
          have : gs.take (pre.length + 1) = pre ++ [p ++ x :: q] := by
            rw [h]; simp [List.take_append]; exact List.take_of_length_le (by simp)
          rw [this]
          simp
        have hlt : ¬ (pre.flatten.length + p.length ≥ gs.flatten.length) := by
          rw [h]; simp
        rw [List.length_cons]
        have : q.length + 1 + (g :: rest).flatten.length + 1 = (q.length + (g :: rest).flatten.length + 1) + 1 := by
          omega
        rw [this, collectIter]
        have hnext : subtokenNext gs.flatten (boundsFrom 0 gs) format wi (pre.flatten.length + p.length, pre.length) =
            .ok (some ((if wi then some pre.length else none, format [x]),
              (pre.flatten.length + p.length + 1, if pre.flatten.length + (p.length + (q.length + 1)) = pre.flatten.length + p.length + 1 then pre.length + 1 else pre.length))) := by
          unfold subtokenNext
          rw [if_neg hlt]
          simp only
          rw [e1, e2]
        rw [hnext]
        simp only [bind, Except.bind]
        by_cases hq : q = []
        · subst hq
          rw [if_pos (by simp; omega)]
          have := ihr g [] (pre ++ [p ++ [x]]) (by simp [h]) (hr g (by simp)) (fun y hy => hr y (by simp [hy]))
          simp only [List.flatten_append, List.length_append, List.flatten_cons, List.flatten_nil, List.append_nil,
            List.length_singleton, List.length_nil, Nat.add_zero, ← Nat.add_assoc] at this
          simp only [List.length_nil, Nat.zero_add, List.flatten_cons, List.length_append]
          rw [this]
          simp
        · have hl := List.length_pos_iff.mpr hq
          rw [if_neg (by omega)]
          have := ihq (p ++ [x]) pre (by simp [h]) hq hr
          simp only [List.length_append, List.length_singleton, ← Nat.add_assoc] at this
          rw [this]
          simp
  cases gs with
  | nil => simp [collectIter, subtokenNext, bind, Except.bind]
  | cons g r =>
    have := key r g [] [] rfl (hne g (by simp)) fun y hy => hne y (by simp [hy])
    simp only [List.flatten_nil, List.length_nil, Nat.add_zero] at this
    rw [List.flatten_cons, List.length_append]
    simp only [List.flatten_cons] at this
    rw [this]
    simp

/-! ## End-of-token marks -/

/-- Append the end-of-token mark to the last subtoken. -/
def markLast : List Str → List Str
  | [] => []
  | [x] => [x ++ Ph.compoundWordEnd]
  | x :: y :: r => x :: markLast (y :: r)

theorem markLast_append (a : List Str) (x : Str) : markLast (a ++ [x]) = a ++ [x ++ Ph.compoundWordEnd] := by
  induction a with
  | nil => rfl
  | cons b r ih =>
    cases r with
    | nil => rfl
    | cons c r => simp only [List.cons_append] at ih ⊢; rw [markLast, ih]

theorem markLast_length (g : List Str) : (markLast g).length = g.length := by
  induction g using markLast.induct with
  | case1 => rfl
  | case2 x => rfl
  | case3 x y r ih => simp [markLast, ih]

theorem insertWordEnds_groups (pre : List Str) (gs : List (List Str)) (h : ∀ g ∈ gs, g ≠ []) :
    insertWordEnds (pre ++ gs.flatten) ((boundsFrom pre.length gs).drop 1) = .ok (pre ++ (gs.map markLast).flatten) := by
  induction gs generalizing pre with
  | nil => simp [boundsFrom, insertWordEnds]
  | cons g r ih =>
    obtain ⟨a, x, rfl⟩ : ∃ a x, g = a ++ [x] := ⟨g.dropLast, g.getLast (h g (by simp)), (List.dropLast_concat_getLast _).symm⟩
    have hcons : boundsFrom (pre.length + (a ++ [x]).length) r =
        (pre.length + (a ++ [x]).length) :: (boundsFrom (pre.length + (a ++ [x]).length) r).drop 1 := by
      cases r <;> rfl
    simp only [boundsFrom, List.drop_succ_cons, List.drop_zero]
    rw [hcons, insertWordEnds]
    have hk : (if pre.length + (a ++ [x]).length = 0 then (pre ++ ((a ++ [x]) :: r).flatten).length - 1
        else pre.length + (a ++ [x]).length - 1) = (pre ++ a).length := by
      simp
    simp only [hk]
    have hl : pre ++ ((a ++ [x]) :: r).flatten = (pre ++ a) ++ x :: r.flatten := by simp
    have hg : (pre ++ ((a ++ [x]) :: r).flatten)[(pre ++ a).length]? = some x := by
      rw [hl]; simp
    rw [hg]
    simp only
    have hset : (pre ++ ((a ++ [x]) :: r).flatten).set (pre ++ a).length (x ++ Ph.compoundWordEnd) =
        (pre ++ a ++ [x ++ Ph.compoundWordEnd]) ++ r.flatten := by
      rw [hl]; simp
    rw [hset]
    have := ih (pre ++ a ++ [x ++ Ph.compoundWordEnd]) fun y hy => h y (by simp [hy])
    have hlen : (pre ++ a ++ [x ++ Ph.compoundWordEnd]).length = pre.length + (a ++ [x]).length := by simp
    rw [hlen] at this
    rw [this]
    simp [markLast_append]

end Verif
