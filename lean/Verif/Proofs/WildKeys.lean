import Verif.Proofs.WildLists
import Verif.Proofs.Files
import Verif.Proofs.PriorityCounter
/-!
# Pairs as strings
-/
namespace Verif.Wild
open Verif Verif.Spec

/-- Without spaces. -/
abbrev NS (x : Str) : Prop := ' ' ∉ x

theorem join_eq (x y : Str) : join x y = x ++ ' ' :: y := by simp [join, pyJoin]

theorem join_inj {x y u v : Str} (hx : NS x) (hu : NS u) : join x y = join u v ↔ x = u ∧ y = v := by
  constructor
  · intro h
    rw [join_eq, join_eq] at h
    induction x generalizing u with
    | nil =>
      cases u with
      | nil => simpa using h
      | cons d u =>
        simp only [List.nil_append, List.cons_append, List.cons.injEq] at h
        exact absurd (h.1 ▸ List.mem_cons_self) hu
    | cons c x ih =>
      cases u with
      | nil =>
        simp only [List.nil_append, List.cons_append, List.cons.injEq] at h
        exact absurd (h.1 ▸ List.mem_cons_self) hx
      | cons d u =>
        simp only [List.cons_append, List.cons.injEq] at h
        obtain ⟨rfl, h⟩ := h
        obtain ⟨rfl, rfl⟩ := ih (fun g => hx (by simp [g])) (fun g => hu (by simp [g])) h
        exact ⟨rfl, rfl⟩
  · rintro ⟨rfl, rfl⟩; rfl

theorem split_join {x y : Str} (hx : NS x) (hy : NS y) : pySplit ' ' (join x y) = [x, y] := by
  rw [join_eq]; exact pySplit_two hx hy

theorem part_zero {x y : Str} (hx : NS x) (hy : NS y) : part (join x y) 0 = .ok x := by
  simp only [part, split_join hx hy]; rfl

theorem part_one {x y : Str} (hx : NS x) (hy : NS y) : part (join x y) 1 = .ok y := by
  simp only [part, split_join hx hy]; rfl

theorem mergePair_join {x y : Str} (hx : NS x) (hy : NS y) : mergePair (join x y) = x ++ y := by
  simp [mergePair, split_join hx hy, concat]

theorem ns_append {x y : Str} (hx : NS x) (hy : NS y) : NS (x ++ y) := by
  intro h
  rcases List.mem_append.mp h with h | h
  · exact hx h
  · exact hy h

variable {x y u v : Str}

theorem can_left (hx : NS x) (hy : NS y) (hu : NS u) (hv : NS v) :
    canBeConcat (join x y) (join u v) .left = .ok (decide (x = v)) := by
  simp only [canBeConcat, part_zero hx hy, part_one hu hv]; rfl

theorem can_right (hx : NS x) (hy : NS y) (hu : NS u) (hv : NS v) :
    canBeConcat (join x y) (join u v) .right = .ok (decide (y = u)) := by
  simp only [canBeConcat, part_one hx hy, part_zero hu hv]; rfl

theorem concat_left (hx : NS x) (hy : NS y) (hu : NS u) :
    concatPairs (join x y) (join u x) .left = .ok (join u (x ++ y)) := by
  simp only [concatPairs, can_left hx hy hu hx, part_zero hu hx, mergePair_join hx hy]
  simp [bind, Except.bind, pure, Except.pure]

theorem concat_right (hx : NS x) (hy : NS y) (hv : NS v) :
    concatPairs (join x y) (join y v) .right = .ok (join (x ++ y) v) := by
  simp only [concatPairs, can_right hx hy hy hv, part_one hy hv, mergePair_join hx hy]
  simp [bind, Except.bind, pure, Except.pure]

theorem double_join (hx : NS x) (hy : NS y) : doublePair (join x y) = join (x ++ y) (x ++ y) := by
  simp [doublePair, mergePair_join hx hy]

theorem shift_left {m : Str} (hu : NS u) (hv : NS v) : positionShift m (join u v) .left = .ok (-(u.length : Int)) := by
  simp only [positionShift, part_zero hu hv]; rfl

theorem shift_right {d : Str} (hx : NS x) (hy : NS y) : positionShift (join x y) d .right = .ok (x.length : Int) := by
  simp only [positionShift, part_zero hx hy]; rfl

/-! ## Positions of a key -/

/-- The positions of the pair that is written `k`. -/
def kpos (k : Str) (o : Int) : List Str → List Int
  | x :: y :: r => if join x y = k then o :: kpos k (o + x.length) (y :: r) else kpos k (o + x.length) (y :: r)
  | _ => []

/-- The tokens have no spaces. -/
abbrev NoSpace (s : List Str) : Prop := ∀ x ∈ s, NS x

theorem kpos_join {a b : Str} (ha : NS a) : ∀ {s : List Str} (_ : NoSpace s) (o : Int), kpos (join a b) o s = ppos a b o s := by
  intro s
  induction s with
  | nil => intros; rfl
  | cons x r ih =>
    intro hs o
    cases r with
    | nil => rfl
    | cons y r =>
      have := ih (fun z hz => hs z (by simp [hz])) (o + x.length)
      have hx : NS x := hs x (by simp)
      simp only [kpos, ppos, this, join_inj hx ha]

theorem kpos_other {k : Str} : ∀ {s : List Str} (_ : NoSpace s) (o : Int), (∀ x y, NS x → NS y → k ≠ join x y) → kpos k o s = [] := by
  intro s
  induction s with
  | nil => intros; rfl
  | cons x r ih =>
    intro hs o h
    cases r with
    | nil => rfl
    | cons y r =>
      have := ih (fun z hz => hs z (by simp [hz])) (o + x.length) h
      have e : ¬ join x y = k := fun e => h x y (hs x (by simp)) (hs y (by simp)) e.symm
      simp only [kpos, this, e, if_false]

end Verif.Wild
