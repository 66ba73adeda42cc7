import Verif.Spec.Occurs
import Verif.Proofs.BpeEncode
/-!
# Lemmas about merges whose text occurs in a word
-/
namespace Verif
open Spec

/-- Two lists of merges give the same rank to all pairs that stand side by side in a text. -/
def SameOn (m m' : MergeList) (t : Str) : Prop := ∀ a b : Str, (∃ u v, t = u ++ a ++ b ++ v) → m.priority? (a, b) = m'.priority? (a, b)

theorem SameOn.tail {m m' : MergeList} {a t : Str} (h : SameOn m m' (a ++ t)) : SameOn m m' t := by
  rintro x y ⟨u, v, rfl⟩
  exact h x y ⟨a ++ u, v, by simp⟩

theorem scanFrom_same {m m' : MergeList} : ∀ (l : List Str) (i : Nat) (st : ScanState), SameOn m m' l.flatten →
    scanFrom m i l st = scanFrom m' i l st
  | [], _, _, _ => rfl
  | [_], _, _, _ => rfl
  | a :: b :: r, i, st, h => by
    have e : scanStep m i a b st = scanStep m' i a b st := by
      unfold scanStep
      rw [h a b ⟨[], r.flatten, by simp⟩]
    rw [scanFrom, scanFrom, e]
    exact scanFrom_same (b :: r) (i + 1) _ (SameOn.tail (a := a) (by simpa using h))

theorem encodeLoop_same {m m' : MergeList} (fuel : Nat) (l : List Str) (h : SameOn m m' l.flatten) :
    encodeLoop m fuel l = encodeLoop m' fuel l := by
  induction fuel generalizing l with
  | zero => unfold encodeLoop; rw [scanFrom_same l 0 _ h]
  | succ n ih =>
    unfold encodeLoop
    rw [← scanFrom_same l 0 _ h]
    simp only [applyIndices_scan]
    have : encodeLoop m n (replacePrio m (minPrio m l sysMaxsize) l) = encodeLoop m' n (replacePrio m (minPrio m l sysMaxsize) l) :=
      ih _ (by rw [(replacePrio_coarsens _ _ _).flatten_eq]; exact h)
    simp only [bind, Except.bind, this]

theorem pySplit_flatten (s : Str) : (pySplit ' ' s).flatten = s.filter (· ≠ ' ') := by
  induction s with
  | nil => rfl
  | cons c s ih =>
    by_cases h : c = ' '
    · subst h
      rw [List.filter_cons_of_neg (by simp), ← ih]
      simp [pySplit]
    · obtain ⟨p, ps, hp⟩ : ∃ p ps, pySplit ' ' s = p :: ps := by
        cases hs : pySplit ' ' s with
        | nil => exact absurd hs (pySplit_ne_nil ' ' s)
        | cons p ps => exact ⟨p, ps, rfl⟩
      rw [pySplit_cons_ne h s p ps hp, List.filter_cons_of_pos (by simpa using h), ← ih, hp]
      rfl

theorem pyJoin_filter (l : List Str) : (pyJoin [' '] l).filter (· ≠ ' ') = l.flatten.filter (· ≠ ' ') := by
  induction l with
  | nil => rfl
  | cons a l ih =>
    cases l with
    | nil => simp [pyJoin]
    | cons b r =>
      rw [pyJoin, List.flatten_cons, List.filter_append, ih, List.filter_append, List.filter_append]
      simp

theorem units_searched (w : Str) : (unitsOf w).flatten.filter (· ≠ ' ') = searched w := by
  unfold unitsOf searched
  rw [List.flatten_append, List.filter_append]
  congr 1
  induction w with
  | nil => rfl
  | cons c w ih =>
    rw [List.map_cons, List.flatten_cons, List.filter_append, ih]
    by_cases h : c = ' '
    · subst h
      rw [List.filter_cons_of_neg (by simp)]
      rfl
    · rw [List.filter_cons_of_pos (by simpa using h), List.flatMap_cons]
      congr 1
      unfold unitOf
      by_cases g : c = '@'
      · subst g; rfl
      · have : c ≠ escChar := g
        rw [if_neg this, if_neg g, List.filter_cons_of_pos (by simpa using h)]
        rfl

theorem encodeWord_same {m m' : MergeList} (w : Str) (h : SameOn m m' (searched w)) :
    encodeWord (escape w true) m = encodeWord (escape w true) m' := by
  unfold encodeWord
  rw [toCharList_escape]
  have : ∀ n, encodeLoop m n (pySplit ' ' (pyJoin [' '] (unitsOf w))) = encodeLoop m' n (pySplit ' ' (pyJoin [' '] (unitsOf w))) :=
    fun n => encodeLoop_same n _ (by rw [pySplit_flatten, pyJoin_filter, units_searched]; exact h)
  simp only [bind, Except.bind, this]

end Verif
