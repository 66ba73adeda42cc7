import Verif.Proofs.ObjSize
/-!
# Properties of the memory taken by objects: C81
-/
namespace Verif.Props
open Verif Spec PyObj

/-- C81: if the function for the size of an object ends, its result is the sum of the sizes of all objects that can be reached, each of
them once, also if objects refer to each other in a circle or are shared. -/
theorem C81_size {h : Nat → PyObj} {limit x n : Nat} (hs : getsize h limit x = .ok n) : IsMemoryOf h x n :=
  getsize_memory hs

/-- C81: so the size is the same whatever the limit for recursion is. -/
theorem C81_same {h : Nat → PyObj} {x n m l1 l2 : Nat} (h1 : getsize h l1 x = .ok n) (h2 : getsize h l2 x = .ok m) : n = m := by
  obtain ⟨a, ha, ha', rfl⟩ := C81_size h1
  obtain ⟨b, hb, hb', rfl⟩ := C81_size h2
  exact (((List.perm_ext_iff_of_nodup ha hb).mpr fun y => (ha' y).trans (hb' y).symm).map _).sum_nat

/-- C81: the function fails only with an error for too deep recursion, and then there are objects, as many as the limit for recursion, that
are different and refer to each other in turn. -/
theorem C81_fails {h : Nat → PyObj} {limit x : Nat} {e : PyErr} (hs : getsize h limit x = .error e) :
    e = .runtimeError ∧ ∃ (p : List Nat) (y : Nat), p.length = limit ∧ p.Nodup ∧ (p ++ [y]).head? = some x ∧ Linked h (p ++ [y]) := by
  obtain ⟨he, p, hp⟩ := getsize_fails hs
  have hne : p ≠ [] := by rintro rfl; cases hp.head
  refine ⟨he, p.dropLast, p.getLast hne, by rw [List.length_dropLast, hp.length]; rfl, hp.nodup, ?_, ?_⟩
  · rw [List.dropLast_concat_getLast hne]; exact hp.head
  · rw [List.dropLast_concat_getLast hne]; exact hp.chain

/-- C81: the function ends if fewer objects can be reached than the limit for recursion. -/
theorem C81_ends {h : Nat → PyObj} {limit x : Nat} {objs : List Nat} (ho : ∀ y, Star (Refers h) x y → y ∈ objs)
    (hl : objs.length < limit) : ∃ n, getsize h limit x = .ok n := by
  cases hs : getsize h limit x with
  | ok n => exact ⟨n, rfl⟩
  | error e =>
    obtain ⟨-, p, y, h1, h2, h3, h4⟩ := C81_fails hs
    have hsub : ∀ z ∈ p, z ∈ objs := fun z hz => ho z (chain_reach h3 h4 z (List.mem_append.mpr (.inl hz)))
    have := h2.length_le_of_subset hsub
    omega

/-- A list with itself and an object with an attribute in a dictionary, and a slot, both of which are the same string. -/
def someObjs : Nat → PyObj
  | 0 => ⟨100, .members [0, 1, 1], none, []⟩
  | 1 => ⟨10, .other, some 2, [some 4, none]⟩
  | 2 => ⟨200, .items [(3, 4)], none, []⟩
  | 3 => ⟨5, .nothing, none, []⟩
  | 4 => ⟨7, .nothing, none, []⟩
  | _ => ⟨0, .nothing, none, []⟩

example : getsize someObjs 1000 0 = .ok 322 := by rfl
example : getsize someObjs 2 0 = .error .runtimeError := by rfl

/-- Lists inside each other. -/
def nested (n x : Nat) : PyObj := if x < n then ⟨1, .members [x + 1], none, []⟩ else ⟨1, .nothing, none, []⟩

theorem nested_fails {n d x : Nat} {seen : List Nat} (hd : x + d ≤ n) (hs : ∀ y ∈ seen, y < x) :
    inner (nested n) d x seen = .error .runtimeError := by
  induction d generalizing x seen with
  | zero => rfl
  | succ d ih =>
    unfold inner
    rw [if_neg fun hx => Nat.lt_irrefl x (hs x hx)]
    have hx : nested n x = ⟨1, .members [x + 1], none, []⟩ := if_pos (by omega)
    have : sizeInside (inner (nested n) d) (nested n x) (x :: seen) = .error .runtimeError := by
      rw [hx]
      show (inner (nested n) d (x + 1) (x :: seen) >>= _) = _
      rw [ih (by omega) fun y hy => by
        rcases List.mem_cons.mp hy with rfl | hy
        · omega
        · have := hs y hy; omega]
      rfl
    rw [this]
    rfl

/-- C81: the condition cannot be left out: whatever the limit for recursion is, there are lists inside each other whose
size cannot be calculated, although there are only finitely many. -/
theorem C81_deep (limit : Nat) :
    ∃ h x, getsize h limit x = .error .runtimeError ∧ IsMemoryOf h x (limit + 1) := by
  refine ⟨nested limit, 0, ?_, ?_⟩
  · unfold getsize
    rw [nested_fails (by omega) (by simp)]
    rfl
  · refine ⟨List.range (limit + 1), List.nodup_range, fun y => ⟨fun hy => ?_, fun hy => ?_⟩, ?_⟩
    · rw [List.mem_range] at hy
      induction y with
      | zero => exact .refl
      | succ y ih =>
        refine .tail (ih (by omega)) (.member (l := [y + 1]) ?_ (by simp))
        unfold nested
        rw [if_pos (by omega)]
    · rw [List.mem_range]
      induction hy with
      | refl => omega
      | @tail b c _ hr ih =>
        have hb : b < limit ∨ nested limit b = ⟨1, .nothing, none, []⟩ := by
          by_cases hb : b < limit
          · exact .inl hb
          · exact .inr (if_neg hb)
        rcases hb with hb | hb
        · have hx : nested limit b = ⟨1, .members [b + 1], none, []⟩ := if_pos hb
          rw [← mem_refs, hx] at hr
          have : c = b + 1 := by simpa [refs, insideOf] using hr
          omega
        · rw [← mem_refs, hb] at hr
          simp [refs, insideOf] at hr
    · have : ∀ y, (nested limit y).own = 1 := by intro y; unfold nested; split <;> rfl
      rw [List.map_congr_left fun y _ => this y]
      generalize limit + 1 = k
      induction k with
      | zero => rfl
      | succ k ih => rw [List.range_succ, List.map_append, List.sum_append, ← ih]; rfl

end Verif.Props
