import Verif.Proofs.WildStats
import Verif.Props.WildBpe
/-!
# C83: performance statistics of byte-pair encoding of a whole text
-/
namespace Verif.Props
open Verif Verif.Wild Verif.Spec

/-- **C83** With statistics after every `every`-th merge, the merges of a text without spaces are those of byte-pair encoding, and what
is delivered with them describes the text after these merges: the number of different pairs (entries of the index) and at least
as many entries of the queue.  The run ends early only if more than 3072 megabytes have been measured. -/
theorem C83_report {o : Order Entry} (ho : AnyOrder o) (hh : IsHeap o) (mem : Measure) {every : Int} (he : 0 < every) {text : Str}
    (hne : text ≠ []) (hs : ' ' ∉ text) (n : Nat) :
    ∃ e l, runStats o mem every (text.map fun c => [c]) n = .ok l ∧ Describes e 0 (text.map fun c => [c]) ∧
      Reported every n 0 (text.map fun c => [c]) [e] l :=
  runStats_spec ho hh mem he (single_of_noSpace hs) (by simpa using hne) n

/-- **C83** Taking statistics never changes the merges: whatever the tokens are, if the run without statistics succeeds, so does the run
with them, and it delivers the same merges, as long as not too much memory is used, and otherwise the first ones of them. -/
theorem C83_same {o : Order Entry} (mem : Measure) {every : Int} (he : 0 < every) {chars : List Str} {n : Nat} {l : List (Str × Int)}
    (h : run o chars n = .ok l) :
    ∃ l', runStats o mem every chars n = .ok l' ∧ (l'.map fun x => (x.1, x.2.1)) <+: l ∧
      ((∀ loc nb q, WithinLimit (mem loc nb q)) → (l'.map fun x => (x.1, x.2.1)) = l) := by
  unfold run at h
  unfold runStats
  cases h1 : buildIndices chars with
  | error e => simp [h1, bind, Except.bind] at h
  | ok idx =>
    simp only [h1, bind, Except.bind] at h ⊢
    cases h2 : idx.1.mapM queueEntry with
    | error e => simp [h2] at h
    | ok es =>
      simp only [h2] at h ⊢
      rw [if_pos (show every ≠ 0 by omega)]
      obtain ⟨l', e, g1, g2⟩ := runStatsLoop_on (mem := mem) he n 0 (st := [statEntry mem 0 idx.1 idx.2 (Queue.init es)]) (last := none)
        (.inl rfl) h
      refine ⟨l', e, g1, fun hl => g2 nofun fun loc nb q => ?_⟩
      cases ht : tooMuch (mem loc nb q) with
      | false => rfl
      | true => exact absurd (hl loc nb q) ((tooMuch_iff _).mp ht)

/-- **C83** Without statistics (0) nothing is delivered with the merges; with a negative number it is always the same list, which has only
the entry for the beginning. -/
theorem C83_off (o : Order Entry) (mem : Measure) {every : Int} (he : every ≤ 0) (chars : List Str) (n : Nat) :
    (every = 0 → runStats o mem every chars n = (run o chars n).map fun l => l.map fun x => (x.1, x.2, none)) ∧
    (every < 0 → ∀ l, run o chars n = .ok l → ∃ e, e.mergesDone = 0 ∧
      runStats o mem every chars n = .ok (l.map fun x => (x.1, x.2, some [e]))) := by
  constructor
  · intro h0
    unfold run runStats
    cases h1 : buildIndices chars with
    | error e => rfl
    | ok idx =>
      simp only [bind, Except.bind]
      cases h2 : idx.1.mapM queueEntry with
      | error e => rfl
      | ok es =>
        simp only
        rw [if_neg (by omega), runStatsLoop_off he]
  · intro h0 l h
    unfold run at h
    unfold runStats
    cases h1 : buildIndices chars with
    | error e => simp [h1, bind, Except.bind] at h
    | ok idx =>
      simp only [h1, bind, Except.bind] at h ⊢
      cases h2 : idx.1.mapM queueEntry with
      | error e => simp [h2] at h
      | ok es =>
        simp only [h2] at h ⊢
        refine ⟨statEntry mem 0 idx.1 idx.2 (Queue.init es), rfl, ?_⟩
        rw [if_pos (by omega), runStatsLoop_off he, h]
        rfl

/-- The entry added after the first merge gives one merge, the one added after the second merge gives two. -/
def CountsRight (l : List (Str × Int × Option (List StatEntry))) : Prop :=
  ∀ k x st e, l[k]? = some x → x.2.2 = some st → st.getLast? = some e → k ≤ 1 → e.mergesDone = k + 1

/-- **C83** Entries give one merge less than has been done: after the first merge the statistics still say that there were none. -/
theorem C83_count_violated : ∃ l, runStats wildOrder (fun _ _ _ => ⟨0, 0, 0⟩) 1 ("abab".toList.map fun c => [c]) 10 = .ok l ∧ ¬ CountsRight l := by
  have e : runStats wildOrder (fun _ _ _ => ⟨0, 0, 0⟩) 1 ("abab".toList.map fun c => [c]) 10 =
      .ok [("a b".toList, 2, some [⟨0, 2, 2, ⟨0, 0, 0⟩⟩, ⟨0, 2, 1, ⟨0, 0, 0⟩⟩]),
        ("ab ab".toList, 1, some [⟨0, 2, 2, ⟨0, 0, 0⟩⟩, ⟨0, 2, 1, ⟨0, 0, 0⟩⟩, ⟨1, 1, 0, ⟨0, 0, 0⟩⟩])] := by decide +kernel
  refine ⟨_, e, fun h => ?_⟩
  have := h 0 _ _ _ rfl rfl rfl (by decide)
  exact absurd this (by decide)

/-! ## Examples -/

/-- Non-vacuity: the statistics of a text. -/
example := C83_report wildOrder_any wildOrder_heap (fun loc _ _ => ⟨loc.length, 0, 0⟩) (every := 3) (by decide) (text := "abcdbc".toList)
  (by decide) (by decide) 10

/-- Non-vacuity: merges with and without statistics, for a text with spaces too. -/
example := C83_same (o := wildOrder) (fun loc _ _ => ⟨loc.length, 0, 0⟩) (every := 3) (by decide)
  (chars := [['a'], [' '], ['b']]) (n := 0) (l := []) (by decide +kernel)

/-- A run that ends because of its memory. -/
example : (runStats wildOrder (fun _ _ _ => ⟨3072000001, 0, 0⟩) 2 ("abcdbc".toList.map fun c => [c]) 10).map List.length = .ok 1 := by
  decide +kernel

end Verif.Props
