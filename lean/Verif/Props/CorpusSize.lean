import Verif.Model.CorpusSize
import Verif.Props.Files
import Verif.Props.DirNames
import Verif.Spec.Exec
/-!
# Properties of the stored size of a corpus (C54)
-/
namespace Verif.Props
open Verif Spec

/-! ## Lemmas -/

theorem sizeSet_procs (s : SizeWorld) (w v : Nat) (p : SizeSt) : (s.set w p).procs v = if v = w then p else s.procs v := rfl

theorem sizeSet_file (s : SizeWorld) (w : Nat) (p : SizeSt) : (s.set w p).file = s.file := rfl

/-- What the processes can find and return. -/
structure SizeInv (n : Nat) (s : SizeWorld) : Prop where
  file : s.file = none ∨ s.file = some [] ∨ s.file = some (natStr n)
  done : ∀ w r, s.procs w = .done r → r = .ok (n : Int) ∨ r = .error .valueError

theorem sizeInv_step {texts : Nat → List Str} {n : Nat} (ht : ∀ w, calcCorpusSize (texts w) = n) {solo safe : Bool} {s s' : SizeWorld}
    (hi : SizeInv n s) (h : SizeStep texts solo safe s s') : SizeInv n s' := by
  obtain ⟨i1, i2⟩ := hi
  have other : ∀ w p, (∀ r, p ≠ .done r) → ∀ v r, (s.set w p).procs v = .done r → r = .ok (n : Int) ∨ r = .error .valueError := by
    intro w p hp v r hv
    rw [sizeSet_procs] at hv
    split at hv
    · exact absurd hv (hp r)
    · exact i2 v r hv
  cases h with
  | call w h hs => exact ⟨i1, other _ _ (by simp)⟩
  | missing h hf => exact ⟨i1, other _ _ (by simp)⟩
  | found h hf => exact ⟨i1, other _ _ (by simp)⟩
  | create h => exact ⟨.inr (.inl rfl), other _ .writing (by simp)⟩
  | @write w order h ho => exact ⟨.inr (.inr (by rw [C35_corpus_size_order _ _ ho, ht])), other _ .reading (by simp)⟩
  | @read w t h hf =>
    refine ⟨i1, fun v r hv => ?_⟩
    rw [sizeSet_procs] at hv
    split at hv
    · obtain rfl := SizeSt.done.inj hv
      rcases i1 with e | e | e
      · rw [e] at hf; cases hf
      · rw [e] at hf; obtain rfl := Option.some.inj hf; exact .inr rfl
      · rw [e] at hf; obtain rfl := Option.some.inj hf; exact .inl (pyInt_natStr n)
    · exact i2 v r hv
  | crash h => exact ⟨i1, other _ _ (by simp)⟩

theorem star_inv {α : Type} {r : α → α → Prop} {p : α → Prop} (hs : ∀ a b, p a → r a b → p b) {a b : α} (ha : p a) (h : Star r a b) : p b := by
  induction h with
  | refl => exact ha
  | tail _ h ih => exact hs _ _ ih h

/-- Only one process is active, and the file is complete unless it is about to write it. -/
structure SoloInv (n : Nat) (s : SizeWorld) : Prop where
  file : s.file = none ∨ s.file = some (natStr n) ∨ (s.file = some [] ∧ ∃ w, s.procs w = .writing)
  solo : ∀ v w, ¬ (s.procs v).quiet → ¬ (s.procs w).quiet → v = w
  done : ∀ w r, s.procs w = .done r → r = .ok (n : Int)

theorem soloInv_step {texts : Nat → List Str} {n : Nat} (ht : ∀ w, calcCorpusSize (texts w) = n) {s s' : SizeWorld}
    (hi : SoloInv n s) (h : SizeStep texts true true s s') : SoloInv n s' := by
  obtain ⟨i1, i2, i3⟩ := hi
  have other : ∀ w p, (∀ r, p ≠ .done r) → ∀ v r, (s.set w p).procs v = .done r → r = .ok (n : Int) := by
    intro w p hp v r hv
    rw [sizeSet_procs] at hv
    split at hv
    · exact absurd hv (hp r)
    · exact i3 v r hv
  -- a process that was active stays the only one
  have same : ∀ w p, ¬ (s.procs w).quiet → ∀ v x, ¬ ((s.set w p).procs v).quiet → ¬ ((s.set w p).procs x).quiet → v = x := by
    intro w p hw v x hv hx
    rw [sizeSet_procs] at hv hx
    have h1 : v = w := by
      split at hv
      · assumption
      · exact i2 v w hv hw
    have h2 : x = w := by
      split at hx
      · assumption
      · exact i2 x w hx hw
    rw [h1, h2]
  -- nobody is writing while another process is active
  have file : ∀ w, ¬ (s.procs w).quiet → s.procs w ≠ .writing → s.file = none ∨ s.file = some (natStr n) := by
    intro w hw hn
    rcases i1 with h | h | ⟨_, x, hx⟩
    · exact .inl h
    · exact .inr h
    · have := i2 w x hw (by rw [hx]; exact id)
      exact absurd (this ▸ hx) hn
  have keep : s.file = none ∨ s.file = some (natStr n) → ∀ s' : SizeWorld, s'.file = s.file →
      s'.file = none ∨ s'.file = some (natStr n) ∨ (s'.file = some [] ∧ ∃ w, s'.procs w = .writing) := by
    intro h s' e
    rw [e]
    exact h.elim .inl fun h => .inr (.inl h)
  cases h with
  | call w h hs =>
    refine ⟨keep ?_ _ (sizeSet_file _ _ _), ?_, other _ _ (by simp)⟩
    · rcases i1 with h' | h' | ⟨_, x, hx⟩
      · exact .inl h'
      · exact .inr h'
      · have hq : (s.procs x).quiet := by
          by_cases e : x = w
          · exact e ▸ h
          · exact hs rfl x e
        rw [hx] at hq
        exact hq.elim
    · intro v x hv hx
      rw [sizeSet_procs] at hv hx
      have one : ∀ y, ¬ (if y = w then SizeSt.start else s.procs y).quiet → y = w := by
        intro y hy
        split at hy
        · assumption
        · next e => exact absurd (hs rfl y e) hy
      rw [one v hv, one x hx]
  | @missing w h hf =>
    have hq : ¬ (s.procs w).quiet := by rw [h]; exact id
    exact ⟨keep (.inl hf) _ (sizeSet_file _ _ _), same w _ hq, other _ _ (by simp)⟩
  | @found w h hf =>
    have hq : ¬ (s.procs w).quiet := by rw [h]; exact id
    exact ⟨keep (file w hq (by rw [h]; simp)) _ (sizeSet_file _ _ _), same w _ hq, other _ _ (by simp)⟩
  | @create w h =>
    have hq : ¬ (s.procs w).quiet := by rw [h]; exact id
    exact ⟨.inr (.inr ⟨rfl, w, by show (if w = w then _ else _) = _; rw [if_pos rfl]⟩), same w .writing hq, other _ .writing (by simp)⟩
  | @write w order h ho =>
    have hq : ¬ (s.procs w).quiet := by rw [h]; exact id
    exact ⟨.inr (.inl (by rw [C35_corpus_size_order _ _ ho, ht])), same w .reading hq, other _ .reading (by simp)⟩
  | @read w t h hf =>
    have hq : ¬ (s.procs w).quiet := by rw [h]; exact id
    have hfile := file w hq (by rw [h]; simp)
    refine ⟨keep hfile _ (sizeSet_file _ _ _), same w _ hq, fun v r hv => ?_⟩
    rw [sizeSet_procs] at hv
    split at hv
    · obtain rfl := SizeSt.done.inj hv
      rcases hfile with e | e
      · rw [e] at hf; cases hf
      · rw [e] at hf; obtain rfl := Option.some.inj hf; exact pyInt_natStr n
    · exact i3 v r hv
  | @crash w h =>
    refine ⟨?_, ?_, other _ _ (by simp)⟩
    · rcases i1 with h' | h' | ⟨h', x, hx⟩
      · exact .inl h'
      · exact .inr (.inl h')
      · refine .inr (.inr ⟨h', x, ?_⟩)
        rw [sizeSet_procs, if_neg, hx]
        rintro rfl
        exact h rfl hx
    · intro v x hv hx
      rw [sizeSet_procs] at hv hx
      have one : ∀ y, ¬ (if y = w then SizeSt.idle else s.procs y).quiet → ¬ (s.procs y).quiet := by
        intro y hy
        split at hy
        · exact absurd trivial hy
        · exact hy
      exact i2 v x (one v hv) (one x hx)

/-! ## C54 -/

/-- **C54, partial** If calls do not overlap and no process is killed between opening the file and writing the number, every call
returns the number of subtokens of the corpus. -/
theorem C54_size_partial (corpus : Nat → List (List Str)) (n : Nat) (hn : ∀ w, (corpus w).flatten.length = n)
    (hne : ∀ w, ∀ l ∈ corpus w, l ≠ []) (hsp : ∀ w, ∀ l ∈ corpus w, ∀ t ∈ l, ' ' ∉ t) {s : SizeWorld}
    (h : Star (SizeStep (fun w => (corpus w).map prepText) true true) SizeWorld.init s) (w : Nat) (r : Except PyErr Int)
    (hr : s.procs w = .done r) : r = .ok (n : Int) := by
  have ht : ∀ w, calcCorpusSize ((corpus w).map prepText) = n := fun w => by rw [C35_corpus_size _ (hne w) (hsp w), hn w]
  refine (star_inv (p := SoloInv n) (fun a b ha hab => soloInv_step ht ha hab) ?_ h).done w r hr
  exact ⟨.inl rfl, fun v w hv => absurd trivial hv, fun w r hr => by cases hr⟩

/-- **C54** Whatever overlaps and crashes there are, a call never returns a wrong number: it returns the number of subtokens or raises
`ValueError`. -/
theorem C54_never_wrong (corpus : Nat → List (List Str)) (n : Nat) (hn : ∀ w, (corpus w).flatten.length = n)
    (hne : ∀ w, ∀ l ∈ corpus w, l ≠ []) (hsp : ∀ w, ∀ l ∈ corpus w, ∀ t ∈ l, ' ' ∉ t) (solo safe : Bool) {s : SizeWorld}
    (h : Star (SizeStep (fun w => (corpus w).map prepText) solo safe) SizeWorld.init s) (w : Nat) (r : Except PyErr Int)
    (hr : s.procs w = .done r) : r = .ok (n : Int) ∨ r = .error .valueError := by
  have ht : ∀ w, calcCorpusSize ((corpus w).map prepText) = n := fun w => by rw [C35_corpus_size _ (hne w) (hsp w), hn w]
  refine (star_inv (p := SizeInv n) (fun a b ha hab => sizeInv_step ht ha hab) ?_ h).done w r hr
  exact ⟨.inl rfl, fun w r hr => by cases hr⟩

/-- A corpus of one file with two subtokens. -/
def twoTokens : Nat → List (List Str) := fun _ => [["a".toList, "b".toList]]

/-- A process that calls the function, up to opening the file. -/
theorem size_opened (solo safe : Bool) (texts : Nat → List Str) :
    Star (SizeStep texts solo safe) SizeWorld.init ⟨some [], fun v => if v = 0 then .writing else .idle⟩ := by
  have e : ∀ p q : SizeSt, (fun v => if v = 0 then p else (fun v => if v = 0 then q else SizeSt.idle) v) = fun v => if v = 0 then p else .idle := by
    intro p q; funext v; by_cases h : v = 0 <;> simp [h]
  have h1 : SizeStep texts solo safe SizeWorld.init ⟨none, fun v => if v = 0 then .start else .idle⟩ :=
    .call (s := SizeWorld.init) 0 trivial (fun _ _ _ => trivial)
  have h2 : SizeStep texts solo safe ⟨none, fun v => if v = 0 then .start else .idle⟩ ⟨none, fun v => if v = 0 then .counting else .idle⟩ := by
    have := SizeStep.missing (texts := texts) (solo := solo) (safe := safe) (s := ⟨none, fun v => if v = 0 then .start else .idle⟩) (w := 0) rfl rfl
    simpa [SizeWorld.set, e] using this
  have h3 : SizeStep texts solo safe ⟨none, fun v => if v = 0 then .counting else .idle⟩ ⟨some [], fun v => if v = 0 then .writing else .idle⟩ := by
    have := SizeStep.create (texts := texts) (solo := solo) (safe := safe) (s := ⟨none, fun v => if v = 0 then .counting else .idle⟩) (w := 0) rfl
    simpa [SizeWorld.set, e] using this
  exact ((Star.refl.tail h1).tail h2).tail h3

/-- A call that comes to its end. -/
example : ∃ s, Star (SizeStep (fun w => (twoTokens w).map prepText) true true) SizeWorld.init s ∧ s.procs 0 = .done (.ok 2) := by
  refine ⟨_, ((size_opened true true _).tail (.write (w := 0) (order := (twoTokens 0).map prepText) rfl (List.Perm.refl _))).tail
    (.read (w := 0) (t := "2".toList) rfl ?_), ?_⟩
  · decide +kernel
  · exact congrArg SizeSt.done (show pyInt "2".toList = .ok 2 by decide +kernel)

example : (∀ w, (twoTokens w).flatten.length = 2) ∧ (∀ w, ∀ l ∈ twoTokens w, l ≠ []) ∧ ∀ w, ∀ l ∈ twoTokens w, ∀ t ∈ l, ' ' ∉ t := by
  refine ⟨fun _ => rfl, fun _ => ?_, fun _ => ?_⟩ <;> (unfold twoTokens; decide)

/-- An empty file stays. -/
theorem C54_stuck (texts : Nat → List Str) (solo safe : Bool) {s : SizeWorld} (h : Star (SizeStep texts solo safe) ⟨some [], fun _ => .idle⟩ s) :
    s.file = some [] ∧ ∀ w r, s.procs w = .done r → r = .error .valueError := by
  have key : s.file = some [] ∧ (∀ w, s.procs w ≠ .counting ∧ s.procs w ≠ .writing) ∧ ∀ w r, s.procs w = .done r → r = .error .valueError := by
    refine star_inv (p := fun s : SizeWorld => s.file = some [] ∧ (∀ w, s.procs w ≠ .counting ∧ s.procs w ≠ .writing) ∧
      ∀ w r, s.procs w = .done r → r = .error .valueError) ?_ ⟨rfl, fun _ => by simp, fun _ _ h => by cases h⟩ h
    rintro a b ⟨h1, h2, h3⟩ hs
    have upd : ∀ w p, p ≠ .counting ∧ p ≠ .writing → (∀ r, p = .done r → r = .error .valueError) → (a.set w p).file = some [] ∧
        (∀ v, (a.set w p).procs v ≠ .counting ∧ (a.set w p).procs v ≠ .writing) ∧
        ∀ v r, (a.set w p).procs v = .done r → r = .error .valueError := by
      intro w p hp hr
      refine ⟨h1, fun v => ?_, fun v r hv => ?_⟩
      · rw [sizeSet_procs]; split
        · exact hp
        · exact h2 v
      · rw [sizeSet_procs] at hv; split at hv
        · exact hr r hv
        · exact h3 v r hv
    cases hs with
    | call w h hs => exact upd _ _ (by simp) (by simp)
    | missing h hf => rw [h1] at hf; cases hf
    | found h hf => exact upd _ _ (by simp) (by simp)
    | create h => exact absurd h (h2 _).1
    | write h ho => exact absurd h (h2 _).2
    | read h hf =>
      rw [h1] at hf
      obtain rfl := Option.some.inj hf
      exact upd _ _ (by simp) (fun r hr => (SizeSt.done.inj hr).symm)
    | crash h => exact upd _ _ (by simp) (by simp)
  exact ⟨key.1, key.2.2⟩

/-- **C54, the missing part is false** If a process is killed after opening the file, no later call ever returns: all of them raise
`ValueError`. -/
theorem C54_crash_violated (texts : Nat → List Str) :
    Star (SizeStep texts true false) SizeWorld.init ⟨some [], fun _ => .idle⟩ ∧
    ∀ s, Star (SizeStep texts true false) ⟨some [], fun _ => .idle⟩ s → ∀ w r, s.procs w = .done r → r = .error .valueError := by
  refine ⟨?_, fun s h => (C54_stuck texts true false h).2⟩
  have := (size_opened true false texts).tail (.crash (w := 0) (by simp))
  have e : (SizeWorld.set ⟨some [], fun v => if v = 0 then .writing else .idle⟩ 0 .idle) = ⟨some [], fun _ => .idle⟩ := by
    unfold SizeWorld.set
    congr 1
    funext v
    by_cases h : v = 0 <;> simp [h]
  exact e ▸ this

/-- **C54, the missing part is false** A call can fail, without any crash, because another process has just created the file. -/
theorem C54_race_violated (texts : Nat → List Str) :
    ∃ s, Star (SizeStep texts false true) SizeWorld.init s ∧ s.procs 1 = .done (.error .valueError) :=
  ⟨_, (((size_opened false true texts).tail (.call 1 trivial (by simp))).tail (.found (w := 1) rfl (by simp [SizeWorld.set]))).tail
    (.read (w := 1) (t := []) rfl rfl), rfl⟩

/-- **C54** The size of one dataset is stored under different names for different configurations, merges and kinds of output
directory. -/
theorem C54_name (pre pre' dn : Str) {c c' : PrepConfig} (h : c.Valid) (h' : c'.Valid) (cu cu' : Option (Str × Nat)) (ov ov' : Bool)
    (hs : '/' ∉ prepDirName dn c cu ov) (hs' : '/' ∉ prepDirName dn c' cu' ov')
    (he : sizeFileName pre (prepDirName dn c cu ov) = sizeFileName pre' (prepDirName dn c' cu' ov')) : c = c' ∧ cu = cu' ∧ ov = ov' := by
  have key : ∀ p s : Str, '/' ∉ s → sizeFileName p s = s := by
    intro p s hs
    unfold sizeFileName basename
    rw [List.reverse_append, List.reverse_cons, List.append_assoc, List.takeWhile_append_of_pos]
    · simp
    · intro c hc
      have : c ≠ '/' := by rintro rfl; exact hs (List.mem_reverse.mp hc)
      simpa using this
  rw [key _ _ hs, key _ _ hs'] at he
  exact C42_same_dataset dn h h' cu cu' ov ov' he

/-- **C54, the missing part is false** Datasets with the same name and time in different places share the file, so the second one gets
the size of the first one. -/
theorem C54_shared_violated :
    (∀ pre ts exts c cu ov, sizeFileName pre (prepDirName (datasetDirName "/a/p".toList ts exts) c cu ov) =
      sizeFileName pre (prepDirName (datasetDirName "/b/p".toList ts exts) c cu ov)) ∧
    ∃ corpus : Nat → List (List Str), (corpus 1).flatten.length = 3 ∧
      ∃ s, Star (SizeStep (fun w => (corpus w).map prepText) true true) SizeWorld.init s ∧ s.procs 1 = .done (.ok 2) := by
  refine ⟨fun _ _ _ _ _ _ => rfl, fun w => if w = 0 then [["a".toList, "b".toList]] else [["a".toList, "b".toList, "c".toList]], rfl, ?_⟩
  refine ⟨_, ((((((size_opened true true _).tail (.write (w := 0) (order := [prepText ["a".toList, "b".toList]]) rfl (List.Perm.refl _))).tail
    (.read (w := 0) (t := "2".toList) rfl ?_)).tail (.call 1 trivial ?_)).tail (.found (w := 1) rfl ?_)).tail
    (.read (w := 1) (t := "2".toList) rfl ?_)), ?_⟩
  · decide +kernel
  · intro _ v hv
    by_cases h : v = 0
    · subst h; exact trivial
    · simp [SizeWorld.set, h]; exact trivial
  · simp [SizeWorld.set]
  · decide +kernel
  · exact congrArg SizeSt.done (show pyInt "2".toList = .ok 2 by decide +kernel)

end Verif.Props
