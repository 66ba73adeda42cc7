import Verif.Proofs.Stages
import Verif.Proofs.WorkersProgress
/-!
# Properties of the stages of the pipeline (C55)
-/
namespace Verif.Props
open Verif Stage

/-- **C55, partial** Whenever a stage comes to its end, the directory has exactly the right results: after any number of calls that were
killed at any point, and after any number of changes by users that can be noticed. -/
theorem C55_fresh_partial (results : List (Bytes × Str)) (hn : (results.map (·.1)).Nodup) (marks : Bool) (now : Nat) {w : World}
    (h : Spec.Star (Careful results marks) (World.init now) w) (hd : w.pc = .done) : Complete results w := by
  have hi : Stage.Inv results w := by
    clear hd
    induction h with
    | refl => exact .inl ⟨rfl, List.nodup_nil, fun f hf => by cases hf⟩
    | tail _ hs ih =>
      rcases hs with hs | ⟨hs, hc⟩
      · exact inv_call hn ih hs
      · exact inv_user ih hs hc
  unfold Stage.Inv at hi
  rw [hd] at hi
  exact hi.1

/-- **C55** Calls never lose a file: what was in the directory, also changes by users, is in the directory or in the archive
afterwards. -/
theorem C55_nothing_lost (results : List (Bytes × Str)) (marks : Bool) {u v : World} (h : Spec.Star (CallStep results marks) u v) (f : RFile)
    (hf : Kept u f) : Kept v f := by
  induction h with
  | refl => exact hf
  | tail _ hs ih =>
    clear hf
    cases hs with
    | @create dir m arch now =>
      rcases ih with ih | ih
      · cases dir with
        | none => cases ih
        | some d => exact .inl ih
      · exact .inr ih
    | @archive d m t arch now ht hb =>
      refine .inr ?_
      rcases ih with ih | ⟨e, he, hfe⟩
      · exact ⟨(t, d), by simp [putArchived], ih⟩
      · refine ⟨e, ?_, hfe⟩
        unfold putArchived
        refine List.mem_append_left _ (List.mem_filter.mpr ⟨he, ?_⟩)
        have : e.1 ≠ t := by
          rintro rfl
          exact hb ⟨e.2, he, by intro h0; rw [h0] at hfe; cases hfe⟩
        simpa using this
    | @write dir m arch now a b r x y hx hr =>
      rcases ih with ih | ih
      · refine .inl ?_
        have ih : f ∈ filesOf dir := ih
        rw [hx] at ih
        show f ∈ addFile x y _
        unfold addFile
        rcases List.mem_append.mp ih with h | h
        · exact List.mem_append_left _ h
        · exact List.mem_append_right _ (List.mem_cons_of_mem _ h)
      · exact .inr ih
    | _ => exact ih

/-- `run` can always be finished. -/
theorem run_finishes (results : List (Bytes × Str)) (marks : Bool) (m : Option (Option Nat)) (arch : List (Nat × RDir)) (now : Nat) :
    ∀ (p : List (Bytes × Str)) (dir : Option RDir), dir ≠ none ∨ p ≠ [] →
      ∃ d, Spec.Star (CallStep results marks) ⟨dir, m, arch, now, .run p⟩ ⟨some d, m, arch, now, .run []⟩
  | [], some d, _ => ⟨d, .refl⟩
  | [], none, h => by simp at h
  | r :: p, dir, _ => by
    by_cases h : r.1 ∈ (filesOf dir).map (·.name)
    · cases dir with
      | none => cases h
      | some d =>
        obtain ⟨d', h'⟩ := run_finishes results marks m arch now p (some d) (.inl (by simp))
        exact ⟨d', Pool.star_trans (.tail .refl (.skip (a := []) h)) h'⟩
    · obtain ⟨d', h'⟩ := run_finishes results marks m arch now p (some ⟨now, addFile [] (filesOf dir) ⟨r.1, r.2, now⟩⟩) (.inl (by simp))
      exact ⟨d', Pool.star_trans (.tail .refl (.write (a := []) (x := []) rfl h)) h'⟩

/-- **C55, partial** Whatever the state of the disk is, a call can be made that comes to its end, if the dataset is not empty and the
archive has no directory with the time of the results. -/
theorem C55_finishes_partial (results : List (Bytes × Str)) (hr : results ≠ []) (marks : Bool) (w : World) (hp : w.pc = .off)
    (hb : ∀ d t, w.dir = some d → timestamp d = .ok t → ¬ blocked w.archived t) :
    ∃ v, Spec.Star (CallStep results marks) w v ∧ v.pc = .done := by
  obtain ⟨dir, m, arch, now, pc⟩ := w
  simp only at hp hb
  subst hp
  -- a directory that can be archived
  have h0 : ∃ d now', Spec.Star (CallStep results marks) ⟨dir, m, arch, now, .off⟩ ⟨some d, m, arch, now', .ready⟩ ∧
      ∀ t, timestamp d = .ok t → ¬ blocked arch t := by
    cases dir with
    | some d => exact ⟨d, now, .tail .refl .create, fun t => hb d t rfl⟩
    | none =>
      refine ⟨⟨now + (arch.map (·.1)).sum + 1, []⟩, now + (arch.map (·.1)).sum + 1, .tail (.tail .refl (.tick (by simp only; omega))) .create, ?_⟩
      intro t ht ⟨d, hd, _⟩
      obtain rfl := Except.ok.inj ht
      have : ∀ l : List (Nat × RDir), ∀ e ∈ l, e.1 ≤ (l.map (·.1)).sum := by
        intro l
        induction l with
        | nil => intro e he; cases he
        | cons a l ih =>
          intro e he
          simp only [List.map_cons, List.sum_cons]
          rcases List.mem_cons.mp he with rfl | he
          · omega
          · have := ih e he; omega
      have := this _ _ hd
      simp only at this
      omega
  obtain ⟨d, now', h0, hb'⟩ := h0
  -- the end of a call
  have fin : ∀ (dir : Option RDir) (m : Option (Option Nat)) (arch : List (Nat × RDir)),
      ∃ v, Spec.Star (CallStep results marks) ⟨dir, m, arch, now', .run results⟩ v ∧ v.pc = .done := by
    intro dir m arch
    obtain ⟨d', h1⟩ := run_finishes results marks m arch now' results dir (.inr hr)
    cases marks with
    | false => exact ⟨_, .tail h1 .finished, rfl⟩
    | true =>
      obtain ⟨t, ht⟩ := timestamp_ok d'
      exact ⟨_, .tail (.tail (.tail h1 .finished) .mark) (.stamp ht), rfl⟩
  cases m with
  | none =>
    obtain ⟨v, hv, hd⟩ := fin (some d) none arch
    exact ⟨v, Pool.star_trans (.tail h0 (.notReady (.inr rfl))) hv, hd⟩
  | some m =>
    obtain ⟨t, ht⟩ := timestamp_ok d
    have h1 := Spec.Star.tail h0 .isReady
    by_cases hm : m = some t
    · exact ⟨_, .tail h1 (.upToDate ht hm), rfl⟩
    · have h2 := Spec.Star.tail (.tail (.tail h1 (.outdated ht hm)) (.archive ht (hb' t ht))) .archiveMarker
      obtain ⟨v, hv, hd⟩ := fin none none (putArchived arch t d)
      exact ⟨v, Pool.star_trans h2 hv, hd⟩

/-! ## A history -/

/-- A result. -/
def oneResult : List (Bytes × Str) := [([97], ['x'])]

/-- After the first call, at the time 1. -/
def firstDone : World := ⟨some ⟨1, [⟨[97], ['x'], 1⟩]⟩, some (some 1), [], 1, .off⟩

theorem first_call : Spec.Star (CallStep oneResult true) (World.init 1) firstDone := by
  have h1 : Spec.Star (CallStep oneResult true) (World.init 1) ⟨some ⟨1, []⟩, none, [], 1, .ready⟩ := .tail .refl .create
  have h2 : Spec.Star (CallStep oneResult true) (World.init 1) ⟨some ⟨1, []⟩, none, [], 1, .run oneResult⟩ := .tail h1 (.notReady (.inr rfl))
  have h3 : Spec.Star (CallStep oneResult true) (World.init 1) ⟨some ⟨1, [⟨[97], ['x'], 1⟩]⟩, none, [], 1, .run []⟩ :=
    .tail h2 (.write (a := []) (b := []) (r := ([97], ['x'])) (x := []) (y := []) rfl (by decide))
  have h4 : Spec.Star (CallStep oneResult true) (World.init 1) ⟨some ⟨1, [⟨[97], ['x'], 1⟩]⟩, some none, [], 1, .stamp⟩ :=
    .tail (.tail h3 .finished) .mark
  have h5 : Spec.Star (CallStep oneResult true) (World.init 1) ⟨some ⟨1, [⟨[97], ['x'], 1⟩]⟩, some (some 1), [], 1, .done⟩ :=
    .tail h4 (.stamp (by decide))
  exact .tail h5 .exit

theorem careful_of {results : List (Bytes × Str)} {marks : Bool} {u v : World} (h : Spec.Star (CallStep results marks) u v) :
    Spec.Star (Careful results marks) u v := by
  induction h with
  | refl => exact .refl
  | tail _ h ih => exact .tail ih (.inl h)

theorem any_of {results : List (Bytes × Str)} {marks : Bool} {u v : World} (h : Spec.Star (CallStep results marks) u v) :
    Spec.Star (Any results marks) u v := by
  induction h with
  | refl => exact .refl
  | tail _ h ih => exact .tail ih (.inl h)

/-- A changed result, in the next second: it is archived and computed again. -/
example : ∃ w, Spec.Star (Careful oneResult true) (World.init 1) w ∧ w.pc = .done ∧ Complete oneResult w ∧
    w.archived = [(2, ⟨1, [⟨[97], ['y'], 2⟩]⟩)] := by
  have h0 : Spec.Star (Careful oneResult true) (World.init 1) { firstDone with now := 2 } := .tail (careful_of first_call) (.inl (.tick (by decide)))
  have h1 : Spec.Star (Careful oneResult true) (World.init 1) ⟨some ⟨1, [⟨[97], ['y'], 2⟩]⟩, some (some 1), [], 2, .off⟩ :=
    .tail h0 (.inr ⟨.edit (a := []) (b := []) (f := ⟨[97], ['x'], 1⟩) ['y'], rfl, by simp [firstDone], by simp [firstDone],
      .inr ⟨⟨_, List.mem_cons_self, rfl⟩, by decide⟩⟩)
  have h2 : Spec.Star (Careful oneResult true) (World.init 1) ⟨some ⟨1, [⟨[97], ['y'], 2⟩]⟩, some (some 1), [], 2, .archive⟩ :=
    .tail (.tail (.tail h1 (.inl .create)) (.inl .isReady)) (.inl (.outdated (t := 2) (by decide) (by decide)))
  have h3 : Spec.Star (Careful oneResult true) (World.init 1) ⟨none, none, [(2, ⟨1, [⟨[97], ['y'], 2⟩]⟩)], 2, .run oneResult⟩ :=
    .tail (.tail h2 (.inl (.archive (t := 2) (by decide) (by rintro ⟨_, h, _⟩; cases h)))) (.inl .archiveMarker)
  have h4 : Spec.Star (Careful oneResult true) (World.init 1)
      ⟨some ⟨2, [⟨[97], ['x'], 2⟩]⟩, none, [(2, ⟨1, [⟨[97], ['y'], 2⟩]⟩)], 2, .run []⟩ :=
    .tail h3 (.inl (.write (a := []) (b := []) (r := ([97], ['x'])) (x := []) (y := []) rfl (by decide)))
  have h5 := Spec.Star.tail (.tail (.tail h4 (.inl .finished)) (.inl .mark)) (.inl (.stamp (t := 2) (by decide)))
  exact ⟨_, h5, rfl, C55_fresh_partial _ (by decide) _ _ h5 rfl, rfl⟩

/-! ## What is not noticed -/

/-- A call that finds everything up to date. -/
theorem call_upToDate {results : List (Bytes × Str)} {marks : Bool} {d : RDir} {t now : Nat} {arch : List (Nat × RDir)} (h : timestamp d = .ok t) :
    Spec.Star (CallStep results marks) ⟨some d, some (some t), arch, now, .off⟩ ⟨some d, some (some t), arch, now, .done⟩ :=
  .tail (.tail (.tail .refl .create) .isReady) (.upToDate h rfl)

/-- **C55, the missing part is false** A change in the second in which the results were marked is not noticed. -/
theorem C55_same_second_violated : ∃ w, Spec.Star (Any oneResult true) (World.init 1) w ∧ w.pc = .done ∧ ¬ Complete oneResult w := by
  have h1 : Spec.Star (Any oneResult true) (World.init 1) ⟨some ⟨1, [⟨[97], ['y'], 1⟩]⟩, some (some 1), [], 1, .off⟩ :=
    .tail (any_of first_call) (.inr (.edit (a := []) (b := []) (f := ⟨[97], ['x'], 1⟩) ['y']))
  refine ⟨_, Pool.star_trans h1 (any_of (call_upToDate (by decide))), rfl, fun h => ?_⟩
  have := h.mem_iff (a := ([97], ['y']))
  revert this
  decide

/-- Two results. -/
def twoResults : List (Bytes × Str) := [([97], ['x']), ([98], ['y'])]

/-- **C55, the missing part is false** A removed file is not noticed. -/
theorem C55_removed_violated : ∃ w, Spec.Star (Any twoResults true) (World.init 1) w ∧ w.pc = .done ∧ ¬ Complete twoResults w := by
  have h1 : Spec.Star (CallStep twoResults true) (World.init 1) ⟨some ⟨1, []⟩, none, [], 1, .run twoResults⟩ :=
    .tail (.tail .refl .create) (.notReady (.inr rfl))
  have h2 : Spec.Star (CallStep twoResults true) (World.init 1) ⟨some ⟨1, [⟨[97], ['x'], 1⟩, ⟨[98], ['y'], 1⟩]⟩, none, [], 1, .run []⟩ :=
    .tail (.tail h1 (.write (a := []) (b := [([98], ['y'])]) (r := ([97], ['x'])) (x := []) (y := []) rfl (by decide)))
      (.write (a := []) (b := []) (r := ([98], ['y'])) (x := [⟨[97], ['x'], 1⟩]) (y := []) rfl (by decide))
  have h3 := Spec.Star.tail (Spec.Star.tail (.tail (.tail (.tail h2 .finished) .mark) (.stamp (t := 1) (by decide))) .exit) (.tick (now := 7) (by decide))
  have h4 : Spec.Star (Any twoResults true) (World.init 1) ⟨some ⟨7, [⟨[98], ['y'], 1⟩]⟩, some (some 1), [], 7, .off⟩ :=
    .tail (any_of h3) (.inr (.remove (a := []) (b := [⟨[98], ['y'], 1⟩]) (f := ⟨[97], ['x'], 1⟩)))
  refine ⟨_, Pool.star_trans h4 (any_of (call_upToDate (by decide))), rfl, fun h => ?_⟩
  have := h.length_eq
  revert this
  decide

/-- **C55, the missing part is false** If a call was killed before the results were marked, changes are never noticed, however late they
are made. -/
theorem C55_unmarked_violated : ∃ w, Spec.Star (Any oneResult true) (World.init 1) w ∧ w.pc = .done ∧ ¬ Complete oneResult w := by
  have h1 : Spec.Star (CallStep oneResult true) (World.init 1) ⟨some ⟨1, [⟨[97], ['x'], 1⟩]⟩, none, [], 9, .off⟩ :=
    .tail (.tail (.tail (.tail (.tail .refl .create) (.notReady (.inr rfl)))
      (.write (a := []) (b := []) (r := ([97], ['x'])) (x := []) (y := []) rfl (by decide))) .exit) (.tick (now := 9) (by decide))
  have h2 : Spec.Star (Any oneResult true) (World.init 1) ⟨some ⟨1, [⟨[97], ['y'], 9⟩]⟩, none, [], 9, .off⟩ :=
    .tail (any_of h1) (.inr (.edit (a := []) (b := []) (f := ⟨[97], ['x'], 1⟩) ['y']))
  have h3 : Spec.Star (CallStep oneResult true) ⟨some ⟨1, [⟨[97], ['y'], 9⟩]⟩, none, [], 9, .off⟩
      ⟨some ⟨1, [⟨[97], ['y'], 9⟩]⟩, some (some 9), [], 9, .done⟩ :=
    .tail (.tail (.tail (.tail (.tail (.tail .refl .create) (.notReady (.inr rfl)))
      (.skip (a := []) (b := []) (r := ([97], ['x'])) (by decide))) .finished) .mark) (.stamp (by decide))
  refine ⟨_, Pool.star_trans h2 (any_of h3), rfl, fun h => ?_⟩
  have := h.mem_iff (a := ([97], ['y']))
  revert this
  decide

/-! ## Calls that fail for ever -/

/-- Steps of calls that are not killed. -/
def NotKilled (results : List (Bytes × Str)) (marks : Bool) (u v : World) : Prop :=
  CallStep results marks u v ∧ (v.pc = .off → u.pc = .off ∨ u.pc = .done ∨ ∃ e, u.pc = .raised e)

/-- A dataset without files, whose results are outdated. -/
def EmptyStuck (w : World) : Prop :=
  match w.pc with
  | .off => w.marker = some none
  | .ready => w.marker = some none ∧ w.dir ≠ none
  | .compare => w.marker = some none
  | .archive => w.marker = some none
  | .archiveMarker => w.marker = some none ∧ w.dir = none
  | .run p => p = [] ∧ w.dir = none
  | .mark => w.dir = none
  | .stamp => w.marker = some none ∧ w.dir = none
  | .done => False
  | .raised _ => w.marker = some none

theorem emptyStuck_step {u v : World} (hi : EmptyStuck u) (h : NotKilled [] true u v) : EmptyStuck v := by
  obtain ⟨h, hk⟩ := h
  cases h with
  | create => exact ⟨hi, by simp⟩
  | notReady h => exact (h.elim hi.2 (fun h => by have := hi.1; simp only at this; rw [this] at h; cases h)).elim
  | isReady => exact hi.1
  | upToDate ht h =>
    have : _ = some none := hi
    simp only [Option.some.injEq] at this
    rw [this] at h
    cases h
  | outdated => exact hi
  | archive => exact ⟨hi, rfl⟩
  | archiveFails => exact hi
  | archiveMarker => exact ⟨rfl, hi.2⟩
  | skip h => exact absurd hi.2 (by simp)
  | @write dir m arch now a b r x y hx h => exact absurd hi.1 (by simp)
  | finished => exact hi.2
  | mark => exact ⟨rfl, hi⟩
  | stamp ht => exact absurd hi.2 (by simp)
  | stampFails => exact hi.1
  | exit =>
    rcases hk rfl with h | h | ⟨e, h⟩ <;>
    · unfold EmptyStuck at hi
      rw [h] at hi
      first | exact hi | exact hi.elim
  | tick h =>
    obtain ⟨_, _, _, _, pc⟩ := u
    cases pc <;> exact hi

theorem C55_empty_stuck {u v : World} (h : Spec.Star (NotKilled [] true) u v) (hi : EmptyStuck u) : EmptyStuck v := by
  induction h with
  | refl => exact hi
  | tail _ h ih => exact emptyStuck_step ih h

/-- **C55, the missing part is false** If the dataset has no files and the directory with the results is removed after it was marked, then
the stage raises `FileNotFoundError` and no further call comes to its end, unless it is killed. -/
theorem C55_empty_violated : ∃ w, Spec.Star (Careful [] true) (World.init 1) w ∧ w.pc = .raised .fileNotFound ∧
    ∀ v, Spec.Star (NotKilled [] true) w v → v.pc ≠ .done := by
  have h1 : Spec.Star (CallStep [] true) (World.init 1) ⟨some ⟨1, []⟩, some (some 1), [], 2, .off⟩ :=
    .tail (.tail (.tail (.tail (.tail (.tail (.tail .refl .create) (.notReady (.inr rfl))) .finished) .mark) (.stamp (by decide))) .exit)
      (.tick (now := 2) (by decide))
  have h2 : Spec.Star (Careful [] true) (World.init 1) ⟨none, some (some 1), [], 2, .off⟩ :=
    .tail (careful_of h1) (.inr ⟨.removeAll, rfl, by simp, by simp, .inl rfl⟩)
  have h3 : Spec.Star (CallStep [] true) ⟨none, some (some 1), [], 2, .off⟩ ⟨none, some none, [(2, ⟨2, []⟩)], 2, .raised .fileNotFound⟩ :=
    .tail (.tail (.tail (.tail (.tail (.tail (.tail (.tail .refl .create) .isReady) (.outdated (t := 2) (by decide) (by decide)))
      (.archive (t := 2) (by decide) (by rintro ⟨_, h, _⟩; cases h))) .archiveMarker) .finished) .mark) .stampFails
  refine ⟨_, Pool.star_trans h2 (careful_of h3), rfl, fun v h hd => ?_⟩
  have := C55_empty_stuck h rfl
  unfold EmptyStuck at this
  rw [hd] at this
  exact this

/-- The archive has a directory with the time of the empty directory. -/
def Collides (w : World) : Prop :=
  w.dir = some ⟨1, []⟩ ∧ w.marker = some none ∧ blocked w.archived 1 ∧ (w.pc ∈ [.off, .ready, .compare, .archive] ∨ ∃ e, w.pc = .raised e)

theorem collides_step {results : List (Bytes × Str)} {marks : Bool} {u v : World} (hi : Collides u) (h : CallStep results marks u v) : Collides v := by
  obtain ⟨h1, h2, h3, h4⟩ := hi
  have bad : ∀ pc : Pc, (pc ∈ [.off, .ready, .compare, .archive] ∨ ∃ e, pc = .raised e) → pc ≠ .archiveMarker ∧ (∀ p, pc ≠ .run p) ∧ pc ≠ .mark ∧ pc ≠ .stamp := by
    rintro pc (h | ⟨e, rfl⟩)
    · simp only [List.mem_cons, List.not_mem_nil, or_false] at h
      rcases h with rfl | rfl | rfl | rfl <;> simp
    · simp
  cases h with
  | create =>
    simp only at h1
    subst h1
    exact ⟨rfl, h2, h3, .inl (by simp)⟩
  | notReady h =>
    simp only at h1 h2
    subst h1 h2
    rcases h with h | h <;> cases h
  | isReady => exact ⟨h1, h2, h3, .inl (by simp)⟩
  | upToDate ht h =>
    subst h
    cases h2
  | outdated ht h => exact ⟨h1, h2, h3, .inl (by simp)⟩
  | archive ht h =>
    simp only [Option.some.injEq] at h1
    subst h1
    obtain rfl := Except.ok.inj ht
    exact absurd h3 h
  | archiveFails ht h => exact ⟨h1, h2, h3, .inr ⟨_, rfl⟩⟩
  | archiveMarker => exact absurd rfl (bad _ h4).1
  | skip h => exact absurd rfl ((bad _ h4).2.1 _)
  | write hx h => exact absurd rfl ((bad _ h4).2.1 _)
  | finished => exact absurd rfl ((bad _ h4).2.1 _)
  | mark => exact absurd rfl (bad _ h4).2.2.1
  | stamp ht => exact absurd rfl (bad _ h4).2.2.2
  | stampFails => exact absurd rfl (bad _ h4).2.2.2
  | exit => exact ⟨h1, h2, h3, .inl (by simp)⟩
  | tick h => exact ⟨h1, h2, h3, h4⟩

/-- **C55, the missing part is false** If a call is killed while it archives the results and the next one is started in the same
second, no further call ever comes to its end. -/
theorem C55_collision_violated : ∃ w, Spec.Star (Careful oneResult true) (World.init 1) w ∧ w.pc = .raised .osError ∧
    ∀ v, Spec.Star (CallStep oneResult true) w v → v.pc ≠ .done := by
  -- killed before the marker is written, then before the marker is archived
  have h1 : Spec.Star (CallStep oneResult true) (World.init 1) ⟨some ⟨1, [⟨[97], ['x'], 1⟩]⟩, some none, [], 1, .off⟩ :=
    .tail (.tail (.tail (.tail (.tail (.tail .refl .create) (.notReady (.inr rfl)))
      (.write (a := []) (b := []) (r := ([97], ['x'])) (x := []) (y := []) rfl (by decide))) .finished) .mark) .exit
  have h2 : Spec.Star (CallStep oneResult true) (World.init 1) ⟨none, some none, [(1, ⟨1, [⟨[97], ['x'], 1⟩]⟩)], 1, .off⟩ :=
    .tail (.tail (.tail (.tail (.tail h1 .create) .isReady) (.outdated (t := 1) (by decide) (by decide)))
      (.archive (t := 1) (by decide) (by rintro ⟨_, h, _⟩; cases h))) .exit
  have hb : blocked [(1, ⟨1, [⟨[97], ['x'], 1⟩]⟩)] 1 := ⟨_, List.mem_cons_self, by simp⟩
  have h3 : Spec.Star (CallStep oneResult true) (World.init 1) ⟨some ⟨1, []⟩, some none, [(1, ⟨1, [⟨[97], ['x'], 1⟩]⟩)], 1, .raised .osError⟩ :=
    .tail (.tail (.tail (.tail h2 .create) .isReady) (.outdated (t := 1) (by decide) (by decide))) (.archiveFails (t := 1) (by decide) hb)
  refine ⟨_, careful_of h3, rfl, fun v h hd => ?_⟩
  have hc : Collides v := by
    clear hd
    induction h with
    | refl => exact ⟨rfl, rfl, hb, .inr ⟨_, rfl⟩⟩
    | tail _ h ih => exact collides_step ih h
  obtain ⟨_, _, _, h | ⟨e, h⟩⟩ := hc
  · rw [hd] at h; revert h; decide
  · rw [hd] at h; cases h

end Verif.Props
