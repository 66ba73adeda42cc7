import Verif.Spec.Stages
import Verif.Props.FileList
import Verif.Proofs.Workers
/-!
# Invariants of the stages
-/
namespace Verif.Stage
open Verif

/-! ## Times -/

theorem allTimes_files (l : List RFile) : Spec.allTimes [⟨[], l.map fun f => some f.mtime⟩] = l.map (·.mtime) := by
  simp [Spec.allTimes, List.filterMap_map]

theorem timestamp_ok (d : RDir) : ∃ t, timestamp d = .ok t := by
  unfold timestamp
  split
  · exact ⟨_, rfl⟩
  · next h =>
    unfold dirLastModification
    cases hm : (timesWalk timeLimit 0 [⟨[], d.files.map fun f => some f.mtime⟩]).max? with
    | some t => exact ⟨t, rfl⟩
    | none =>
      exfalso
      have : dirLastModification timeLimit [⟨[], d.files.map fun f => some f.mtime⟩] = .error .valueError := by
        unfold dirLastModification; rw [hm]
      cases hf : d.files with
      | nil => exact h hf
      | cons f l =>
        have hne : ((f :: l).map (·.mtime)).take timeLimit ≠ [] := by
          unfold timeLimit; simp
        cases hmax : (((f :: l).map (·.mtime)).take timeLimit).max? with
        | none => rw [List.max?_eq_none_iff] at hmax; exact hne hmax
        | some t =>
          rw [List.max?_eq_some_iff] at hmax
          have h' := (Props.C51_time timeLimit [⟨[], d.files.map fun f => some f.mtime⟩] t).mpr (by rw [allTimes_files, hf]; exact hmax)
          rw [this] at h'
          cases h'

/-- A file with a time, among at most 1000, makes the directory at least as new. -/
theorem timestamp_ge {d : RDir} {f : RFile} {u : Nat} (hf : f ∈ d.files) (hl : d.files.length ≤ 1000) (h : timestamp d = .ok u) : f.mtime ≤ u := by
  unfold timestamp at h
  rw [if_neg (by intro e; rw [e] at hf; cases hf), Props.C51_time, allTimes_files] at h
  refine h.2 _ ?_
  rw [List.take_of_length_le (by simpa [timeLimit] using hl)]
  exact List.mem_map_of_mem hf

/-! ## The invariant -/

/-- The files of the directory are results. -/
def Clean (results : List (Bytes × Str)) (w : World) : Prop :=
  ((filesOf w.dir).map (·.name)).Nodup ∧ ∀ f ∈ filesOf w.dir, (f.name, f.content) ∈ results

/-- Every result is in the directory or pending. -/
def Covers (results pending : List (Bytes × Str)) (w : World) : Prop :=
  ∀ r ∈ results, r ∈ pending ∨ r.1 ∈ (filesOf w.dir).map (·.name)

/-- If there is a time in the marker, the directory is newer. -/
def Stale (w : World) : Prop :=
  ∀ t, w.marker = some (some t) → t < w.now ∧ ∀ d, w.dir = some d → ∃ u, timestamp d = .ok u ∧ t < u

/-- The results are complete and marked. -/
def Fresh (results : List (Bytes × Str)) (w : World) : Prop :=
  Complete results w ∧ ∃ d t, w.dir = some d ∧ w.marker = some (some t) ∧ timestamp d = .ok t

/-- Outside of the critical parts. -/
def Quiet (results : List (Bytes × Str)) (w : World) : Prop :=
  (w.marker = none ∧ Clean results w) ∨ (w.marker ≠ none ∧ (Stale w ∨ Fresh results w))

/-- The invariant of careful histories. -/
def Inv (results : List (Bytes × Str)) (w : World) : Prop :=
  match w.pc with
  | .off => Quiet results w
  | .ready => Quiet results w ∧ w.dir ≠ none
  | .compare => w.marker ≠ none ∧ (Stale w ∨ Fresh results w)
  | .archive => w.marker ≠ none ∧ Stale w
  | .archiveMarker => w.dir = none ∧ w.marker ≠ none ∧ Stale w
  | .run p => w.marker = none ∧ Clean results w ∧ Covers results p w ∧ ∀ r ∈ p, r ∈ results
  | .mark => w.marker = none ∧ Clean results w ∧ Complete results w
  | .stamp => w.marker = some none ∧ Complete results w
  | .done => Complete results w ∧ ((w.marker = none ∧ Clean results w) ∨ Fresh results w)
  | .raised _ => Quiet results w

theorem complete_of {results : List (Bytes × Str)} {w : World} (hn : (results.map (·.1)).Nodup) (hc : Clean results w) (hv : Covers results [] w) :
    Complete results w := by
  unfold Complete
  have h1 : ((filesOf w.dir).map fun f => (f.name, f.content)).Nodup := by
    apply nodup_of_map (·.1)
    rw [List.map_map]
    exact hc.1
  rw [List.perm_ext_iff_of_nodup h1 (nodup_of_map _ hn)]
  intro r
  constructor
  · intro h
    obtain ⟨f, hf, rfl⟩ := List.mem_map.mp h
    exact hc.2 f hf
  · intro h
    rcases hv r h with h' | h'
    · cases h'
    · obtain ⟨f, hf, he⟩ := List.mem_map.mp h'
      have := hc.2 f hf
      have e := Pool.nodup_of_map_inj hn this h he
      exact List.mem_map.mpr ⟨f, hf, e⟩

/-- At any point a call can be killed. -/
theorem inv_quiet {results : List (Bytes × Str)} {w : World} (h : Inv results w) : Quiet results w := by
  unfold Inv at h
  split at h
  · exact h
  · exact h.1
  · exact .inr h
  · exact .inr ⟨h.1, .inl h.2⟩
  · exact .inr ⟨h.2.1, .inl h.2.2⟩
  · exact .inl ⟨h.1, h.2.1⟩
  · exact .inl ⟨h.1, h.2.1⟩
  · refine .inr ⟨by rw [h.1]; simp, .inl fun t ht => ?_⟩
    rw [h.1] at ht
    cases ht
  · rcases h.2 with h | h
    · exact .inl h
    · obtain ⟨_, _, _, _, hm, _⟩ := id h
      exact .inr ⟨by rw [hm]; simp, .inr h⟩
  · exact h

theorem stale_later {w : World} {now : Nat} (h : w.now ≤ now) (hs : Stale w) : Stale { w with now := now } :=
  fun t ht => ⟨Nat.lt_of_lt_of_le (hs t ht).1 h, (hs t ht).2⟩

theorem quiet_later {results : List (Bytes × Str)} {w : World} {now : Nat} (h : w.now ≤ now) (hq : Quiet results w) :
    Quiet results { w with now := now } := by
  rcases hq with hq | ⟨h1, h2 | h2⟩
  · exact .inl hq
  · exact .inr ⟨h1, .inl (stale_later h h2)⟩
  · exact .inr ⟨h1, .inr h2⟩

theorem inv_later {results : List (Bytes × Str)} {w : World} {now : Nat} (h : w.now ≤ now) (hi : Inv results w) :
    Inv results { w with now := now } := by
  obtain ⟨dir, m, arch, n, pc⟩ := w
  cases pc with
  | off => exact quiet_later h hi
  | ready => exact ⟨quiet_later h hi.1, hi.2⟩
  | raised _ => exact quiet_later h hi
  | compare =>
    obtain ⟨h1, h2 | h2⟩ := hi
    · exact ⟨h1, .inl (stale_later h h2)⟩
    · exact ⟨h1, .inr h2⟩
  | archive => exact ⟨hi.1, stale_later h hi.2⟩
  | archiveMarker => exact ⟨hi.1, hi.2.1, stale_later h hi.2.2⟩
  | run p => exact hi
  | mark => exact hi
  | stamp => exact hi
  | done => exact hi

theorem inv_call {results : List (Bytes × Str)} {marks : Bool} (hn : (results.map (·.1)).Nodup) {u v : World} (hi : Inv results u)
    (h : CallStep results marks u v) : Inv results v := by
  cases h with
  | @create dir m arch now =>
    refine ⟨?_, by simp⟩
    rcases hi with ⟨h1, h2⟩ | ⟨h1, h2 | h2⟩
    · refine .inl ⟨h1, ?_⟩
      cases dir with
      | none => exact h2
      | some d => exact h2
    · refine .inr ⟨h1, .inl fun t ht => ?_⟩
      obtain ⟨h3, h4⟩ := h2 t ht
      refine ⟨h3, fun d hd => ?_⟩
      cases dir with
      | none =>
        simp only [Option.getD_none, Option.some.injEq] at hd
        subst hd
        exact ⟨now, rfl, h3⟩
      | some d' => exact h4 d hd
    · obtain ⟨c, d, t, hd, hm, ht⟩ := h2
      simp only at hd
      subst hd
      exact .inr ⟨h1, .inr ⟨c, d, t, rfl, hm, ht⟩⟩
  | @notReady dir m arch now h =>
    obtain ⟨⟨h1, h2⟩ | ⟨h1, h2⟩, hd⟩ := hi
    · exact ⟨h1, h2, fun r hr => .inl hr, fun r hr => hr⟩
    · exact (h.elim hd h1).elim
  | isReady =>
    obtain ⟨⟨h1, h2⟩ | ⟨h1, h2⟩, hd⟩ := hi
    · cases h1
    · exact ⟨h1, h2⟩
  | upToDate ht h =>
    obtain ⟨h1, h2 | h2⟩ := hi
    · subst h
      obtain ⟨_, h3⟩ := h2 _ rfl
      obtain ⟨u, hu, hlt⟩ := h3 _ rfl
      rw [ht] at hu
      have := Except.ok.inj hu
      omega
    · exact ⟨h2.1, .inr h2⟩
  | outdated ht h =>
    obtain ⟨h1, h2 | h2⟩ := hi
    · exact ⟨h1, h2⟩
    · obtain ⟨c, d, t, hd, hm, ht'⟩ := h2
      simp only [Option.some.injEq] at hd hm
      subst hd
      rw [ht] at ht'
      rw [Except.ok.inj ht'] at h
      exact absurd hm h
  | archive ht h => exact ⟨rfl, hi.1, fun t ht => ⟨(hi.2 t ht).1, fun d hd => by cases hd⟩⟩
  | archiveFails ht h => exact .inr ⟨hi.1, .inl hi.2⟩
  | archiveMarker =>
    have hd := hi.1
    simp only at hd
    subst hd
    exact ⟨rfl, ⟨List.nodup_nil, fun f hf => by cases hf⟩, fun r hr => .inl hr, fun r hr => hr⟩
  | @skip d m arch now a b r h =>
    obtain ⟨h1, h2, h3, h4⟩ := hi
    refine ⟨h1, h2, fun x hx => ?_, fun x hx => h4 x ?_⟩
    · rcases h3 x hx with h' | h'
      · rcases List.mem_append.mp h' with h' | h'
        · exact .inl (List.mem_append_left _ h')
        · rcases List.mem_cons.mp h' with rfl | h'
          · exact .inr h
          · exact .inl (List.mem_append_right _ h')
      · exact .inr h'
    · rcases List.mem_append.mp hx with hx | hx
      · exact List.mem_append_left _ hx
      · exact List.mem_append_right _ (List.mem_cons_of_mem _ hx)
  | @write dir m arch now a b r x y hx h =>
    obtain ⟨h1, h2, h3, h4⟩ := hi
    have hmem : ∀ f : RFile, f ∈ addFile x y ⟨r.1, r.2, now⟩ ↔ f ∈ filesOf dir ∨ f = ⟨r.1, r.2, now⟩ := by
      intro f
      rw [hx]
      simp only [addFile, List.mem_append, List.mem_cons]
      constructor
      · rintro (h | h | h)
        · exact .inl (.inl h)
        · exact .inr h
        · exact .inl (.inr h)
      · rintro ((h | h) | h)
        · exact .inl h
        · exact .inr (.inr h)
        · exact .inr (.inl h)
    refine ⟨h1, ⟨?_, ?_⟩, fun z hz => ?_, fun z hz => h4 z ?_⟩
    · show ((addFile x y ⟨r.1, r.2, now⟩).map (·.name)).Nodup
      have e : (addFile x y ⟨r.1, r.2, now⟩).map (·.name) = x.map (·.name) ++ r.1 :: y.map (·.name) := by simp [addFile]
      have hp : (x.map (·.name) ++ r.1 :: y.map (·.name)).Perm (r.1 :: (filesOf dir).map (·.name)) := by
        rw [hx, List.map_append]
        exact List.perm_middle
      rw [e, hp.nodup_iff, List.nodup_cons]
      exact ⟨h, h2.1⟩
    · intro f hf
      rcases (hmem f).mp hf with hf | rfl
      · exact h2.2 f hf
      · exact h4 r (by simp)
    · rcases h3 z hz with h' | h'
      · rcases List.mem_append.mp h' with h' | h'
        · exact .inl (List.mem_append_left _ h')
        · rcases List.mem_cons.mp h' with rfl | h'
          · exact .inr (List.mem_map.mpr ⟨⟨z.1, z.2, now⟩, (hmem _).mpr (.inr rfl), rfl⟩)
          · exact .inl (List.mem_append_right _ h')
      · obtain ⟨f, hf, he⟩ := List.mem_map.mp h'
        exact .inr (List.mem_map.mpr ⟨f, (hmem f).mpr (.inl hf), he⟩)
    · rcases List.mem_append.mp hz with hx | hx
      · exact List.mem_append_left _ hx
      · exact List.mem_append_right _ (List.mem_cons_of_mem _ hx)
  | @finished dir m arch now =>
    obtain ⟨h1, h2, h3, h4⟩ := hi
    have hc := complete_of hn h2 h3
    cases marks with
    | true => exact ⟨h1, h2, hc⟩
    | false => exact ⟨hc, .inl ⟨h1, h2⟩⟩
  | mark => exact ⟨rfl, hi.2.2⟩
  | stamp ht => exact ⟨hi.2, .inr ⟨hi.2, _, _, rfl, rfl, ht⟩⟩
  | stampFails => exact .inr ⟨by rw [hi.1]; simp, .inl fun t ht => by rw [hi.1] at ht; cases ht⟩
  | exit =>
    have := inv_quiet hi
    exact this
  | tick h => exact inv_later h hi

theorem inv_user {results : List (Bytes × Str)} {u v : World} (hi : Inv results u) (h : UserStep u v) (hc : Noticeable u v) : Inv results v := by
  obtain ⟨h1, h2, h3, h4⟩ := hc
  have hv : v.pc = u.pc ∧ v.marker = u.marker ∧ v.now = u.now := by cases h <;> simp
  have key : Quiet results v := by
    refine .inr ⟨by rw [hv.2.1]; exact h2, .inl fun t ht => ?_⟩
    have hlt := h3 t (by rw [← hv.2.1]; exact ht)
    refine ⟨by rw [hv.2.2]; exact hlt, fun d hd => ?_⟩
    obtain ⟨x, hx⟩ := timestamp_ok d
    refine ⟨x, hx, ?_⟩
    rcases h4 with h4 | ⟨⟨f, hf, hft⟩, h5⟩
    · rw [hd] at h4; cases h4
    rw [hd] at hf h5
    have := timestamp_ge hf h5 hx
    omega
  unfold Inv
  rw [hv.1, h1]
  exact key

end Verif.Stage
