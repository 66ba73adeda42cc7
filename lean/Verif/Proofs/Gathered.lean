import Verif.Props.Gather
/-!
# The results when the tokens that are not split have been collected
-/
namespace Verif.Pool
open Verif

theorem weaken_ok {fresh : Bool} {jobs : List Job} {n : Nat} {w : World} {f : Option Str} (hr : w.run = none) (h : WorldOk (runSetup fresh f) jobs n w)
    (g : Str) : WorldOk (runSetup fresh (some g)) jobs n w := by
  refine ⟨h.disk, fun _ j hj i hi => ⟨(h.complete hr j hj i hi).1, fun e => (by cases e)⟩, fun r e => (by rw [hr] at e; cases e), fun e j hj => ?_⟩
  rcases h.finished e j hj with h1 | ⟨h1, h2⟩
  · exact .inl h1
  · cases h1

theorem stop_ok {fresh : Bool} {jobs : List Job} {n : Nat} {d : Disk} {b : Bool} {f : Option Str} (h : WorldOk (runSetup fresh f) jobs n ⟨d, b, none⟩) :
    WorldOk (runSetup fresh f) jobs n ⟨d, false, none⟩ := by
  exact ⟨h.disk, fun _ => h.complete rfl, fun r e => (by cases e), fun e => (by cases e)⟩

theorem remove_ok {fresh : Bool} {jobs : List Job} {n : Nat} {d : Disk} {p : Str}
    (h : WorldOk (runSetup fresh (some [])) jobs n ⟨d, true, none⟩) : WorldOk (runSetup fresh (some [])) jobs n ⟨d.remove (.side p), true, none⟩ := by
  have hsub : ∀ q i, (d.remove (.side p)).dir q = some i → d.dir q = some i := by
    intro q i hq
    simp only [Disk.remove] at hq
    split at hq
    · cases hq
    · exact hq
  have hout : ∀ q, (d.remove (.side p)).dir (.out q) = d.dir (.out q) := by
    intro q
    simp [Disk.remove]
  refine ⟨⟨fun a b i ha hb => h.disk.inj a b i (hsub a i ha) (hsub b i hb), fun a i ha => h.disk.lt a i (hsub a i ha)⟩,
    fun _ j hj i hi => ⟨(h.complete rfl j hj i (hsub _ i hi)).1, fun e => (by cases e)⟩, fun r e => (by cases e), fun e j hj => ?_⟩
  rcases h.finished rfl j hj with h1 | ⟨h1, h2⟩
  · exact .inl (by rw [hout]; exact h1)
  · cases h1

/-- What holds for the results, in every phase. -/
structure GResults (fresh : Bool) (jobs : List Job) (n : Nat) (w : GWorld) : Prop where
  workers : w.phase = .workers → WorldOk (runSetup fresh w.final) jobs n w.pool
  later : w.phase ≠ .workers → w.final ≠ none ∧ w.pool.ready = true ∧ w.pool.run = none ∧ WorldOk (runSetup fresh (some [])) jobs n w.pool

theorem results_step {fresh : Bool} {jobs : List Job} {n : Nat} (hg : GoodJobs jobs) {w w' : GWorld} (h : GResults fresh jobs n w)
    (hs : GStep fresh jobs n w w') : GResults fresh jobs n w' := by
  cases hs with
  | pool hst => exact ⟨fun _ => step_ok hg (h.workers rfl) hst, fun e => absurd rfl e⟩
  | known => exact ⟨fun e => (by cases e), fun _ => ⟨by simp, rfl, rfl, weaken_ok rfl (h.workers rfl) []⟩⟩
  | gather => exact ⟨fun e => (by cases e), fun _ => ⟨by simp, rfl, rfl, weaken_ok rfl (h.workers rfl) []⟩⟩
  | gatherFails => exact ⟨fun _ => stop_ok (h.workers rfl), fun e => absurd rfl e⟩
  | write =>
    obtain ⟨h1, h2, h3, h4⟩ := h.later (by simp)
    exact ⟨fun e => (by cases e), fun _ => ⟨by simp, h2, h3, h4⟩⟩
  | close =>
    obtain ⟨h1, h2, h3, h4⟩ := h.later (by simp)
    exact ⟨fun e => (by cases e), fun _ => ⟨h1, h2, h3, h4⟩⟩
  | remove =>
    obtain ⟨h1, h2, h3, h4⟩ := h.later (by simp)
    exact ⟨fun e => (by cases e), fun _ => ⟨h1, rfl, rfl, remove_ok h4⟩⟩
  | finish =>
    obtain ⟨h1, h2, h3, h4⟩ := h.later (by simp)
    exact ⟨fun e => (by cases e), fun _ => ⟨h1, h2, h3, h4⟩⟩
  | @crash d f ph hne =>
    refine ⟨fun _ => ?_, fun e => absurd rfl e⟩
    by_cases hp : ph = .workers
    · subst hp
      exact stop_ok (h.workers rfl)
    · obtain ⟨h1, -, -, h4⟩ := h.later hp
      cases f with
      | none => exact absurd rfl h1
      | some g => exact stop_ok (weaken_ok rfl h4 g)

theorem results_ok {fresh : Bool} {jobs : List Job} {n : Nat} (hg : GoodJobs jobs) {w : GWorld} (h : Spec.Star (GStep fresh jobs n) GWorld.init w) :
    GResults fresh jobs n w := by
  induction h with
  | refl => exact ⟨fun _ => init_ok _ jobs n, fun e => absurd rfl e⟩
  | tail _ hs ih => exact results_step hg ih hs

end Verif.Pool

namespace Verif.Props
open Verif Verif.Pool

/-- **C52** When the tokens have been collected, all results are there and complete, after any crashes. -/
theorem C52_results {fresh : Bool} {jobs : List Job} {n : Nat} (hg : GoodJobs jobs) {w : GWorld} (h : Spec.Star (GStep fresh jobs n) GWorld.init w)
    (hd : w.phase = .done) : ∀ j ∈ jobs, ∃ s t, j.res = .ok s t ∧ w.pool.disk.Has (.out j.dest) s := by
  intro j hj
  obtain ⟨-, hr, hn, hok⟩ := (results_ok hg h).later (by rw [hd]; simp)
  rcases hok.finished hr j hj with h1 | ⟨h1, -⟩
  · cases hi : w.pool.disk.dir (.out j.dest) with
    | none => exact absurd hi h1
    | some i =>
      obtain ⟨⟨s, t, e1, e2⟩, -⟩ := hok.complete hn j hj i hi
      exact ⟨s, t, e1, i, hi, e2⟩
  · cases h1

end Verif.Props
