import Verif.Proofs.Workers
/-!
# Workers: runs come to an end
-/
namespace Verif.Pool
open Verif

/-- A step without a crash. -/
def Calm (c : Setup) (jobs : List Job) (n : Nat) (w w' : World) : Prop := Step c jobs n w w' ∧ ¬ (w.run ≠ none ∧ w'.run = none ∧ w'.ready = false)

/-- The lengths of what is written. -/
def lens : Res → Nat × Nat
  | .ok s t => (s.length, t.length)
  | _ => (0, 0)

/-- How much work a file is. -/
def jobWork (j : Job) : Nat := (lens j.res).1 + (lens j.res).2 + 10

/-- How much work is left for a worker. -/
def left : WSt → Nat
  | .idle => 0
  | .raised _ => 0
  | .start j => (lens j.res).1 + (lens j.res).2 + 8
  | .opening j => (lens j.res).1 + (lens j.res).2 + 7
  | .writing j _ pos => ((lens j.res).1 - pos) + (lens j.res).2 + 6
  | .saving j => (lens j.res).2 + 4
  | .tokens j _ pos => ((lens j.res).2 - pos) + 3
  | .moving _ => 1

/-- How much work is left in a run with `n` workers. -/
def Run.left (r : Run) (n : Nat) : Nat := (r.pending.map jobWork).sum + ((List.range n).map fun w => Pool.left (r.workers w)).sum

theorem sum_set (f g : Nat → Nat) (w : Nat) (hne : ∀ x, x ≠ w → f x = g x) : ∀ n, w < n →
    ((List.range n).map f).sum + g w = ((List.range n).map g).sum + f w := by
  intro n
  induction n with
  | zero => intro h; omega
  | succ n ih =>
    intro h
    rw [List.range_succ, List.map_append, List.map_append, List.sum_append, List.sum_append]
    simp only [List.map_cons, List.map_nil, List.sum_cons, List.sum_nil, Nat.add_zero]
    by_cases hw : w = n
    · subst hw
      have : (List.range w).map f = (List.range w).map g := by
        apply List.map_congr_left
        intro x hx
        exact hne x (by have := List.mem_range.mp hx; omega)
      rw [this]
      omega
    · have := ih (by omega)
      rw [hne n (by omega)]
      omega

theorem left_set (r : Run) (w n : Nat) (s : WSt) (hw : w < n) : (r.set w s).left n + Pool.left (r.workers w) = r.left n + Pool.left s := by
  unfold Run.left
  have := sum_set (fun x => Pool.left ((r.set w s).workers x)) (fun x => Pool.left (r.workers x)) w
    (fun x hx => by simp [set_workers, hx]) n hw
  simp only [set_workers, if_pos] at this
  have e : (r.set w s).pending = r.pending := rfl
  rw [e]
  simp only [set_workers]
  omega

theorem wstep_left {c : Setup} {d d' : Disk} {s s' : WSt} (h : WStep c d s d' s') : Pool.left s' < Pool.left s := by
  cases h with
  | skip => simp only [Pool.left]; omega
  | check => simp only [Pool.left]; omega
  | noSource => simp only [Pool.left]; omega
  | openPart => simp only [Pool.left]; omega
  | ignore => simp only [Pool.left]; omega
  | fail => simp only [Pool.left]; omega
  | write n hr hn hp => simp only [Pool.left, hr, lens]; omega
  | close hr hp => split <;> (simp only [Pool.left]; omega)
  | openTokens => simp only [Pool.left]; omega
  | writeTokens n hr hn hp => simp only [Pool.left, hr, lens]; omega
  | closeTokens hr hp => simp only [Pool.left]; omega
  | rename => simp only [Pool.left]; omega

/-- How much is left to be done. -/
def World.left (jobs : List Job) (n : Nat) (w : World) : Nat :=
  if w.ready then 0 else match w.run with
    | none => (jobs.map jobWork).sum + 2
    | some r => r.left n + 1

theorem sum_append_cons (a b : List Job) (j : Job) : ((a ++ j :: b).map jobWork).sum = ((a ++ b).map jobWork).sum + jobWork j := by
  simp only [List.map_append, List.map_cons, List.sum_append, List.sum_cons]
  omega

theorem sum_zero (n : Nat) : ((List.range n).map fun _ => Pool.left .idle).sum = 0 := by
  induction n with
  | zero => rfl
  | succ n ih => rw [List.range_succ, List.map_append, List.sum_append, ih]; rfl

theorem calm_left {c : Setup} {jobs : List Job} {n : Nat} {w w' : World} (h : Calm c jobs n w w') : w'.left jobs n < w.left jobs n := by
  obtain ⟨h, hc⟩ := h
  cases h with
  | start =>
    simp only [World.left, Run.left, sum_zero]
    simp
  | @take d r x j a b hx hi hp =>
    simp only [World.left]
    have h1 := left_set { r with pending := a ++ b } x n (.start j) hx
    simp only at h1
    rw [hi] at h1
    have h2 : r.left n = ({ r with pending := a ++ b } : Run).left n + jobWork j := by
      unfold Run.left
      rw [hp, sum_append_cons]
      simp only
      omega
    have h3 : Pool.left (.start j) < jobWork j := by simp only [Pool.left, jobWork]; omega
    have h4 : Pool.left .idle = 0 := rfl
    simp only [Bool.false_eq_true, if_false]
    omega
  | @work d d' r x s hx h =>
    simp only [World.left, Bool.false_eq_true, if_false]
    have h1 := left_set r x n s hx
    have h2 := wstep_left h
    omega
  | crash => exact absurd ⟨by simp, rfl, rfl⟩ hc
  | finish => simp [World.left]

/-- A file that can be processed. -/
def Fine (c : Setup) (j : Job) : Prop := j.res ≠ .fails ∧ (c.stage = .repr → j.res ≠ .missing)

/-- Without a failing file no worker raises an exception. -/
theorem no_raise {c : Setup} {jobs : List Job} {n : Nat} {w : World} (hf : ∀ j ∈ jobs, Fine c j) (hg : GoodJobs jobs) (h : Reachable c jobs n w) :
    ∀ r, w.run = some r → ∀ x j, r.workers x ≠ .raised j := by
  induction h with
  | refl => simp [World.init]
  | @tail u v hu h ih =>
    have hok := reachable_ok hg hu
    cases h with
    | start => intro r hr; obtain rfl := Option.some.inj hr; simp
    | @take d r x j a b hx hi hp =>
      intro r' hr y k
      obtain rfl := Option.some.inj hr
      rw [set_workers]
      split
      · simp
      · exact ih r rfl y k
    | @work d d' r x s hx h =>
      intro r' hr y k
      obtain rfl := Option.some.inj hr
      rw [set_workers]
      split
      · rintro rfl
        obtain ⟨j, hj⟩ := h.held
        obtain ⟨f1, f2⟩ := hf j ((hok.running r rfl).heldIn x j hj).1
        clear hr
        generalize r.workers x = s0 at h hj
        generalize hs : WSt.raised k = s1 at h
        cases h with
        | noSource h1 h2 => obtain rfl := Option.some.inj hj; exact f2 h1 h2
        | fail h1 => obtain rfl := Option.some.inj hj; exact f1 h1
        | close _ _ => split at hs <;> cases hs
        | _ => cases hs
      · exact ih r rfl y k
    | crash => intro r hr; cases hr
    | finish => intro r hr; cases hr

/-- A worker that is neither waiting nor has raised an exception can go on. -/
theorem wstep_exists {c : Setup} {d : Disk} {busy : Nat → Prop} {s : WSt} {j : Job} (hj : held s = some j) (hf : Fine c j) (hr : ∀ k, s ≠ .raised k)
    (hw : WOk c busy d s) (hpos : ∀ k i pos, s = .writing k i pos → (k.res = .missing ∨ k.res = .fails) → pos = 0)
    (hfree : ∃ time, d.dir (tokensName j.dest time) = none) (htok : ∀ k i pos s' t, s = .tokens k i pos → k.res = .ok s' t → pos ≤ t.length) :
    ∃ d' s', WStep c d s d' s' := by
  cases s with
  | idle => cases hj
  | raised k => exact absurd rfl (hr k)
  | start k =>
    cases h : d.dir (.out k.dest) with
    | none => exact ⟨_, _, .check h⟩
    | some i => exact ⟨_, _, .skip (by rw [h]; simp)⟩
  | opening k =>
    obtain rfl := Option.some.inj hj
    exact ⟨_, _, .openPart (fun h => hf.2 h.1 h.2)⟩
  | writing k i pos =>
    obtain rfl := Option.some.inj hj
    cases hres : k.res with
    | missing =>
      obtain rfl := hpos k i pos rfl (.inl hres)
      refine ⟨_, _, .ignore ?_ hres []⟩
      cases hst : c.stage with
      | parse => rfl
      | repr => exact absurd hres (hf.2 hst)
    | fails => exact absurd hres hf.1
    | ok s t =>
      have := (hw.2.2 s t hres).1
      by_cases he : pos = s.length
      · exact ⟨_, _, .close hres he⟩
      · exact ⟨_, _, .write (s.length - pos) hres (by omega) (by omega)⟩
  | saving k =>
    obtain rfl := Option.some.inj hj
    obtain ⟨time, ht⟩ := hfree
    exact ⟨_, _, .openTokens time (fun _ => ht)⟩
  | tokens k i pos =>
    obtain ⟨_, ⟨_, s, t, hres, _⟩, _, h4⟩ := hw
    have := htok k i pos s t rfl hres
    by_cases he : pos = t.length
    · exact ⟨_, _, .closeTokens hres he⟩
    · exact ⟨_, _, .writeTokens (t.length - pos) hres (by omega) (by omega)⟩
  | moving k => exact ⟨_, _, .rename⟩

/-- Positions are sensible. -/
def PosOk : WSt → Prop
  | .writing k _ pos => (k.res = .missing ∨ k.res = .fails) → pos = 0
  | .tokens k _ pos => ∀ s t, k.res = .ok s t → pos ≤ t.length
  | _ => True

theorem pos_ok {c : Setup} {jobs : List Job} {n : Nat} {w : World} (h : Reachable c jobs n w) :
    ∀ r, w.run = some r → ∀ x, PosOk (r.workers x) := by
  induction h with
  | refl => simp [World.init]
  | @tail u v hu h ih =>
    cases h with
    | start => intro r hr; obtain rfl := Option.some.inj hr; intro x; trivial
    | @take d r x j a b hx hi hp =>
      intro r' hr y
      obtain rfl := Option.some.inj hr
      rw [set_workers]
      split
      · trivial
      · exact ih r rfl y
    | @work d d' r x s hx h =>
      intro r' hr y
      obtain rfl := Option.some.inj hr
      rw [set_workers]
      split
      · clear hr
        generalize r.workers x = s0 at h
        cases h with
        | openPart => intro _; rfl
        | write n hr hn hp =>
          intro h
          rw [hr] at h
          rcases h with h | h <;> cases h
        | openTokens => intro _ _ _; exact Nat.zero_le _
        | writeTokens n hr hn hp =>
          intro s' t' hr'
          rw [hr] at hr'
          cases hr'
          exact hp
        | close => split <;> trivial
        | _ => trivial
      · exact ih r rfl y
    | crash => intro r hr; cases hr
    | finish => intro r hr; cases hr

/-! There are finitely many files, so a new name can always be found. -/

theorem longName (dest : Bytes) (d : Disk) (N : Nat) (h : ∀ p, N < p.length → d.dir (.side p) = none) :
    ∃ time, d.dir (tokensName dest time) = none := by
  refine ⟨List.replicate (N + 1) '0', h _ ?_⟩
  simp only [List.length_append, List.length_replicate]
  omega

/-- Names of files are bounded. -/
def Bounded (d : Disk) : Prop := ∃ N, ∀ p, N < p.length → d.dir (.side p) = none

theorem bounded_wstep {c : Setup} {d d' : Disk} {s s' : WSt} (hb : Bounded d) (h : WStep c d s d' s') : Bounded d' := by
  have hcr : ∀ p, Bounded (d.create p).1 := by
    intro p
    obtain ⟨N, hN⟩ := hb
    unfold Disk.create
    cases hp : d.dir p with
    | some i => exact ⟨N, hN⟩
    | none =>
      cases p with
      | out p => exact ⟨N, fun q hq => by simp [hN q hq]⟩
      | side p =>
        refine ⟨N + p.length, fun q hq => ?_⟩
        simp only
        rw [if_neg, hN q (by omega)]
        intro h
        rw [Path.side.inj h] at hq
        omega
  cases h with
  | openPart => exact hcr _
  | openTokens => exact hcr _
  | rename =>
    obtain ⟨N, hN⟩ := hb
    refine ⟨N, fun q hq => ?_⟩
    unfold Disk.rename
    simp only
    rw [if_neg (by intro h; cases h), if_neg (by intro h; cases h), hN q hq]
  | _ => exact hb

theorem reachable_bounded {c : Setup} {jobs : List Job} {n : Nat} {w : World} (h : Reachable c jobs n w) : Bounded w.disk := by
  induction h with
  | refl => exact ⟨0, fun _ _ => rfl⟩
  | tail _ h ih =>
    cases h with
    | work _ h => exact bounded_wstep ih h
    | _ => exact ih

/-- As long as the results are not ready, something can be done. -/
theorem calm_exists {c : Setup} {jobs : List Job} {n : Nat} {w : World} (hn : 0 < n) (hf : ∀ j ∈ jobs, Fine c j) (hg : GoodJobs jobs)
    (h : Reachable c jobs n w) (hready : w.ready = false) : ∃ w', Calm c jobs n w w' := by
  obtain ⟨d, rd, run⟩ := w
  obtain rfl : rd = false := hready
  cases run with
  | none => exact ⟨_, .start, by simp⟩
  | some r =>
    have hok := (reachable_ok hg h).running r rfl
    by_cases hall : ∃ w, w < n ∧ r.workers w ≠ .idle
    · obtain ⟨x, hx, hne⟩ := hall
      have : ∃ j, held (r.workers x) = some j := by
        cases hs : r.workers x with
        | idle => exact absurd hs hne
        | _ => exact ⟨_, rfl⟩
      obtain ⟨j, hj⟩ := this
      have hpos := pos_ok h r rfl x
      obtain ⟨N, hN⟩ := reachable_bounded h
      obtain ⟨d', s', hs⟩ := wstep_exists hj (hf j (hok.heldIn x j hj).1) (fun k => no_raise hf hg h r rfl x k) (hok.ok x)
        (by intro k i pos he hr; rw [he] at hpos; exact hpos hr) (longName j.dest d N hN)
        (by intro k i pos s t he hr; rw [he] at hpos; exact hpos s t hr)
      exact ⟨_, .work hx hs, by simp⟩
    · have hall : ∀ w, w < n → r.workers w = .idle := by
        intro w hw
        by_cases h : r.workers w = .idle
        · exact h
        · exact absurd ⟨w, hw, h⟩ hall
      cases hp : r.pending with
      | nil => exact ⟨_, .finish hp hall, by simp⟩
      | cons j b => exact ⟨_, .take (a := []) hn (hall 0 hn) hp, by simp⟩

theorem star_trans {α : Type} {r : α → α → Prop} {a b c : α} (h : Spec.Star r a b) (h' : Spec.Star r b c) : Spec.Star r a c := by
  induction h' with
  | refl => exact h
  | tail _ h2 ih => exact .tail ih h2

/-- A crash-free continuation reaches the end. -/
theorem calm_finishes {c : Setup} {jobs : List Job} {n : Nat} (hn : 0 < n) (hf : ∀ j ∈ jobs, Fine c j) (hg : GoodJobs jobs) :
    ∀ (k : Nat) (w : World), Reachable c jobs n w → w.left jobs n ≤ k → ∃ w', Spec.Star (Calm c jobs n) w w' ∧ w'.ready = true := by
  intro k
  induction k with
  | zero =>
    intro w h hk
    cases hr : w.ready with
    | true => exact ⟨w, .refl, hr⟩
    | false =>
      obtain ⟨w', hw⟩ := calm_exists hn hf hg h hr
      have := calm_left hw
      omega
  | succ k ih =>
    intro w h hk
    cases hr : w.ready with
    | true => exact ⟨w, .refl, hr⟩
    | false =>
      obtain ⟨w', hw⟩ := calm_exists hn hf hg h hr
      have := calm_left hw
      obtain ⟨v, hv, hvr⟩ := ih w' (.tail h hw.1) (by omega)
      exact ⟨v, star_trans (.tail .refl hw) hv, hvr⟩

end Verif.Pool
