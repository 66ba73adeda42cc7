import Verif.Proofs.Gather
/-!
# Properties of the collected tokens that are not split (C52)
-/
namespace Verif.Props
open Verif Pool

/-- **C52, a part** Whatever the crashes of the workers are: if the program is not killed while the collected tokens are written, no
token is lost. -/
theorem C52_no_loss_partial {toks : Job → List Str} {jobs : List Job} {n : Nat} (hg : GoodJobs jobs) (ht : SavesTokens toks jobs) {w : GWorld}
    (h : GReachable true jobs n KeepsFinal w) (hd : w.phase = .done) :
    ∃ ws, HasTokens w ws ∧ (∀ j ∈ jobs, ∀ x ∈ toks j, x ∈ ws) ∧ ∀ x ∈ Ph.all, x ∈ ws := by
  have hok := greachable_ok hg ht h
  cases hf : w.final with
  | none => exact absurd hf (hok.some (by rw [hd]; simp))
  | some f =>
    obtain ⟨ws, h1, h2⟩ := hok.late (.inr (.inl hd)) f hf
    exact ⟨ws, ⟨f, hf, h1⟩, h2⟩

/-- **C52, a part** If in addition the program is not killed while a part of a line with a token has been written, then the collected
tokens are exactly the tokens of the files and the placeholders. -/
theorem C52_partial {toks : Job → List Str} {jobs : List Job} {n : Nat} (hg : GoodJobs jobs) (ht : SavesTokens toks jobs) {w : GWorld}
    (h : GReachable true jobs n (fun u v => KeepsFinal u v ∧ KeepsTokens toks u v) w) (hd : w.phase = .done) :
    ∃ ws, HasTokens w ws ∧ ∀ x, x ∈ ws ↔ (∃ j ∈ jobs, x ∈ toks j) ∨ x ∈ Ph.all := by
  obtain ⟨hok, hex⟩ := greachable_exact hg ht h
  cases hf : w.final with
  | none => exact absurd hf (hok.some (by rw [hd]; simp))
  | some f =>
    obtain ⟨ws, h1, h2⟩ := hex.late (.inr (.inl hd)) f hf
    exact ⟨ws, ⟨f, hf, h1⟩, h2⟩

/-- **C52** When the tokens have been collected, later runs of the workers do not write tokens again. -/
theorem C52_not_again {fresh : Bool} {jobs : List Job} {n : Nat} {w : GWorld} (h : Spec.Star (GStep fresh jobs n) GWorld.init w)
    (hp : w.phase = .workers) (hf : w.final ≠ none) (r : Run) (hr : w.pool.run = some r) (v : Nat) :
    (∀ j, r.workers v ≠ .saving j) ∧ ∀ j i pos, r.workers v ≠ .tokens j i pos := by
  induction h generalizing r v with
  | refl => exact absurd rfl hf
  | @tail a b _ h ih =>
    cases h with
    | @pool w w' f h =>
      have ih := ih rfl hf
      cases h with
      | start =>
        obtain rfl := Option.some.inj hr
        exact ⟨fun j h => (by cases h), fun j i pos h => (by cases h)⟩
      | @take d r0 x j a b hw hi hp =>
        obtain rfl := Option.some.inj hr
        by_cases hx : v = x
        · subst hx; simp [Run.set]
        · simp only [Run.set, if_neg hx]
          exact ih r0 rfl v
      | @work d d' r0 x s hw hs =>
        obtain rfl := Option.some.inj hr
        by_cases hx : v = x
        · subst hx
          simp only [Run.set, if_true]
          have ih := ih r0 rfl v
          generalize r0.workers v = s0 at hs ih
          cases hs with
          | close hr hp =>
            have : (runSetup fresh f).saveTokens = false := by
              cases f with
              | none => exact absurd rfl hf
              | some _ => rfl
            simp [this]
          | openTokens => exact absurd rfl (ih.1 _)
          | writeTokens => exact absurd rfl (ih.2 _ _ _)
          | _ => simp
        · simp only [Run.set, if_neg hx]
          exact ih r0 rfl v
      | crash => cases hr
      | finish => cases hr
    | crash => cases hr
    | gatherFails => cases hr
    | _ => cases hp

/-- Steps of the workers are steps of the program. -/
theorem pool_star {fresh : Bool} {jobs : List Job} {n : Nat} {w w' : World} {f : Option Str}
    (h : Spec.Star (Step (runSetup fresh f) jobs n) w w') : Spec.Star (GStep fresh jobs n) ⟨w, f, .workers⟩ ⟨w', f, .workers⟩ := by
  induction h with
  | refl => exact .refl
  | tail _ h ih => exact .tail ih (.pool h)

theorem ready_run {c : Setup} {jobs : List Job} {n : Nat} {w : World} (h : Reachable c jobs n w) (hr : w.ready = true) : w = ⟨w.disk, true, none⟩ := by
  cases h with
  | refl => cases hr
  | tail _ h => cases h <;> first | rfl | cases hr

/-- **C52, a part** After crashes like these the tokens can still be collected: a further run comes to its end. -/
theorem C52_progress_partial {toks : Job → List Str} {jobs : List Job} {n : Nat} (hn : 0 < n) (hg : GoodJobs jobs) (ht : SavesTokens toks jobs)
    (hf : ∀ j ∈ jobs, Fine ⟨.repr, true, true⟩ j) {w : GWorld} (h : GReachable true jobs n (fun u v => KeepsFinal u v ∧ KeepsTokens toks u v) w)
    (hp : w.phase = .workers) (hfin : w.final = none) :
    ∃ w', Spec.Star (fun u v => GStep true jobs n u v ∧ KeepsFinal u v ∧ KeepsTokens toks u v) w w' ∧ w'.phase = .done := by
  obtain ⟨hok, hex⟩ := greachable_exact hg ht h
  obtain ⟨pool, final, phase⟩ := w
  simp only at hp hfin
  subst hp hfin
  have hr : Reachable ⟨.repr, true, true⟩ jobs n pool := hok.early rfl rfl
  obtain ⟨⟨u, hu, hur⟩, -, -⟩ := C33_progress hn hg hf hr
  have hside : SideOk toks jobs u := by
    have h0 : SideOk toks jobs pool := hex.early rfl rfl
    clear hok hex h hur
    induction hu with
    | refl => exact h0
    | tail hu hs ih =>
      exact side_step hg ht (star_trans hr (calm_star hu)) ih hs.1 (fun r h1 h2 h3 => absurd ⟨by rw [h1]; simp, h2, h3⟩ hs.2)
  have hru : Reachable ⟨.repr, true, true⟩ jobs n u := star_trans hr (calm_star hu)
  have hs1 : Spec.Star (fun u v => GStep true jobs n u v ∧ KeepsFinal u v ∧ KeepsTokens toks u v) ⟨pool, none, .workers⟩ ⟨u, none, .workers⟩ := by
    clear hru hside hur hok hex h hr
    induction hu with
    | refl => exact .refl
    | tail _ hs ih =>
      refine .tail ih ⟨.pool hs.1, ⟨fun _ _ hp => (nomatch hp), fun r h1 h2 h3 => absurd ⟨?_, h2, h3⟩ hs.2⟩⟩
      simp only at h1
      rw [h1]
      simp
  rw [ready_run hru hur] at hs1 hside
  obtain ⟨d', set, -, -, -, -, hs2⟩ := gather_finishes (fresh := true) (jobs := jobs) (n := n) (reachable_ok hg hru).disk (fun p i hi => by
    rcases hside p i hi with ⟨r, e, -⟩ | ⟨j, hj, k, hk⟩
    · cases e
    · exact ⟨_, by rw [show u.disk.data i = _ from hk]; exact C13_token_set_roundtrip _ ((ht j hj).1.sublist (List.take_sublist _ _))⟩)
  refine ⟨_, star_trans hs1 (gon_star_keeps toks hs2), rfl⟩

/-! ## Violations -/

/-- A file with the tokens `foo` and `é`. -/
def tokenJob : Job := shortJob "p".toList [] (dumpTokenSet ["foo".toList, ['é']])

/-- The tokens of `tokenJob`. -/
def tokenToks : Job → List Str := fun _ => ["foo".toList, ['é']]

theorem tokenJob_good : GoodJobs [tokenJob] := ⟨by decide, by decide +kernel⟩

theorem tokenJob_saves : SavesTokens tokenToks [tokenJob] := by
  intro j hj
  obtain rfl := List.mem_singleton.mp hj
  exact ⟨by decide, fun s t h => by cases h; rfl⟩

theorem tokenJob_fine : ∀ j ∈ [tokenJob], Fine ⟨.repr, true, true⟩ j := by
  intro j hj
  obtain rfl := List.mem_singleton.mp hj
  exact ⟨by simp [tokenJob, shortJob], by simp [tokenJob, shortJob]⟩

/-- Non-vacuity: such a run exists. -/
example : ∃ w', GReachable true [tokenJob] 3 (fun u v => KeepsFinal u v ∧ KeepsTokens tokenToks u v) w' ∧ w'.phase = .done :=
  C52_progress_partial (by decide) tokenJob_good tokenJob_saves tokenJob_fine .refl rfl rfl

/-- **C52 is false** If the program is killed when the file for the collected tokens has just been opened, the file stays empty: further
runs come to their end and take it as it is. -/
theorem C52_gather_violated : ∃ w, Spec.Star (GStep true [tokenJob] 1) GWorld.init w ∧ w.phase = .done ∧ HasTokens w [] := by
  obtain ⟨⟨u, hu, hur⟩, -, -⟩ := C33_progress (n := 1) (by decide) tokenJob_good tokenJob_fine (w := World.init) .refl
  have hru : Reachable ⟨.repr, true, true⟩ [tokenJob] 1 u := calm_star hu
  have hs1 : Spec.Star (GStep true [tokenJob] 1) GWorld.init ⟨u, none, .workers⟩ := pool_star (f := none) (calm_star hu)
  have hdest : u.disk.dir (.out tokenJob.dest) ≠ none := by
    rcases C33_ready tokenJob_good hru hur tokenJob (by simp) with ⟨s, t, -, i, hi, -⟩ | ⟨e, -⟩
    · rw [hi]; simp
    · cases e
  have hw := ready_run hru hur
  have hok := (reachable_ok tokenJob_good hru).disk
  have hside : SideOk tokenToks [tokenJob] u := by
    clear hok hw hdest hs1 hru hur
    induction hu with
    | refl => intro p i hi; cases hi
    | tail hu hs ih =>
      exact side_step tokenJob_good tokenJob_saves (calm_star hu) ih hs.1 (fun r h1 h2 h3 => absurd ⟨by rw [h1]; simp, h2, h3⟩ hs.2)
  rw [hw] at hs1 hside
  obtain ⟨files, f1, f2, f3⟩ := listing_exists hok
  obtain ⟨s, hs⟩ := gatherLoop_total (files.map (·.2)) [] (fun t ht => by
    obtain ⟨j, -, k, -, h⟩ := side_texts tokenJob_saves hside f3 t ht
    exact ⟨_, h⟩)
  have hset : gatherTokens (files.map (·.2)) = .ok (Ph.all.foldl setAdd s) := by unfold gatherTokens; rw [hs]; rfl
  have s2 := hs1.tail (.gather f1 f2 f3 hset (List.Perm.refl _))
  have s3 := s2.tail (.crash (by simp))
  have p1 : Spec.Star (Step (runSetup true (some [])) [tokenJob] 1) ⟨u.disk, false, none⟩ _ := .tail .refl .start
  have p2 := p1.tail (.take (w := 0) (a := []) (by decide) rfl rfl)
  have p3 := p2.tail (.work (w := 0) (by decide) (.skip hdest))
  have p4 := p3.tail (.finish rfl (by decide))
  have s4 := star_trans s3 (pool_star p4)
  exact ⟨_, s4.tail .known, rfl, [], rfl, by decide⟩

/-- **C52 is false** If the program is killed while a worker writes a token, the first part of the token is collected as a token. -/
theorem C52_cut_token_violated :
    ∃ w ws, Spec.Star (GStep true [tokenJob] 1) GWorld.init w ∧ w.phase = .done ∧ HasTokens w ws ∧ "fo".toList ∈ ws := by
  have s0 : Reachable ⟨.repr, true, true⟩ [tokenJob] 1 World.init := .refl
  have s1 := Spec.Star.tail s0 .start
  have s2 := s1.tail (.take (w := 0) (a := []) (by decide) rfl rfl)
  have s3 := s2.tail (.work (w := 0) (by decide) (.check rfl))
  have s4 := s3.tail (.work (w := 0) (by decide) (.openPart (by decide)))
  have s5 := s4.tail (.work (w := 0) (by decide) (.close rfl (by decide)))
  have s6 := s5.tail (.work (w := 0) (by decide) (.openTokens "1.5".toList (by decide +kernel)))
  have s7 := s6.tail (.work (w := 0) (by decide) (.writeTokens 2 rfl (by decide) (by decide)))
  have s8 := s7.tail .crash
  have s9 := s8.tail .start
  have s10 := s9.tail (.take (w := 0) (a := []) (by decide) rfl rfl)
  have s11 := s10.tail (.work (w := 0) (by decide) (.check (by decide +kernel)))
  have s12 := s11.tail (.work (w := 0) (by decide) (.openPart (by decide)))
  have s13 := s12.tail (.work (w := 0) (by decide) (.close rfl (by decide)))
  have s14 := s13.tail (.work (w := 0) (by decide) (.openTokens "2.5".toList (by decide +kernel)))
  have s15 := s14.tail (.work (w := 0) (by decide) (.writeTokens 9 rfl (by decide) (by decide)))
  have s16 := s15.tail (.work (w := 0) (by decide) (.closeTokens rfl (by decide)))
  have s17 := s16.tail (.work (w := 0) (by decide) .rename)
  have s18 := s17.tail (.finish rfl (by decide))
  have hok := (reachable_ok tokenJob_good s18).disk
  obtain ⟨d', set, -, -, hnd, hset, hs⟩ := gather_finishes (fresh := true) (jobs := [tokenJob]) (n := 1) hok (fun p i hi => by
    have hlt : i < 3 := hok.lt _ _ hi
    match i, hlt with
    | 0, _ => exact ⟨[], by decide +kernel⟩
    | 1, _ => exact ⟨["fo".toList], by decide +kernel⟩
    | 2, _ => exact ⟨["foo".toList, ['é']], by decide +kernel⟩)
  refine ⟨_, set, star_trans (pool_star (f := none) s18) (gon_star hs), rfl, ⟨_, rfl, C13_token_set_roundtrip set hnd⟩, ?_⟩
  rw [hset]
  exact .inl ⟨"b'p'_-_1.5".toList, 1, ["fo".toList], by decide +kernel, by decide +kernel, by simp⟩

/-- **C52 is false** If the program is killed while a worker writes a token with a letter that is not ASCII, the file with tokens may not
be readable; then no further run ever comes to its end. -/
theorem C52_cut_escape_violated :
    ∃ w, Spec.Star (GStep true [tokenJob] 1) GWorld.init w ∧ ∀ w', Spec.Star (GStep true [tokenJob] 1) w w' → w'.phase = .workers ∧ w'.final = none := by
  have s0 : Reachable ⟨.repr, true, true⟩ [tokenJob] 1 World.init := .refl
  have s1 := Spec.Star.tail s0 .start
  have s2 := s1.tail (.take (w := 0) (a := []) (by decide) rfl rfl)
  have s3 := s2.tail (.work (w := 0) (by decide) (.check rfl))
  have s4 := s3.tail (.work (w := 0) (by decide) (.openPart (by decide)))
  have s5 := s4.tail (.work (w := 0) (by decide) (.close rfl (by decide)))
  have s6 := s5.tail (.work (w := 0) (by decide) (.openTokens "1.5".toList (by decide +kernel)))
  have s7 := s6.tail (.work (w := 0) (by decide) (.writeTokens 7 rfl (by decide) (by decide)))
  have s8 := s7.tail .crash
  refine ⟨_, pool_star (f := none) s8, fun w' h => ?_⟩
  have hb : Broken [tokenJob] 1 "b'p'_-_1.5".toList w' := by
    induction h with
    | refl => exact ⟨rfl, rfl, s8, 1, .valueError, by decide +kernel, by decide +kernel, by simp⟩
    | tail _ hs ih => exact broken_step tokenJob_good ih hs
  exact ⟨hb.phase, hb.final⟩

end Verif.Props
