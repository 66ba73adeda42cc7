import Verif.Proofs.WorkersProgress
import Verif.Proofs.WorkersNames
import Verif.Props.FileList
/-!
# Properties of parsing and preprocessing files in parallel (C33)
-/
namespace Verif.Props
open Verif Pool

/-! ## Names -/

/-- **C33** The files found by a scan are good: `roots` are `.` or lists of directories. -/
theorem C33_scanned (exts : Option (List Str)) (es : List WalkEntry) (hroots : (es.map (·.root)).Nodup)
    (hr : ∀ e ∈ es, e.root = [46] ∨ ∃ ds, ds ≠ [] ∧ (∀ d ∈ ds, CleanName d) ∧ e.root = joinSlash ds)
    (hn : ∀ e ∈ es, ∀ f ∈ e.files, CleanName f.1) (hf : ∀ e ∈ es, (e.files.map (·.1)).Nodup) :
    GoodFiles (walkAndSave false exts (.dir es)).yielded := by
  have hlast : ∀ ds : List Bytes, ds ≠ [] → (∀ d ∈ ds, CleanName d) → joinSlash ds ≠ [] ∧ (joinSlash ds).getLast? ≠ some 47 := by
    intro ds hne hds
    obtain ⟨init, l, rfl⟩ : ∃ init l, ds = init ++ [l] := ⟨ds.dropLast, ds.getLast hne, (List.dropLast_concat_getLast hne).symm⟩
    have hl := hds l (by simp)
    have key : ∀ x : Bytes, (x ++ l).getLast? ≠ some 47 := by
      intro x
      rw [List.getLast?_append, List.getLast?_eq_some_getLast hl.1.1, Option.some_or]
      intro e
      exact hl.1.2 (Option.some.inj e ▸ List.getLast_mem _)
    by_cases hi : init = []
    · subst hi
      exact ⟨hl.1.1, key []⟩
    · rw [joinSlash_snoc _ hi]
      refine ⟨by simp, ?_⟩
      have := key (joinSlash init ++ [47])
      rwa [List.append_assoc] at this
  have hplain : ∀ e ∈ es, Spec.PlainRoot e.root := by
    intro e he
    rcases hr e he with h | ⟨ds, h1, h2, h⟩
    · rw [h]; exact ⟨by simp, by decide⟩
    · rw [h]; exact hlast ds h1 h2
  refine ⟨C34_distinct exts es hroots hplain (fun e he f hf => (hn e he f hf).1) hf, fun f hfm => ?_⟩
  obtain ⟨l, hl, -⟩ := ((C34_yielded exts es).1 f).mp hfm
  unfold Spec.foundFiles at hl
  obtain ⟨e, he, hl⟩ := List.mem_flatMap.mp hl
  obtain ⟨x, hx, hxe⟩ := List.mem_map.mp hl
  have hfe : joinPath e.root x.1 = f := (Prod.mk.inj hxe).1
  have hc := hn e he x hx
  have hj := ((C34_join e.root x.1).2 (by
    intro h
    cases hx1 : x.1 with
    | nil => rw [hx1] at h; cases h
    | cons a r => rw [hx1] at h; simp at h; exact hc.1.2 (by rw [hx1, h]; simp))).2.2 (hplain e he)
  rcases hr e he with h | ⟨ds, h1, h2, h⟩
  · exact ⟨[], x.1, by simp, hc, by rw [if_pos rfl, ← hfe, hj, h]; rfl⟩
  · exact ⟨ds, x.1, h2, hc, by rw [if_neg h1, ← hfe, hj, h, List.append_assoc]; rfl⟩

/-- **C33** Parsed files are named like the source files with an ending, preprocessed files with another ending; what is read when
preprocessing is what was written when parsing. -/
theorem C33_names {dirs : List Bytes} {name f : Bytes} (h : FoundAt dirs name f) :
    newName [] parsedExt (iterName [] f) = joinSlash (dirs ++ [name]) ++ parsedExt ∧
    normRel (iterName parsedExt f) = newName [] parsedExt (iterName [] f) ∧
    newName parsedExt prepExt (iterName parsedExt f) = joinSlash (dirs ++ [name]) ++ prepExt :=
  ⟨parseName_found h, (parsedPath_found h).trans (parseName_found h).symm, reprName_found h⟩

/-- **C33** No two files get the same result file, and no result file is named like an unfinished file. -/
theorem C33_good_jobs {files : List Bytes} (h : GoodFiles files) (source : Bytes → Res) (compute : Str → Res) (parsed : Disk) :
    GoodJobs (parseJobs source files) ∧ GoodJobs (reprJobs compute parsed files) :=
  ⟨parseJobs_good source h, reprJobs_good compute parsed h⟩

/-- Two files with the same name in different directories. -/
def demoFiles : List Bytes := ["./a.py".toList, "d/a.py".toList].map encodeUtf8

theorem demoFiles_good : GoodFiles demoFiles := by
  refine ⟨by decide, fun f hf => ?_⟩
  have hf : f = encodeUtf8 "./a.py".toList ∨ f = encodeUtf8 "d/a.py".toList := by simpa [demoFiles] using hf
  have ha : CleanName (encodeUtf8 "a.py".toList) := by unfold CleanName Spec.PlainName; decide
  rcases hf with rfl | rfl
  · exact ⟨[], encodeUtf8 "a.py".toList, by simp, ha, by decide⟩
  · refine ⟨[encodeUtf8 "d".toList], encodeUtf8 "a.py".toList, ?_, ha, by decide⟩
    intro d hd
    simp only [List.mem_singleton] at hd
    subst hd
    unfold CleanName Spec.PlainName
    decide

example : (parseJobs (fun _ => .missing) demoFiles).map (·.dest) = ["a.py.parsed".toList, "d/a.py.parsed".toList].map encodeUtf8 := by
  decide +kernel

/-- Paths are made normal: empty parts and dots are left out. -/
example : normRel (encodeUtf8 "./a//./b".toList) = encodeUtf8 "a/b".toList ∧ normRel (encodeUtf8 "./.".toList) = encodeUtf8 ".".toList := by decide +kernel

/-! ## Crashes -/

/-- **C33** Whatever the workers have done and wherever there were crashes: every result file on the disk is complete. -/
theorem C33_complete {c : Setup} {jobs : List Job} {n : Nat} (hg : GoodJobs jobs) {w : World} (h : Reachable c jobs n w) :
    ∀ j ∈ jobs, ∀ x, w.disk.Has (.out j.dest) x → ∃ t, j.res = .ok x t := by
  rintro j hj x ⟨i, hi, rfl⟩
  have hok := reachable_ok hg h
  cases hr : w.run with
  | none =>
    obtain ⟨⟨s, t, e1, e2⟩, -⟩ := hok.complete hr j hj i hi
    exact ⟨t, by rw [e1, e2]⟩
  | some r =>
    obtain ⟨⟨s, t, e1, e2⟩, -⟩ := (hok.running r hr).complete j hj i hi
    exact ⟨t, by rw [e1, e2]⟩

/-- **C33** A result file that is there is never written again: no step changes or replaces it. -/
theorem C33_not_redone {c : Setup} {jobs : List Job} {n : Nat} (hg : GoodJobs jobs) {w w' : World} (h : Reachable c jobs n w)
    (hs : Spec.Star (Step c jobs n) w w') : ∀ j ∈ jobs, ∀ i, w.disk.dir (.out j.dest) = some i →
      w'.disk.dir (.out j.dest) = some i ∧ w'.disk.data i = w.disk.data i := by
  intro j hj i hi
  induction hs with
  | refl => exact ⟨hi, rfl⟩
  | @tail u v hu hstep ih =>
    obtain ⟨e1, e2⟩ := ih
    have hru : Reachable c jobs n u := star_trans h hu
    cases hstep with
    | @work d d' r x s hx hws =>
      have hok := (reachable_ok hg hru).running r rfl
      obtain ⟨k, hk⟩ := hws.held
      have hkm := (hok.heldIn x k hk).1
      have hf := (wstep_spec hok.disk hk (hok.ok x) hws).2
      have hdata : d'.data i = d.data i := hf.outData _ _ (dest_part hg hj) e1
      by_cases hjk : j = k
      · subst hjk
        have hwok := hok.ok x
        have hnone : ∀ p : Prop, d.dir (.out j.dest) = none → p := by
          intro p hn
          have e1' : d.dir (.out j.dest) = some i := e1
          rw [hn] at e1'
          cases e1'
        generalize r.workers x = s0 at hws hk hwok hf
        cases hws with
        | skip => exact ⟨e1, e2⟩
        | check h => obtain rfl := Option.some.inj hk; exact hnone _ h
        | noSource => obtain rfl := Option.some.inj hk; exact hnone _ hwok
        | openPart => obtain rfl := Option.some.inj hk; exact hnone _ hwok
        | ignore => obtain rfl := Option.some.inj hk; exact hnone _ hwok.1
        | fail => obtain rfl := Option.some.inj hk; exact hnone _ hwok.1
        | write => obtain rfl := Option.some.inj hk; exact hnone _ hwok.1
        | close => obtain rfl := Option.some.inj hk; exact hnone _ hwok.1
        | openTokens => obtain rfl := Option.some.inj hk; exact hnone _ hwok.1
        | writeTokens => obtain rfl := Option.some.inj hk; exact hnone _ hwok.1
        | closeTokens => obtain rfl := Option.some.inj hk; exact hnone _ hwok.1
        | rename => obtain rfl := Option.some.inj hk; exact hnone _ hwok.1
      · have := hf.out j.dest (fun e => hjk (dest_inj hg hj hkm e)) (dest_part hg hj)
        exact ⟨this.trans e1, hdata.trans e2⟩
    | _ => exact ⟨e1, e2⟩

/-- **C33** When the results are marked as ready, there is a result file for every source file, with the text that an uninterrupted
run would write.  There is no result for missing source files, which are only tolerated when parsing; no file has failed. -/
theorem C33_ready {c : Setup} {jobs : List Job} {n : Nat} (hg : GoodJobs jobs) {w : World} (h : Reachable c jobs n w) (hr : w.ready = true) :
    ∀ j ∈ jobs, (∃ s t, j.res = .ok s t ∧ w.disk.Has (.out j.dest) s) ∨
      (j.res = .missing ∧ c.stage = .parse ∧ w.disk.dir (.out j.dest) = none) := by
  intro j hj
  cases hd : w.disk.dir (.out j.dest) with
  | some i =>
    obtain ⟨t, ht⟩ := C33_complete hg h j hj _ ⟨i, hd, rfl⟩
    exact .inl ⟨_, t, ht, i, hd, rfl⟩
  | none =>
    rcases (reachable_ok hg h).finished hr j hj with h1 | ⟨h1, h2⟩
    · exact absurd hd h1
    · exact .inr ⟨h2, h1, rfl⟩

/-- **C33** Nothing else comes into the directory with the results than the results, and unfinished files of results that are not there;
when preprocessing has come to its end, no unfinished files are left. -/
theorem C33_only {c : Setup} {jobs : List Job} {n : Nat} (hg : GoodJobs jobs) {w : World} (h : Reachable c jobs n w) :
    (∀ p, w.disk.dir (.out p) ≠ none → ∃ j ∈ jobs, p = j.dest ∨ p = j.dest ++ partExt ∧ w.disk.dir (.out j.dest) = none) ∧
    (c.stage = .repr → w.ready = true → ∀ p, w.disk.dir (.out p) ≠ none → ∃ j ∈ jobs, p = j.dest) := by
  refine ⟨onlyOwn hg h, fun hs hr p hp => ?_⟩
  obtain ⟨j, hj, e | ⟨-, e⟩⟩ := onlyOwn hg h p hp
  · exact ⟨j, hj, e⟩
  · rcases C33_ready hg h hr j hj with ⟨s, t, -, i, hi, -⟩ | ⟨-, h2, -⟩
    · rw [e] at hi; cases hi
    · rw [hs] at h2; cases h2

/-- **C33** Any two finished histories, with whatever crashes and numbers of workers, have the same result files. -/
theorem C33_same {c : Setup} {jobs : List Job} {n n' : Nat} (hg : GoodJobs jobs) {w w' : World} (h : Reachable c jobs n w)
    (h' : Reachable c jobs n' w') (hr : w.ready = true) (hr' : w'.ready = true) :
    ∀ j ∈ jobs, ∀ x, w.disk.Has (.out j.dest) x ↔ w'.disk.Has (.out j.dest) x := by
  have key : ∀ {n n' : Nat} {w w' : World}, Reachable c jobs n w → Reachable c jobs n' w' → w'.ready = true →
      ∀ j ∈ jobs, ∀ x, w.disk.Has (.out j.dest) x → w'.disk.Has (.out j.dest) x := by
    intro n n' w w' h h' hr' j hj x hx
    obtain ⟨t, ht⟩ := C33_complete hg h j hj x hx
    rcases C33_ready hg h' hr' j hj with ⟨s, t', e1, e2⟩ | ⟨e1, -⟩
    · rw [ht] at e1; cases e1; exact e2
    · rw [ht] at e1; cases e1
  exact fun j hj x => ⟨key h h' hr' j hj x, key h' h hr j hj x⟩

/-- **C33** If no file fails, then after any crashes a further run comes to its end: every sequence of steps without crashes is
finite, it can be continued until the results are ready, and it does not stop before. -/
theorem C33_progress {c : Setup} {jobs : List Job} {n : Nat} (hn : 0 < n) (hg : GoodJobs jobs) (hf : ∀ j ∈ jobs, Fine c j) {w : World}
    (h : Reachable c jobs n w) :
    (∃ w', Spec.Star (Calm c jobs n) w w' ∧ w'.ready = true) ∧
    (w.ready = false → ∃ w', Calm c jobs n w w') ∧
    ¬ ∃ f : Nat → World, f 0 = w ∧ ∀ k, Calm c jobs n (f k) (f (k + 1)) := by
  refine ⟨calm_finishes hn hf hg _ w h (Nat.le_refl _), calm_exists hn hf hg h, ?_⟩
  rintro ⟨f, rfl, hfc⟩
  have : ∀ k, (f k).left jobs n + k ≤ (f 0).left jobs n := by
    intro k
    induction k with
    | zero => omega
    | succ k ih => have := calm_left (hfc k); omega
  have := this ((f 0).left jobs n + 1)
  omega

/-- **C33** If processing a file fails, the results never become ready. -/
theorem C33_failure {c : Setup} {jobs : List Job} {n : Nat} (hg : GoodJobs jobs) {j : Job} (hj : j ∈ jobs) (hf : ¬ Fine c j) {w : World}
    (h : Reachable c jobs n w) : w.ready = false := by
  cases hr : w.ready with
  | false => rfl
  | true =>
    exfalso
    refine hf ⟨fun e => ?_, fun hs e => ?_⟩
    · rcases C33_ready hg h hr j hj with ⟨s, t, e1, -⟩ | ⟨e1, -⟩
      · rw [e] at e1; cases e1
      · rw [e] at e1; cases e1
    · rcases C33_ready hg h hr j hj with ⟨s, t, e1, -⟩ | ⟨-, e1, -⟩
      · rw [e] at e1; cases e1
      · rw [hs] at e1; cases e1

/-- **C33** For every finished file the tokens that are not processed have been saved too, if no two of these files get the same name. -/
theorem C33_tokens {c : Setup} (hs : c.saveTokens = true) (hfr : c.fresh = true) {jobs : List Job} {n : Nat} (hg : GoodJobs jobs) {w : World}
    (h : Reachable c jobs n w) : ∀ j ∈ jobs, w.disk.dir (.out j.dest) ≠ none → ∃ s t p, j.res = .ok s t ∧ w.disk.Has (.side p) t := by
  intro j hj hd
  have hok := reachable_ok hg h
  cases hi : w.disk.dir (.out j.dest) with
  | none => exact absurd hi hd
  | some i =>
    cases hr : w.run with
    | none =>
      obtain ⟨s, t, p, k, e1, e2, e3, -⟩ := (hok.complete hr j hj i hi).2 hs hfr
      exact ⟨s, t, p, e1, k, e2, e3⟩
    | some r =>
      obtain ⟨s, t, p, k, e1, e2, e3, -⟩ := ((hok.running r hr).complete j hj i hi).2 hs hfr
      exact ⟨s, t, p, e1, k, e2, e3⟩

/-! ## Both stages -/

/-- **C33** After parsing without missing files, preprocessing starts from complete parsed files. -/
theorem C33_pipeline {c : Setup} {files : List Bytes} (hfiles : GoodFiles files) (source : Bytes → Res) {n : Nat} {w : World}
    (h : Reachable c (parseJobs source files) n w) (hr : w.ready = true) (hm : ∀ f ∈ files, source f ≠ .missing) (compute : Str → Res) :
    ∀ f ∈ files, ∃ s t, source f = .ok s t ∧ fromParsed compute w.disk (iterName parsedExt f) = compute s := by
  intro f hf
  obtain ⟨ds, nm, hfound⟩ := hfiles.2 f hf
  rcases C33_ready (parseJobs_good source hfiles) h hr _ (List.mem_map_of_mem (f := fun f => Job.mk (newName [] parsedExt (iterName [] f)) (source f)) hf)
    with ⟨s, t, e1, i, e2, e3⟩ | ⟨e1, -⟩
  · refine ⟨s, t, e1, ?_⟩
    unfold fromParsed
    rw [(C33_names hfound).2.1]
    simp only at e2
    rw [e2]
    simp only [e3]
  · exact absurd e1 (hm f hf)

/-- **C33, the missing part is false** A source file that is missing, since it was removed after the list of files was saved, is
ignored when parsing; but then preprocessing never comes to its end. -/
theorem C33_missing_violated {c c' : Setup} (hs' : c'.stage = .repr) {files : List Bytes} (hfiles : GoodFiles files)
    (source : Bytes → Res) {n n' : Nat} {w : World} (h : Reachable c (parseJobs source files) n w) (hr : w.ready = true) {f : Bytes} (hf : f ∈ files)
    (hm : source f = .missing) (compute : Str → Res) {w' : World} (h' : Reachable c' (reprJobs compute w.disk files) n' w') : w'.ready = false := by
  obtain ⟨ds, nm, hfound⟩ := hfiles.2 f hf
  refine C33_failure (reprJobs_good compute w.disk hfiles)
    (List.mem_map_of_mem (f := fun f => Job.mk (newName parsedExt prepExt (iterName parsedExt f)) (fromParsed compute w.disk (iterName parsedExt f))) hf) ?_ h'
  rintro ⟨-, h2⟩
  refine h2 hs' ?_
  rcases C33_ready (parseJobs_good source hfiles) h hr _ (List.mem_map_of_mem (f := fun f => Job.mk (newName [] parsedExt (iterName [] f)) (source f)) hf)
    with ⟨s, t, e1, -⟩ | ⟨-, -, e⟩
  · simp only [hm] at e1; cases e1
  · simp only at e ⊢
    unfold fromParsed
    rw [(C33_names hfound).2.1, e]

/-! ## Concrete histories -/

/-- The settings of preprocessing with a vocabulary of unprocessed tokens, when no two of their files get the same name. -/
def reprSetup : Setup := ⟨.repr, true, true⟩

/-- The jobs for `demoFiles`, when preprocessing: texts and tokens. -/
def demoJobs : List Job :=
  [⟨encodeUtf8 "a.py.prep".toList, .ok "ab".toList "t".toList⟩, ⟨encodeUtf8 "d/a.py.prep".toList, .ok "cd".toList "t".toList⟩]

example : demoJobs.map (·.dest) = demoFiles.map fun f => newName parsedExt prepExt (iterName parsedExt f) := by decide +kernel

/-- Steps without crashes are steps. -/
theorem calm_star {c : Setup} {jobs : List Job} {n : Nat} {w w' : World} (h : Spec.Star (Calm c jobs n) w w') : Spec.Star (Step c jobs n) w w' := by
  induction h with
  | refl => exact .refl
  | tail _ h ih => exact .tail ih h.1

theorem demoJobs_good : GoodJobs demoJobs := ⟨by decide, by decide +kernel⟩

theorem demoJobs_fine : ∀ j ∈ demoJobs, Fine reprSetup j := by
  intro j hj
  rcases List.mem_cons.mp hj with rfl | hj
  · exact ⟨by simp, by simp⟩
  · rcases List.mem_singleton.mp hj with rfl
    exact ⟨by simp, by simp⟩

/-- What a crash leaves is overwritten: after a crash during writing, the results become ready, with the complete texts. -/
example : ∃ w u, Reachable reprSetup demoJobs 2 w ∧ w.disk.Has (partOf (encodeUtf8 "a.py.prep".toList)) "a".toList ∧ w.run.isNone = true ∧
    Spec.Star (Step reprSetup demoJobs 2) w u ∧ u.ready = true ∧ u.disk.Has (.out (encodeUtf8 "a.py.prep".toList)) "ab".toList ∧
    u.disk.Has (.out (encodeUtf8 "d/a.py.prep".toList)) "cd".toList := by
  have s0 : Reachable reprSetup demoJobs 2 World.init := .refl
  have s1 := Spec.Star.tail s0 .start
  have s2 := s1.tail (.take (w := 1) (a := []) (by decide) rfl rfl)
  have s3 := s2.tail (.work (w := 1) (by decide) (.check rfl))
  have s4 := s3.tail (.work (w := 1) (by decide) (.openPart (by decide)))
  have s5 := s4.tail (.work (w := 1) (by decide) (.write 1 rfl (by decide) (by decide)))
  have s6 := s5.tail .crash
  obtain ⟨⟨u, hu, hur⟩, -, -⟩ := C33_progress (by decide) demoJobs_good demoJobs_fine s6
  have hu' := calm_star hu
  have hr := star_trans s6 hu'
  refine ⟨_, u, s6, ⟨0, by decide +kernel, by decide +kernel⟩, rfl, hu', hur, ?_, ?_⟩
  · rcases C33_ready demoJobs_good hr hur ⟨encodeUtf8 "a.py.prep".toList, .ok "ab".toList "t".toList⟩ (by simp [demoJobs])
      with ⟨s, t, e1, e2⟩ | ⟨e1, -⟩
    · cases e1; exact e2
    · cases e1
  · rcases C33_ready demoJobs_good hr hur ⟨encodeUtf8 "d/a.py.prep".toList, .ok "cd".toList "t".toList⟩ (by simp [demoJobs])
      with ⟨s, t, e1, e2⟩ | ⟨e1, -⟩
    · cases e1; exact e2
    · cases e1

/-- A short job. -/
def shortJob (name : Str) (text tokens : Str) : Job := ⟨encodeUtf8 name, .ok text tokens⟩

/-- **C33, the missing part is false** Two programs that preprocess the same dataset at the same time, here two workers that are given the
same file, can leave an empty result file, and it stays empty in further runs, up to the end. -/
theorem C33_two_programs_violated :
    ∃ w, Reachable ⟨.repr, false, true⟩ [shortJob "p".toList "ab".toList [], shortJob "p".toList "ab".toList []] 2 w ∧ w.ready = true ∧
      w.disk.Has (.out (encodeUtf8 "p".toList)) [] := by
  have s0 : Reachable ⟨.repr, false, true⟩ [shortJob "p".toList "ab".toList [], shortJob "p".toList "ab".toList []] 2 World.init := .refl
  have s1 := Spec.Star.tail s0 .start
  have s2 := s1.tail (.take (w := 0) (a := []) (by decide) rfl rfl)
  have s3 := s2.tail (.take (w := 1) (a := []) (by decide) rfl rfl)
  have s4 := s3.tail (.work (w := 0) (by decide) (.check rfl))
  have s5 := s4.tail (.work (w := 1) (by decide) (.check rfl))
  have s6 := s5.tail (.work (w := 0) (by decide) (.openPart (by decide)))
  have s7 := s6.tail (.work (w := 0) (by decide) (.write 2 rfl (by decide) (by decide)))
  have s8 := s7.tail (.work (w := 0) (by decide) (.close rfl (by decide)))
  have s9 := s8.tail (.work (w := 1) (by decide) (.openPart (by decide)))
  have s10 := s9.tail (.work (w := 0) (by decide) .rename)
  have s11 := s10.tail .crash
  have s12 := s11.tail .start
  have s13 := s12.tail (.take (w := 0) (a := []) (by decide) rfl rfl)
  have s14 := s13.tail (.work (w := 0) (by decide) (.skip (by decide +kernel)))
  have s15 := s14.tail (.take (w := 0) (a := []) (by decide) rfl rfl)
  have s16 := s15.tail (.work (w := 0) (by decide) (.skip (by decide +kernel)))
  have s17 := s16.tail (.finish rfl (by decide))
  exact ⟨_, s17, rfl, 0, by decide +kernel, by decide +kernel⟩

/-- **C33, the missing part is false** The name of a file with tokens is made from the base name of the result and the time.  When two
workers save the tokens of files with the same base name at the same time, the tokens of one of them are lost, and the results are
ready without them. -/
theorem C33_tokens_violated :
    ∃ w, Reachable ⟨.repr, true, false⟩ [shortJob "d/p".toList [] "t".toList, shortJob "e/p".toList [] "u".toList] 2 w ∧ w.ready = true ∧
      ∀ p, ¬ w.disk.Has (.side p) "t".toList := by
  have s0 : Reachable ⟨.repr, true, false⟩ [shortJob "d/p".toList [] "t".toList, shortJob "e/p".toList [] "u".toList] 2 World.init := .refl
  have s1 := Spec.Star.tail s0 .start
  have s2 := s1.tail (.take (w := 0) (a := []) (by decide) rfl rfl)
  have s3 := s2.tail (.take (w := 1) (a := []) (by decide) rfl rfl)
  have s4 := s3.tail (.work (w := 0) (by decide) (.check rfl))
  have s5 := s4.tail (.work (w := 1) (by decide) (.check rfl))
  have s6 := s5.tail (.work (w := 0) (by decide) (.openPart (by decide)))
  have s7 := s6.tail (.work (w := 1) (by decide) (.openPart (by decide)))
  have s8 := s7.tail (.work (w := 0) (by decide) (.close rfl (by decide)))
  have s9 := s8.tail (.work (w := 1) (by decide) (.close rfl (by decide)))
  have s10 := s9.tail (.work (w := 0) (by decide) (.openTokens "1.5".toList (by decide)))
  have s11 := s10.tail (.work (w := 0) (by decide) (.writeTokens 1 rfl (by decide) (by decide)))
  have s12 := s11.tail (.work (w := 0) (by decide) (.closeTokens rfl (by decide)))
  have s13 := s12.tail (.work (w := 1) (by decide) (.openTokens "1.5".toList (by decide)))
  have s14 := s13.tail (.work (w := 1) (by decide) (.writeTokens 1 rfl (by decide) (by decide)))
  have s15 := s14.tail (.work (w := 1) (by decide) (.closeTokens rfl (by decide)))
  have s16 := s15.tail (.work (w := 0) (by decide) .rename)
  have s17 := s16.tail (.work (w := 1) (by decide) .rename)
  have s18 := s17.tail (.finish rfl (by decide))
  refine ⟨_, s18, rfl, ?_⟩
  rintro p ⟨i, -, hi⟩
  match i with
  | 0 => exact absurd hi (by decide +kernel)
  | 1 => exact absurd hi (by decide +kernel)
  | 2 => exact absurd hi (by decide +kernel)
  | k + 3 => exact absurd (show ([] : Str) = "t".toList from hi) (by decide)

/-- A file that was removed: parsing comes to its end. -/
example : ∃ w, Reachable ⟨.parse, false, true⟩ (parseJobs (fun _ => .missing) demoFiles) 4 w ∧ w.ready = true := by
  have h0 : Reachable ⟨.parse, false, true⟩ (parseJobs (fun _ => .missing) demoFiles) 4 World.init := .refl
  obtain ⟨⟨u, hu, hur⟩, -, -⟩ := C33_progress (by decide) (parseJobs_good _ demoFiles_good)
    (by intro j hj; obtain ⟨f, -, rfl⟩ := List.mem_map.mp hj; exact ⟨by simp, by simp⟩) h0
  exact ⟨u, calm_star hu, hur⟩

end Verif.Props
