import Verif.Proofs.Live
/-!
# C84: a dataset that changes
-/
namespace Verif.Props
open Verif Verif.Live

variable {parse : Bytes → Str → Str} {repr : Str → Str → Str}

/-- C84, partial.  If every change of the dataset gave it a time that it never had before, then a call that returns, and that began
after the last change, leaves exactly the results for the dataset; whatever was changed before, also while earlier calls were running,
and wherever these were killed. -/
theorem C84_current_partial {past : List Stage.RDir} {w : World} {c : Call} (h : History parse repr past w) (hn : Noticed past)
    (hr : w.pc = .returned c) (ht : Stage.timestamp w.src = .ok c.time) :
    (w.prep c).results.Perm (expected parse repr c.out w.src) := by
  have hg := (h.inv hn).good c.time ht
  rw [hr] at hg
  exact (hg.1.prep c.out).perm h.proper (hg.2 rfl)

/-- C84.  After noticed changes every call can finish, and then it leaves the results for the dataset. -/
theorem C84_finishes {past : List Stage.RDir} {w : World} (h : History parse repr past w) (hn : Noticed past) (ho : w.pc = .off)
    (out : Str) (caching : Bool) :
    ∃ t w', Stage.timestamp w.src = .ok t ∧ Steps parse repr w w' ∧ w'.src = w.src ∧ w'.pc = .returned ⟨t, out, caching⟩ ∧
      (w'.prep ⟨t, out, caching⟩).results.Perm (expected parse repr out w.src) := by
  obtain ⟨t, ht⟩ := Stage.timestamp_ok w.src
  have s1 := Steps.one (Step.begin (parse := parse) (repr := repr) out caching ho ht)
  obtain ⟨u, hu, hpu⟩ := parse_run (parse := parse) (repr := repr) (c := ⟨t, out, caching⟩)
    { w with pc := .parse ⟨t, out, caching⟩ } rfl
  have s2 := s1.trans hu
  obtain ⟨v, hv, hpv⟩ := prep_run hn u (h.steps s2) hpu (by rw [s2.src]; exact ht)
  have s3 := s2.trans hv
  have hr := C84_current_partial (h.steps s3) hn hpv (by rw [s3.src]; exact ht)
  rw [s3.src] at hr
  exact ⟨t, v, ht, s3, s3.src, hpv, hr⟩

/-- C84.  A call fails only if the dataset was changed while it was running. -/
theorem C84_fails {past : List Stage.RDir} {w : World} {c : Call} {e : PyErr} (h : History parse repr past w) (hn : Noticed past)
    (hr : w.pc = .raised c e) : Stage.timestamp w.src ≠ .ok c.time := fun ht => by
  have hg := ((h.inv hn).good c.time ht).2
  rw [hr] at hg
  exact hg rfl

/-- C84.  Whatever happens, each result was made from the contents that the file had at some time. -/
theorem C84_origin {past : List Stage.RDir} {w : World} (h : History parse repr past w) (t : Nat) (out : Str) (e : Bytes × Str)
    (he : e ∈ ((w.cache t).prep out).results) :
    ∃ s ∈ past, ∃ f ∈ s.files, e = (f.name, repr out (parse f.name f.content)) := h.origin.prep t out e he

/-- C84.  Results that a call has left are never changed: those for an earlier time of the dataset can still be used. -/
theorem C84_kept {past : List Stage.RDir} {u w : World} (h : History parse repr past u) (hl : Later parse repr u w) (t : Nat) (out : Str)
    (hm : ((u.cache t).prep out).mark = .full) : (w.cache t).prep out = (u.cache t).prep out := by
  have key : (∃ past', History parse repr past' w) ∧ (w.cache t).prep out = (u.cache t).prep out := by
    induction hl with
    | refl => exact ⟨⟨past, h⟩, rfl⟩
    | step _ hs ih =>
      obtain ⟨⟨past', hv⟩, e⟩ := ih
      exact ⟨⟨past', hv.step hs⟩, (hv.markOk.kept hs t out (by rw [e]; exact hm)).trans e⟩
    | change _ hd ih =>
      obtain ⟨⟨past', hv⟩, e⟩ := ih
      exact ⟨⟨_, hv.change hd⟩, e⟩
  exact key.2

/-- The results of a call that has returned are marked. -/
theorem C84_marked {past : List Stage.RDir} {w : World} {c : Call} (h : History parse repr past w) (hr : w.pc = .returned c) :
    (w.prep c).mark = .full := by
  induction h generalizing c with
  | init _ => exact absurd hr nofun
  | change _ _ ih => exact ih hr
  | step _ hs _ =>
    cases hs with
    | @prepFound c' hpc hm =>
      rw [← Pc.returned.inj hr]; exact hm
    | @prepStamp c' hpc =>
      rw [← Pc.returned.inj hr]; exact congrArg Place.mark (prep_putPrep _ _ _ _)
    | @parseDone c' hpc =>
      by_cases hc : c'.caching = true
      · simp only [if_pos hc] at hr; exact absurd hr nofun
      · simp only [if_neg hc] at hr; exact absurd hr nofun
    | _ => exact absurd hr nofun

/-- C84.  Changes that leave a file that is newer than all files before, among at most 1000, are noticed. -/
theorem C84_newer {past : List Stage.RDir} (h : Newer past) : Noticed past := by
  induction past with
  | nil => exact List.nodup_nil
  | cons d past ih =>
    obtain ⟨hl, ⟨f, hf, hg⟩, hne, hr⟩ := h
    refine List.nodup_cons.mpr ⟨fun hm => ?_, ih hr⟩
    obtain ⟨p, hp, e⟩ := List.mem_map.mp hm
    obtain ⟨t, ht⟩ := Stage.timestamp_ok d
    have h1 := Stage.timestamp_ge hf hl ht
    rw [ht] at e
    unfold Stage.timestamp at e
    rw [if_neg (hne p hp), C51_time] at e
    obtain ⟨g, hgp, eg⟩ : ∃ g ∈ p.files, g.mtime = t := by
      have := List.mem_of_mem_take e.1
      rw [Stage.allTimes_files] at this
      exact List.mem_map.mp this
    have := hg p hp g hgp
    omega

/-! ## A dataset -/

/-- A dataset. -/
def live1 : Stage.RDir := ⟨0, [⟨[97], "x".toList, 5⟩, ⟨[98], "x".toList, 3⟩]⟩
/-- Both files have been changed. -/
def live2 : Stage.RDir := ⟨0, [⟨[97], "y".toList, 9⟩, ⟨[98], "y".toList, 9⟩]⟩
/-- A file has been removed. -/
def live3 : Stage.RDir := ⟨0, [⟨[97], "x".toList, 5⟩]⟩
/-- A file has been changed. -/
def live4 : Stage.RDir := ⟨0, [⟨[97], "y".toList, 9⟩]⟩

theorem live_proper : Proper live1 ∧ Proper live2 ∧ Proper live3 ∧ Proper live4 := by
  refine ⟨?_, ?_, ?_, ?_⟩ <;> (show List.Nodup _; decide)

/-- Nothing is done with the texts. -/
abbrev same : Bytes → Str → Str := fun _ x => x
/-- Nothing is done with the texts. -/
abbrev same' : Str → Str → Str := fun _ x => x

/-- The call. -/
abbrev liveCall : Call := ⟨5, [], true⟩

example : Newer [live2, live1] := by
  refine ⟨by decide, ⟨⟨[97], "y".toList, 9⟩, by decide, by decide⟩, by decide, by decide, ⟨⟨[97], "x".toList, 5⟩, by decide, by decide⟩, by decide, trivial⟩

theorem live_first : ∃ w, History same same' [live1] w ∧ w.src = live1 ∧ w.pc = .off ∧
    w.prep liveCall = ⟨[([97], "x".toList), ([98], "x".toList)], .full⟩ ∧ (w.parsed liveCall).mark = .full := by
  have h0 := History.init (parse := same) (repr := same') live_proper.1
  have h1 := h0.step (.begin (t := 5) [] true rfl (by decide))
  have h2 := h1.step (.parseRun rfl rfl)
  have h3 := h2.step (.parseListed rfl)
  have h4 := h3.step (.parseFile (n := [97]) (a := []) (b := [[98]]) (x := "x".toList) rfl (by decide) rfl)
  have h5 := h4.step (.parseFile (n := [98]) (a := []) (b := []) (x := "x".toList) rfl (by decide) rfl)
  have h6 := h5.step (.parseDone rfl)
  have h7 := h6.step (.parseMark rfl)
  have h8 := h7.step (.parseStamp rfl)
  have h9 := h8.step (.prepRun rfl rfl)
  have h10 := h9.step (.prepListed rfl)
  have h11 := h10.step (.prepFile (n := [97]) (a := []) (b := [[98]]) (x := "x".toList) rfl (by decide) rfl)
  have h12 := h11.step (.prepFile (n := [98]) (a := []) (b := []) (x := "x".toList) rfl (by decide) rfl)
  have h13 := h12.step (.prepDone rfl)
  have h14 := h13.step (.prepMark rfl)
  have h15 := h14.step (.prepStamp rfl)
  have h16 := h15.step .exit
  exact ⟨_, h16, rfl, rfl, rfl, rfl⟩

/-- C84, the missing part is false.  A removed file is not noticed: the next call returns at once, with the result of the file that has been
removed. -/
theorem C84_removed_violated : ∃ w, History same same' [live3, live1] w ∧ w.pc = .returned liveCall ∧ w.src = live3 ∧
    Stage.timestamp live3 = .ok liveCall.time ∧ ¬ (w.prep liveCall).results.Perm (expected same same' liveCall.out live3) := by
  obtain ⟨w, h, hs, hp, hr, hm⟩ := live_first
  have h1 := h.change live_proper.2.2.1
  have h2 := h1.step (.begin (t := 5) [] true hp (show Stage.timestamp live3 = .ok 5 by decide))
  have h3 := h2.step (.parseFound rfl hm)
  have h4 := h3.step (.prepFound rfl (congrArg Place.mark hr))
  refine ⟨_, h4, rfl, rfl, by decide, fun hperm => ?_⟩
  have := hperm.length_eq
  have e := congrArg (fun p : Place => p.results.length) hr
  exact absurd (e.symm.trans this) (by decide)

/-- C84, the missing part is false.  If the dataset is changed while a call is running, the call returns, and the results, which are marked,
are those of no dataset that there was. -/
theorem C84_during_violated : ∃ w, History same same' [live2, live1] w ∧ Noticed [live2, live1] ∧ w.pc = .returned liveCall ∧
    (w.prep liveCall).mark = .full ∧ ∀ s ∈ [live2, live1], ¬ (w.prep liveCall).results.Perm (expected same same' liveCall.out s) := by
  have h0 := History.init (parse := same) (repr := same') live_proper.1
  have h1 := h0.step (.begin (t := 5) [] true rfl (by decide))
  have h2 := h1.step (.parseRun rfl rfl)
  have h3 := h2.step (.parseListed rfl)
  have h4 := h3.step (.parseFile (n := [97]) (a := []) (b := [[98]]) (x := "x".toList) rfl (by decide) rfl)
  have h4 := h4.change live_proper.2.1
  have h5 := h4.step (.parseFile (n := [98]) (a := []) (b := []) (x := "y".toList) rfl (by decide) rfl)
  have h6 := h5.step (.parseDone rfl)
  have h7 := h6.step (.parseMark rfl)
  have h8 := h7.step (.parseStamp rfl)
  have h9 := h8.step (.prepRun rfl rfl)
  have h10 := h9.step (.prepListed rfl)
  have h11 := h10.step (.prepFile (n := [97]) (a := []) (b := [[98]]) (x := "x".toList) rfl (by decide) rfl)
  have h12 := h11.step (.prepFile (n := [98]) (a := []) (b := []) (x := "y".toList) rfl (by decide) rfl)
  have h13 := h12.step (.prepDone rfl)
  have h14 := h13.step (.prepMark rfl)
  have h15 := h14.step (.prepStamp rfl)
  refine ⟨_, h15, ?_, rfl, rfl, fun s hs hperm => ?_⟩
  · show List.Nodup _; decide
  · have h1 : (([97], "x".toList) : Bytes × Str) ∈ expected same same' [] s := hperm.mem_iff.mp (List.mem_cons_self)
    have h2 : (([98], "y".toList) : Bytes × Str) ∈ expected same same' [] s := hperm.mem_iff.mp (List.mem_cons_of_mem _ List.mem_cons_self)
    rcases List.mem_cons.mp hs with e | hs
    · subst e; exact absurd h1 (by decide)
    · rw [List.mem_singleton.mp hs] at h2; exact absurd h2 (by decide)

/-- C84, the missing part is false.  A file is changed while a call is running, and then restored together with its time: all later calls
return at once with the result of the changed file. -/
theorem C84_restored_violated : ∃ w, History same same' [live3, live4, live3] w ∧ w.pc = .returned liveCall ∧ w.src = live3 ∧
    Stage.timestamp live3 = .ok liveCall.time ∧ (w.prep liveCall).results = expected same same' liveCall.out live4 ∧
    (w.prep liveCall).results ≠ expected same same' liveCall.out live3 := by
  have h0 := History.init (parse := same) (repr := same') live_proper.2.2.1
  have h1 := h0.step (.begin (t := 5) [] true rfl (by decide))
  have h2 := h1.step (.parseRun rfl rfl)
  have h3 := h2.step (.parseListed rfl)
  have h3 := h3.change live_proper.2.2.2
  have h5 := h3.step (.parseFile (n := [97]) (a := []) (b := []) (x := "y".toList) rfl (by decide) rfl)
  have h6 := h5.step (.parseDone rfl)
  have h7 := h6.step (.parseMark rfl)
  have h8 := h7.step (.parseStamp rfl)
  have h9 := h8.step (.prepRun rfl rfl)
  have h10 := h9.step (.prepListed rfl)
  have h12 := h10.step (.prepFile (n := [97]) (a := []) (b := []) (x := "y".toList) rfl (by decide) rfl)
  have h13 := h12.step (.prepDone rfl)
  have h14 := h13.step (.prepMark rfl)
  have h15 := h14.step (.prepStamp rfl)
  have h16 := h15.step .exit
  have h17 := h16.change live_proper.2.2.1
  have h18 := h17.step (.begin (t := 5) [] true rfl (by decide))
  have h19 := h18.step (.parseFound rfl rfl)
  have h20 := h19.step (.prepFound rfl rfl)
  exact ⟨_, h20, rfl, rfl, by decide, rfl, by decide⟩

/-- C84.  A file that is removed after the list of files was made fails the call: there is no parsed file. -/
theorem C84_gone : ∃ w, History same same' [live4, live1] w ∧ Noticed [live4, live1] ∧ w.pc = .raised liveCall .fileNotFound := by
  have h0 := History.init (parse := same) (repr := same') live_proper.1
  have h1 := h0.step (.begin (t := 5) [] true rfl (by decide))
  have h2 := h1.step (.parseRun rfl rfl)
  have h3 := h2.step (.parseListed rfl)
  have h3 := h3.change live_proper.2.2.2
  have h4 := h3.step (.parseFile (n := [97]) (a := []) (b := [[98]]) (x := "y".toList) rfl (by decide) rfl)
  have h5 := h4.step (.parseGone (n := [98]) (a := []) (b := []) rfl (by decide) rfl)
  have h6 := h5.step (.parseDone rfl)
  have h7 := h6.step (.parseMark rfl)
  have h8 := h7.step (.parseStamp rfl)
  have h9 := h8.step (.prepRun rfl rfl)
  have h10 := h9.step (.prepListed rfl)
  have h11 := h10.step (.prepFile (n := [97]) (a := []) (b := [[98]]) (x := "y".toList) rfl (by decide) rfl)
  have h12 := h11.step (.prepMissing (n := [98]) (a := []) (b := []) rfl (by decide) rfl)
  exact ⟨_, h12, by show List.Nodup _; decide, rfl⟩

/-- Both files are changed after a call; the next call leaves the new results, and the old ones are kept. -/
example : ∃ w, History same same' [live2, live1] w ∧ w.pc = .returned ⟨9, [], false⟩ ∧
    (w.prep ⟨9, [], false⟩).results.Perm [([97], "y".toList), ([98], "y".toList)] ∧
    w.prep liveCall = ⟨[([97], "x".toList), ([98], "x".toList)], .full⟩ := by
  obtain ⟨w, h, hs, hp, hr, hm⟩ := live_first
  have h1 := h.change live_proper.2.1
  have hn : Noticed [live2, live1] := by show List.Nodup _; decide
  obtain ⟨t, v, ht, hv, _, e, hperm⟩ := C84_finishes h1 hn hp [] false
  have h9 : Stage.timestamp live2 = .ok 9 := by decide
  have e9 : t = 9 := Except.ok.inj (ht.symm.trans h9)
  subst e9
  have hl : ∀ x, Steps same same' { w with src := live2 } x → Later same same' { w with src := live2 } x := fun x hx => by
    induction hx with
    | refl => exact .refl
    | tail _ hs ih => exact .step ih hs
  exact ⟨v, h1.steps hv, e, hperm, (C84_kept h1 (hl v hv) 5 [] (congrArg Place.mark hr)).trans hr⟩

end Verif.Props
