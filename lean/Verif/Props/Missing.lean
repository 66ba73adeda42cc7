import Verif.Props.Corpus
import Verif.Props.FileList
import Verif.Props.LearnDisk
/-!
# Missing parsed files (C60), crashed listings (C34), directories without merges and killed learning runs (C59)
-/
namespace Verif.Props
open Verif Spec Corpus Stage

/-! ## C60: a parsed file is missing -/

theorem prepResults_mem {names : List Bytes} {repr : Str → Str → Str} {cfg : Str} {files : List RFile} {r : Bytes × Str}
    (h : r ∈ prepResults names repr cfg files) : ∃ f ∈ files, r = (f.name, repr cfg f.content) ∧ f.name ∈ names := by
  obtain ⟨n, hn, h⟩ := List.mem_filterMap.1 h
  rcases hf : files.find? (·.name = n) with _ | f
  · rw [hf] at h; cases h
  · rw [hf] at h
    have h1 : f.name = n := by simpa using List.find?_some hf
    refine ⟨f, List.mem_of_find?_eq_some hf, ?_, h1 ▸ hn⟩
    rw [h1]
    exact (Option.some.inj h).symm

/-- The results that are still to be computed belong to parsed files. -/
def TodoOk (w : CWorld) (repr : Str → Str → Str) (c : Call) (p : List (Bytes × Str)) : Prop :=
  ∀ r ∈ p, ∃ f ∈ filesOf w.parsed.dir, r = (f.name, repr c.cfg f.content)

/-- **C60** If a file of the dataset has neither a result nor a parsed file while the results are computed, the call does not finish:
it ends with `FileNotFoundError`, or it exits if there is not even a directory of parsed files, unless it is killed before.  Until then results of other files are still written, but nothing is marked
as complete, and everything else stays as it is. -/
theorem C60_missing (input : List (Bytes × Str)) (repr : Str → Str → Str) {w v : CWorld} {c : Call} {p : List (Bytes × Str)}
    (hw : w.pc = .prep c (.run p)) (ht : TodoOk w repr c p) {n : Bytes} (hn : n ∈ input.map (·.1))
    (hf : n ∉ (filesOf w.parsed.dir).map (·.name)) (hg : n ∉ (filesOf (w.prep c.out c.cfg).dir).map (·.name))
    (h : CorpusStep input repr w v) :
    v.parsed = w.parsed ∧ v.vocab = w.vocab ∧ (v.prep c.out c.cfg).marker = (w.prep c.out c.cfg).marker ∧
      (∀ out cfg, ¬ (out = c.out ∧ cfg = c.cfg) → v.prep out cfg = w.prep out cfg) ∧
      n ∉ (filesOf (v.prep c.out c.cfg).dir).map (·.name) ∧
      (∀ r ∈ filesOf (v.prep c.out c.cfg).dir, r ∈ filesOf (w.prep c.out c.cfg).dir ∨
        ∃ f ∈ filesOf w.parsed.dir, r.name = f.name ∧ r.content = repr c.cfg f.content) ∧
      (∀ r ∈ filesOf (w.prep c.out c.cfg).dir, r ∈ filesOf (v.prep c.out c.cfg).dir) ∧
      (v.pc = .prep c (.raised (if w.parsed.dir = none then .systemExit else .fileNotFound)) ∨ v.pc = .off ∨ ∃ q, v.pc = .prep c (.run q) ∧ TodoOk v repr c q) := by
  have hmis : Missing (input.map (·.1)) (filesOf w.parsed.dir) (filesOf (w.prep c.out c.cfg).dir) := ⟨n, hn, hf, hg⟩
  cases h with
  | exit => exact ⟨rfl, rfl, rfl, fun _ _ _ => rfl, hg, fun _ h => .inl h, fun _ h => h, .inr (.inl rfl)⟩
  | tick _ => exact ⟨rfl, rfl, rfl, fun _ _ _ => rfl, hg, fun _ h => .inl h, fun _ h => h, .inr (.inr ⟨p, hw, ht⟩)⟩
  | prepExits h hd =>
    rw [hw] at h
    cases h
    rw [if_pos hd]
    exact ⟨rfl, rfl, rfl, fun _ _ _ => rfl, hg, fun _ h => .inl h, fun _ h => h, .inl rfl⟩
  | prepFails h hd hm =>
    rw [if_neg hd]
    rw [hw] at h
    cases h
    have e : filesOf (some ((w.prep c.out c.cfg).dir.getD ⟨w.now, []⟩)) = filesOf (w.prep c.out c.cfg).dir := by
      cases (w.prep c.out c.cfg).dir <;> rfl
    simp only [upd2_same]
    refine ⟨trivial, trivial, trivial, fun _ _ hk => upd2_other _ _ hk, ?_, ?_, ?_, .inl trivial⟩
    · rw [e]; exact hg
    · rw [e]; exact fun _ h => .inl h
    · rw [e]; exact fun _ h => h
  | @prep _ _ s h hd hm hs he =>
    rw [hw] at h
    cases h
    unfold CWorld.putPrep
    simp only [upd2_same]
    refine ⟨trivial, trivial, ?_⟩
    have hk : ∀ (x : Place) out cfg, ¬ (out = c.out ∧ cfg = c.cfg) → upd w.prep c.out (upd (w.prep c.out) c.cfg x) out cfg = w.prep out cfg :=
      fun _ _ _ hk => upd2_other _ _ hk
    unfold CWorld.prepStage at hs
    generalize hdir : (w.prep c.out c.cfg).dir = dir at hs hg
    generalize hmk : (w.prep c.out c.cfg).marker = mk at hs
    generalize w.archPrep c.cfg = ar at hs
    generalize w.now = nw at hs
    generalize hp : Pc.run p = pc at hs
    cases hs with
    | finished =>
      cases hp
      rw [hdir] at hmis
      exact absurd hmis (by rw [← hdir]; exact hm rfl)
    | @skip d _ _ _ a b r hr =>
      cases hp
      refine ⟨rfl, hk _, hg, fun _ h => .inl h, fun _ h => h, .inr (.inr ⟨_, rfl, fun r hr => ht r ?_⟩)⟩
      rcases List.mem_append.1 hr with h | h
      · exact List.mem_append_left _ h
      · exact List.mem_append_right _ (List.mem_cons_of_mem _ h)
    | @write _ _ _ _ a b r x y hx hr =>
      cases hp
      obtain ⟨f, hff, hfe⟩ := ht r (List.mem_append_right _ List.mem_cons_self)
      have hrn : r.1 ≠ n := by
        intro e
        refine hf (List.mem_map.2 ⟨f, hff, ?_⟩)
        rw [← e, hfe]
      have hmem : ∀ z, z ∈ addFile x y ⟨r.1, r.2, nw⟩ ↔ z = ⟨r.1, r.2, nw⟩ ∨ z ∈ filesOf dir := by
        intro z
        rw [hx]
        unfold addFile
        simp only [List.mem_append, List.mem_cons]
        constructor
        · rintro (h | h | h)
          · exact .inr (.inl h)
          · exact .inl h
          · exact .inr (.inr h)
        · rintro (h | h | h)
          · exact .inr (.inl h)
          · exact .inl h
          · exact .inr (.inr h)
      refine ⟨rfl, hk _, ?_, ?_, fun z hz => (hmem z).2 (.inr hz), .inr (.inr ⟨_, rfl, fun r hr => ht r ?_⟩)⟩
      · intro hin
        obtain ⟨z, hz, hzn⟩ := List.mem_map.1 hin
        rcases (hmem z).1 hz with rfl | hz
        · exact hrn hzn
        · exact hg (List.mem_map.2 ⟨z, hz, hzn⟩)
      · intro z hz
        rcases (hmem z).1 hz with rfl | hz
        · exact .inr ⟨f, hff, by rw [hfe], by rw [hfe]⟩
        · exact .inl hz
      · rcases List.mem_append.1 hr with h | h
        · exact List.mem_append_left _ h
        · exact List.mem_append_right _ (List.mem_cons_of_mem _ h)
    | exit => exact absurd rfl he
    | tick _ =>
      subst hp
      exact ⟨rfl, hk _, hg, fun _ h => .inl h, fun _ h => h, .inr (.inr ⟨p, rfl, ht⟩)⟩
    | _ => cases hp
  | begin _ h | create h | createOut h | found h | notFound h | parse h | parsed h | prepared h | toCount h | counted h
  | countNothing h | countBegin h | countEnd h => rw [hw] at h; cases h

/-- **C60** When the workers are started, what is to be done belongs to parsed files. -/
theorem C60_missing_todo (input : List (Bytes × Str)) (repr : Str → Str → Str) {w v : CWorld} {c : Call} {q : List (Bytes × Str)}
    (hw : w.pc = .prep c .ready ∨ w.pc = .prep c .archiveMarker) (hv : v.pc = .prep c (.run q)) (h : CorpusStep input repr w v) :
    q = prepResults (input.map (·.1)) repr c.cfg (filesOf v.parsed.dir) ∧ TodoOk v repr c q := by
  suffices hq : q = prepResults (input.map (·.1)) repr c.cfg (filesOf v.parsed.dir) by
    refine ⟨hq, fun r hr => ?_⟩
    rw [hq] at hr
    obtain ⟨f, hf, he, -⟩ := prepResults_mem hr
    exact ⟨f, hf, he⟩
  cases h with
  | @prep c' p s h hd hm hs he =>
    have hc : c' = c ∧ (p = .ready ∨ p = .archiveMarker) := by
      rcases hw with hw | hw <;> · rw [h] at hw; cases hw; simp
    obtain ⟨rfl, hp⟩ := hc
    have hs' : s.pc = .run q := by
      unfold CWorld.putPrep at hv
      injection hv
    show q = prepResults (input.map (·.1)) repr c'.cfg (filesOf w.parsed.dir)
    unfold CWorld.prepStage at hs
    generalize (w.prep c'.out c'.cfg).dir = dir at hs
    generalize (w.prep c'.out c'.cfg).marker = mk at hs
    rcases hp with rfl | rfl <;> cases hs <;> first | (cases hs'; rfl) | cases hs'
  | exit => cases hv
  | tick _ => rcases hw with hw | hw <;> · rw [hw] at hv; cases hv
  | prepExits _ _ => cases hv
  | prepFails _ _ _ => cases hv
  | begin _ h | create h | createOut h | found h | notFound h | parse h | parsed h | prepared h | toCount h | counted h
  | countNothing h | countBegin h | countEnd h => rcases hw with hw | hw <;> · rw [hw] at h; cases h

/-- **C60** A call that finds no results but a missing parsed file can always go on to the error. -/
theorem C60_missing_raises (input : List (Bytes × Str)) (repr : Str → Str → Str) {w : CWorld} {c : Call}
    (hw : w.pc = .prep c .ready) (hm : (w.prep c.out c.cfg).marker = none) (hd : w.parsed.dir ≠ none) {n : Bytes} (hn : n ∈ input.map (·.1))
    (hf : n ∉ (filesOf w.parsed.dir).map (·.name)) (hg : n ∉ (filesOf (w.prep c.out c.cfg).dir).map (·.name)) :
    ∃ v, Star (CorpusStep input repr) w v ∧ v.pc = .prep c (.raised .fileNotFound) := by
  have s0 : Star (CorpusStep input repr) w w := .refl
  have s1 := s0.tail (.prep (s := ⟨(w.prep c.out c.cfg).dir, (w.prep c.out c.cfg).marker, w.archPrep c.cfg, w.now,
    .run (prepResults (input.map (·.1)) repr c.cfg (filesOf w.parsed.dir))⟩) hw (by simp) (by simp) (.notReady (.inr hm)) (by simp))
  have s2 := s1.tail (.prepFails (c := c) rfl hd ⟨n, hn, hf, by
    unfold CWorld.putPrep
    simp only [upd2_same]
    exact hg⟩)
  exact ⟨_, s2, rfl⟩

-- such a state: a file of the dataset, no parsed file
example : ∃ w : CWorld, w.pc = .prep (vocabCall ['a']) .ready ∧ (w.prep ['a'] (vocabCall ['a']).cfg).marker = none ∧ w.parsed.dir ≠ none ∧
    (∃ n ∈ oneFile.map (·.1), n ∉ (filesOf w.parsed.dir).map (·.name) ∧ n ∉ (filesOf (w.prep ['a'] (vocabCall ['a']).cfg).dir).map (·.name)) :=
  ⟨{ CWorld.init 1 with parsed := ⟨some ⟨1, []⟩, none⟩, pc := .prep (vocabCall ['a']) .ready }, rfl, rfl, by simp, by decide⟩

/-- **C60** Without a directory of parsed files nothing is computed: nothing on the disk changes, and the program exits unless it is killed. -/
theorem C60_exits (input : List (Bytes × Str)) (repr : Str → Str → Str) {w v : CWorld} {c : Call} {p : List (Bytes × Str)}
    (hw : w.pc = .prep c (.run p)) (hd : w.parsed.dir = none) (h : CorpusStep input repr w v) :
    v.parsed = w.parsed ∧ v.vocab = w.vocab ∧ v.prep = w.prep ∧ v.archParsed = w.archParsed ∧ v.archPrep = w.archPrep ∧
      (v.pc = .prep c (.raised .systemExit) ∨ v.pc = .off ∨ v.pc = w.pc) := by
  cases h with
  | exit => exact ⟨rfl, rfl, rfl, rfl, rfl, .inr (.inl rfl)⟩
  | tick _ => exact ⟨rfl, rfl, rfl, rfl, rfl, .inr (.inr rfl)⟩
  | prepExits h hd =>
    rw [hw] at h
    cases h
    exact ⟨rfl, rfl, rfl, rfl, rfl, .inl rfl⟩
  | prepFails h hd' => exact absurd hd hd'
  | prep h hd' =>
    rw [hw] at h
    cases h
    exact absurd hd (hd' _ rfl)
  | begin _ h | create h | createOut h | found h | notFound h | parse h | parsed h | prepared h | toCount h | counted h
  | countNothing h | countBegin h | countEnd h => rw [hw] at h; cases h

/-- **C60, the dataset must not be empty** A call for a dataset without files can exit with an error: parsed files that were changed are
archived, then there are none, and with `suppress_caching` this is noticed only when there is no directory to read from. -/
theorem C60_empty_violated : ∃ w, Star (CCareful [] tagged) (CWorld.init 1) w ∧ w.pc = .prep ⟨['a'], ['u'], .prep, false⟩ (.raised .systemExit) := by
  have h0 : Star (CCareful [] tagged) (CWorld.init 1) (CWorld.init 1) := .refl
  have h1 := Star.tail (.tail (.tail (.tail h0 (.inl (.begin ⟨['b'], ['u'], .prep, true⟩ rfl))) (.inl (.create rfl))) (.inl (.createOut rfl)))
    (.inl (.notFound rfl (fun h => by cases h)))
  have h2 := Star.tail (.tail h1 (.inl (.parse rfl (.notReady (.inr rfl)) (by simp)))) (.inl (.parse rfl .finished (by decide)))
  have h3 := Star.tail (.tail h2 (.inl (.parse rfl .mark (by simp)))) (.inl (.parse rfl (.stamp (t := 1) (by decide)) (by simp)))
  have h4 := Star.tail (.tail h3 (.inl .exit)) (.inl (.tick (now := 2) (by decide)))
  have h5 := Star.tail h4 (.inr (.parsed rfl (.add (a := []) (b := []) [97] ['x'])
    ⟨rfl, (by decide), (by rintro _ ⟨⟩; decide), .inr ⟨⟨_, List.mem_singleton.2 rfl, rfl⟩, by decide⟩⟩))
  have h6 := Star.tail (.tail (.tail (.tail h5 (.inl (.begin ⟨['a'], ['u'], .prep, false⟩ rfl))) (.inl (.create rfl))) (.inl (.createOut rfl)))
    (.inl (.notFound rfl (fun h => by cases h)))
  have h7 := Star.tail (.tail h6 (.inl (.parse rfl .isReady (by simp)))) (.inl (.parse rfl (.outdated (t := 2) (by decide) (by decide)) (by simp)))
  have h8 := Star.tail (.tail h7 (.inl (.parse rfl (.archive (t := 2) (by decide) (by rintro ⟨_, h, -⟩; cases h)) (by simp)))) (.inl (.parse rfl .archiveMarker (by simp)))
  have h9 := Star.tail (.tail h8 (.inl (.parse rfl .finished (by decide)))) (.inl (.parsed rfl))
  have h10 := Star.tail (.tail h9 (.inl (.prep rfl (by simp) (by simp) (.notReady (.inr rfl)) (by simp)))) (.inl (.prepExits rfl rfl))
  exact ⟨_, h10, rfl⟩

theorem prep_steps {input : List (Bytes × Str)} {repr : Str → Str → Str} {w0 w : CWorld} {c : Call} {p q : Pc} {d : RDir} {m m' : Option (Option Nat)}
    (h0 : Star (CorpusStep input repr) w0 w) (hd : w.parsed.dir ≠ none) (hw : w.pc = .prep c p) (hp : w.prep c.out c.cfg = ⟨some d, m⟩)
    (hi : ∀ n ∈ input.map (·.1), n ∈ d.files.map (·.name)) (hq : q ≠ .off)
    (hs : ∀ arch now, CallStep (prepResults (input.map (·.1)) repr c.cfg (filesOf w.parsed.dir)) true ⟨some d, m, arch, now, p⟩ ⟨some d, m', arch, now, q⟩) :
    ∃ v, Star (CorpusStep input repr) w0 v ∧ v.pc = .prep c q ∧ v.prep c.out c.cfg = ⟨some d, m'⟩ ∧ v.parsed = w.parsed := by
  refine ⟨_, h0.tail (.prep (s := ⟨some d, m', w.archPrep c.cfg, w.now, q⟩) hw (fun _ _ => hd) ?_ ?_ hq), rfl, ?_, rfl⟩
  · rintro - ⟨n, hn, -, hg⟩
    rw [hp] at hg
    exact hg (hi n hn)
  · unfold CWorld.prepStage
    rw [hp]
    exact hs _ _
  · unfold CWorld.putPrep
    simp only [upd2_same]

/-- **C60** A parsed file that is missing makes no difference if the result is already there: the call goes on, leaves the results alone
and marks them as complete. -/
theorem C60_missing_harmless (input : List (Bytes × Str)) (repr : Str → Str → Str) {w : CWorld} {c : Call} {d : RDir}
    (hw : w.pc = .prep c .ready) (hd : w.parsed.dir ≠ none) (hp : w.prep c.out c.cfg = ⟨some d, none⟩) (hi : ∀ n ∈ input.map (·.1), n ∈ d.files.map (·.name)) :
    ∃ v t, Star (CorpusStep input repr) w v ∧ v.pc = .prep c .done ∧ v.prep c.out c.cfg = ⟨some d, some (some t)⟩ ∧ timestamp d = .ok t := by
  obtain ⟨t, ht⟩ := timestamp_ok d
  obtain ⟨a, ha, hap, had, hpar⟩ := prep_steps (.refl) hd hw hp hi (by simp) (fun _ _ => .notReady (.inr rfl))
  have loop : ∀ (l : List (Bytes × Str)), (∀ r ∈ l, r.1 ∈ d.files.map (·.name)) → ∀ b : CWorld, Star (CorpusStep input repr) w b →
      b.parsed = w.parsed → b.pc = .prep c (.run l) → b.prep c.out c.cfg = ⟨some d, none⟩ →
      ∃ b', Star (CorpusStep input repr) w b' ∧ b'.parsed = w.parsed ∧ b'.pc = .prep c (.run []) ∧ b'.prep c.out c.cfg = ⟨some d, none⟩ := by
    intro l
    induction l with
    | nil => exact fun _ b hb hbd0 hbp hbd => ⟨b, hb, hbd0, hbp, hbd⟩
    | cons r l ih =>
      intro hl b hb hbd0 hbp hbd
      obtain ⟨b', h1, h2, h3, h4⟩ := prep_steps (q := .run l) hb (hbd0 ▸ hd) hbp hbd hi (by simp)
        (fun _ _ => .skip (a := []) (b := l) (r := r) (hl r List.mem_cons_self))
      exact ih (fun r hr => hl r (List.mem_cons_of_mem _ hr)) b' h1 (h4.trans hbd0) h2 h3
  obtain ⟨b, hb, hbd0, hbp, hbd⟩ := loop _ (fun r hr => by
    obtain ⟨f, -, he, hn⟩ := prepResults_mem hr
    rw [he]
    exact hi _ hn) a ha hpar hap had
  obtain ⟨e, he, hep, hed, hed0⟩ := prep_steps (q := .mark) hb (hbd0 ▸ hd) hbp hbd hi (by simp) (fun _ _ => .finished)
  obtain ⟨f, hf, hfp, hfd, hfd0⟩ := prep_steps (q := .stamp) he (by rw [hed0, hbd0]; exact hd) hep hed hi (by simp) (fun _ _ => .mark)
  obtain ⟨g, hg, hgp, hgd, -⟩ := prep_steps (q := .done) hf (by rw [hfd0, hed0, hbd0]; exact hd) hfp hfd hi (by simp) (fun _ _ => .stamp ht)
  exact ⟨g, t, hg, hgp, hgd, ht⟩

-- such a state: one file in the dataset, its result, no parsed file
example : ∃ (w : CWorld) (d : RDir), w.pc = .prep (vocabCall ['a']) .ready ∧ w.prep ['a'] (vocabCall ['a']).cfg = ⟨some d, none⟩ ∧
    (∀ n ∈ oneFile.map (·.1), n ∈ d.files.map (·.name)) ∧ w.parsed.dir = some ⟨1, []⟩ ∧ oneFile ≠ [] :=
  ⟨{ CWorld.init 1 with
      parsed := ⟨some ⟨1, []⟩, none⟩
      pc := .prep (vocabCall ['a']) .ready
      prep := fun _ _ => ⟨some ⟨1, oneFile.map fun e => ⟨e.1, e.2, 1⟩⟩, none⟩ }, _, rfl, rfl, by decide, rfl, by decide⟩

/-! ## C34: crashed listings -/

/-- **C34** A call that crashes leaves complete lists alone. -/
theorem C34_crash_keeps (now nd nf : Nat) (b : Bool) (exts : Option (List Str)) (sc : Scanned) (c : ListCache)
    {f : ListFolder} (hf : c.folder = some f) (hm : c.marker = some f.mtime) : getAllFilesCrash now nd nf b exts sc c = c := by
  unfold getAllFilesCrash
  simp only [hf, hm, if_pos]

/-- **C34** Otherwise it leaves beginnings of the lists, which are not marked as complete (the marker is as old as it was). -/
theorem C34_crash_cuts (now nd nf : Nat) (b : Bool) (exts : Option (List Str)) (sc : Scanned) (c : ListCache)
    (h : ∀ f, c.folder = some f → c.marker ≠ some f.mtime) :
    ∃ f, (getAllFilesCrash now nd nf b exts sc c) = ⟨some f, c.marker⟩ ∧ f.mtime = now ∧
      f.dirText <+: (walkAndSave b exts sc).dirList ∧ f.fileText <+: (walkAndSave b exts sc).fileList := by
  have : getAllFilesCrash now nd nf b exts sc c =
      ⟨some ⟨now, (walkAndSave b exts sc).dirList.take nd, (walkAndSave b exts sc).fileList.take nf⟩, c.marker⟩ := by
    unfold getAllFilesCrash
    simp only
    split
    · rename_i f m hf hm
      rw [if_neg]
      intro e
      exact h f hf (by rw [hm, e])
    · rfl
  exact ⟨_, this, rfl, List.take_prefix _ _, List.take_prefix _ _⟩

/-! ## C59 -/

/-- **C59** The identifier with zero merges is refused if merges were learnt with the result that there are none. -/
theorem C59_load_zero {d : LearnDisk} {m : MergesDir} (hm : m ∈ d.dirs) (hz : m.name = natStr 0) :
    d.load 0 = .error .invalidBpeCodesId := by
  have hg : getMinMerges (d.dirs.map (·.name)) (0 : Nat) = some 0 := by
    refine (C39_min ⟨[], none, d.dirs.map (·.name)⟩ 0 0).2 ⟨learnt_dir hm hz, by simp, by decide, fun k _ h => h⟩
  unfold LearnDisk.load
  rw [hg]
  rfl

/-- The four files in the order in which they are written (bpelearner.py 77-83). -/
def fourFiles (m : MergesDir) : List (Option Str) := [m.vocab, m.cache, m.merges, m.splits]

/-- **C59** If a run is killed while it saves, some files are complete, at most one is a beginning of what was to be written,
and the others do not exist. -/
theorem C59_cut (m : MergesDir) (i : Nat) (j : Option Nat) (hi : i < 4) :
    ∃ part : Option Str, fourFiles (m.cut i j) = (fourFiles m).take i ++ part :: List.replicate (3 - i) none ∧
      (m.cut i j).name = m.name ∧ (j = none → part = none) ∧
      ∀ l, j = some l → part = ((fourFiles m)[i]?.join).map (List.take l) := by
  rcases j with _ | l
  · refine ⟨none, ?_, rfl, fun _ => rfl, by simp⟩
    match i, hi with
    | 0, _ | 1, _ | 2, _ | 3, _ => rfl
  · refine ⟨((fourFiles m)[i]?.join).map (List.take l), ?_, rfl, by simp, fun _ h => by cases h; rfl⟩
    match i, hi with
    | 0, _ | 1, _ | 2, _ | 3, _ => rfl

/-- **C59** With all four files written, the directory is complete. -/
theorem C59_cut_whole (m : MergesDir) (i : Nat) (j : Option Nat) (hi : 4 ≤ i) : m.cut i j = m := by
  have h : ∀ k, k < 4 → ∀ t, cutFile i j k t = t := fun k hk t => if_pos (by omega)
  unfold MergesDir.cut
  rw [h 0 (by omega), h 1 (by omega), h 2 (by omega), h 3 (by omega)]

/-! ## C52: the placeholders -/

/-- **C52** The placeholders that are added to the collected tokens: all thirteen of placeholders.py 6-18, none of them twice. -/
theorem C52_placeholders : Ph.all = ["<comment>".toList, "<str-literal>".toList, "<w>".toList, "</w>".toList, "<Cap>".toList,
    "<CAPS>".toList, "<EOF>".toList, "<non-en>".toList, ['\u00f7'], "<non-en-content>".toList, "<EOL>".toList, "</t>".toList,
    ['\u00a0']] ∧ Ph.all.Nodup := by
  decide +kernel

end Verif.Props
