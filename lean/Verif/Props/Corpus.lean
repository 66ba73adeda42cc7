import Verif.Proofs.CorpusProgress
/-!
# Properties of calls for whole corpora (C60)
-/
namespace Verif.Props
open Verif Stage Corpus

theorem ccareful_of {input : List (Bytes × Str)} {repr : Str → Str → Str} {u v : CWorld} (h : Spec.Star (CorpusStep input repr) u v) :
    Spec.Star (CCareful input repr) u v := by
  induction h with
  | refl => exact .refl
  | tail _ h ih => exact .tail ih (.inl h)

/-- A call that returned at the beginning is one with a vocabulary; every call with a vocabulary leaves a vocabulary file. -/
def Ended (w : CWorld) : Prop :=
  match w.pc with
  | .returned c e => (e = true → c.kind = .vocab) ∧ (c.kind ≠ .prep → w.hasVocab c.cfg)
  | .count c => c.kind ≠ .prep
  | .counting c => c.kind ≠ .prep
  | _ => True

theorem ended_step {input : List (Bytes × Str)} {repr : Str → Str → Str} {u v : CWorld} (hi : Ended u) (h : CCareful input repr u v) : Ended v := by
  rcases h with h | h
  · cases h with
    | found h hk hv => exact ⟨fun _ => hk, fun _ => hv⟩
    | prepared h hk => exact ⟨(nomatch ·), fun hn => absurd hk hn⟩
    | toCount h hk => exact hk
    | counted h hv => exact ⟨(nomatch ·), fun _ => hv⟩
    | countBegin h hv hi' => unfold Ended at hi; rw [h] at hi; exact hi
    | countEnd h => exact ⟨(nomatch ·), fun _ => by simp [CWorld.hasVocab, upd_same]⟩
    | tick h => exact hi
    | _ => trivial
  · cases h with
    | parsed h _ _ => unfold Ended; simp only [h]
    | prep _ _ h _ _ => unfold Ended; simp only [h]
    | vocab _ h => unfold Ended; simp only [h]

theorem ended_reach {input : List (Bytes × Str)} {repr : Str → Str → Str} {now : Nat} {w : CWorld}
    (h : Spec.Star (CCareful input repr) (CWorld.init now) w) : Ended w := by
  induction h with
  | refl => trivial
  | tail _ hs ih => exact ended_step ih hs

/-- **C60, partial** Whenever a call ends, its directory has exactly the results of all files of the dataset: after any number of calls
into this and other directories, with this and other configurations, killed at any point, and after changes by users that can be noticed.
Missing: calls that end because the vocabulary file is there. -/
theorem C60_results_partial (input : List (Bytes × Str)) (hn : (input.map (·.1)).Nodup) (repr : Str → Str → Str) (now : Nat) {w : CWorld}
    (h : Spec.Star (CCareful input repr) (CWorld.init now) w) (c : Call) (early : Bool) (hr : w.pc = .returned c early)
    (he : c.kind ≠ .vocab ∨ early = false) : HasResults input repr w c.out c.cfg := by
  have he : early = false := by
    rcases he with he | he
    · have := ended_reach h
      unfold Ended at this
      rw [hr] at this
      cases early with
      | false => rfl
      | true => exact absurd (this.1 rfl) he
    · exact he
  subst he
  have hi := (reach_inv hn h).prep c.out c.cfg
  rw [hr, prepPc_eq rfl] at hi
  exact hi.1

/-- Histories in which no call is killed while the vocabulary file is being written. -/
def Uncut (input : List (Bytes × Str)) (repr : Str → Str → Str) (u v : CWorld) : Prop :=
  CCareful input repr u v ∧ ((∃ c, u.pc = .counting c) → v.pc ≠ .off)

/-- An incomplete vocabulary file is being written. -/
def OnlyNow (w : CWorld) : Prop := ∀ cfg, w.vocab cfg = some .cut → ∃ c, w.pc = .counting c ∧ c.cfg = cfg

theorem onlyNow_step {input : List (Bytes × Str)} {repr : Str → Str → Str} {u v : CWorld} (hi : OnlyNow u) (h : Uncut input repr u v) : OnlyNow v := by
  obtain ⟨h, hk⟩ := h
  intro cfg hc
  rcases h with h | h
  · cases h with
    | tick h => exact hi cfg hc
    | exit =>
      obtain ⟨c, h1, h2⟩ := hi cfg hc
      exact absurd rfl (hk ⟨c, h1⟩)
    | @countBegin c h hv hi' =>
      by_cases hx : cfg = c.cfg
      · exact ⟨c, rfl, hx.symm⟩
      · simp only [upd_other _ _ hx] at hc
        obtain ⟨c', h1, h2⟩ := hi cfg hc
        rw [h] at h1; cases h1
    | @countEnd c h =>
      by_cases hx : cfg = c.cfg
      · subst hx; simp only [upd_same] at hc; cases hc
      · simp only [upd_other _ _ hx] at hc
        obtain ⟨c', h1, h2⟩ := hi cfg hc
        rw [h] at h1
        cases h1
        exact absurd h2.symm hx
    | _ =>
      obtain ⟨c', h1, h2⟩ := hi cfg hc
      simp_all
  · cases h with
    | parsed h _ _ =>
      obtain ⟨c', h1, h2⟩ := hi cfg hc
      rw [h] at h1; cases h1
    | prep _ _ h _ _ =>
      obtain ⟨c', h1, h2⟩ := hi cfg hc
      rw [h] at h1; cases h1
    | vocab cfg' h =>
      by_cases hx : cfg = cfg'
      · subst hx; simp only [upd_same] at hc; cases hc
      · simp only [upd_other _ _ hx] at hc
        obtain ⟨c', h1, h2⟩ := hi cfg hc
        rw [h] at h1; cases h1

/-- **C60, partial** Whenever a call that calculates a vocabulary ends, the vocabulary is that of all results, even if it was found at the
beginning of the call, and whatever directory it was calculated from.  Missing: calls that were killed while writing it. -/
theorem C60_vocab_partial (input : List (Bytes × Str)) (hn : (input.map (·.1)).Nodup) (repr : Str → Str → Str) (now : Nat) {w : CWorld}
    (h : Spec.Star (Uncut input repr) (CWorld.init now) w) (c : Call) (early : Bool) (hr : w.pc = .returned c early)
    (hk : c.kind ≠ .prep) : ∃ texts, w.vocab c.cfg = some (.whole texts) ∧ RightVocab input repr c.cfg texts := by
  have h1 : Spec.Star (CCareful input repr) (CWorld.init now) w := by
    clear hr
    induction h with
    | refl => exact .refl
    | tail _ h ih => exact .tail ih h.1
  have h2 : OnlyNow w := by
    clear hr h1
    induction h with
    | refl => intro cfg hc; cases hc
    | tail _ h ih => exact onlyNow_step ih h
  have h3 := ended_reach h1
  unfold Ended at h3
  rw [hr] at h3
  have h4 := h3.2 hk
  unfold CWorld.hasVocab at h4
  cases hv : w.vocab c.cfg with
  | none => exact absurd hv h4
  | some f =>
    cases f with
    | cut =>
      obtain ⟨c', h5, _⟩ := h2 _ hv
      rw [hr] at h5
      cases h5
    | whole t => exact ⟨t, rfl, (reach_inv hn h1).vocab _ _ hv⟩

/-- **C60** A complete vocabulary file is always right. -/
theorem C60_vocab_complete (input : List (Bytes × Str)) (hn : (input.map (·.1)).Nodup) (repr : Str → Str → Str) (now : Nat) {w : CWorld}
    (h : Spec.Star (CCareful input repr) (CWorld.init now) w) (cfg : Str) (texts : List Str) (hv : w.vocab cfg = some (.whole texts)) :
    RightVocab input repr cfg texts := (reach_inv hn h).vocab cfg texts hv

/-- Sums bound their parts. -/
theorem time_le_sum : ∀ (l : List (Nat × RDir)), ∀ e ∈ l, e.1 ≤ (l.map (·.1)).sum
  | [], _, he => by cases he
  | a :: l, e, he => by
    simp only [List.map_cons, List.sum_cons]
    rcases List.mem_cons.mp he with rfl | he
    · omega
    · have := time_le_sum l e he; omega

theorem not_blocked {arch : List (Nat × RDir)} {dir : Option RDir} {now : Nat} (hb : ∀ d t, dir = some d → timestamp d = .ok t → ¬ blocked arch t)
    (hn : (arch.map (·.1)).sum < now) : ∀ t, timestamp (dir.getD ⟨now, []⟩) = .ok t → ¬ blocked arch t := by
  intro t ht
  cases dir with
  | some d => exact hb d t rfl ht
  | none =>
    rintro ⟨d, hd, _⟩
    obtain rfl : now = t := Except.ok.inj ht
    have := time_le_sum _ _ hd
    omega

/-- **C60, partial** Whatever has happened before, every call can be made so that it ends, if the dataset is not empty and the archives have no
directories with the times of the parsed files and of the results. -/
theorem C60_finishes_partial (input : List (Bytes × Str)) (hn : (input.map (·.1)).Nodup) (h0 : input ≠ []) (repr : Str → Str → Str) (now : Nat)
    {w : CWorld} (h : Spec.Star (CCareful input repr) (CWorld.init now) w) (hp : w.pc = .off) (c : Call)
    (hb : ∀ d t, w.parsed.dir = some d → timestamp d = .ok t → ¬ blocked w.archParsed t)
    (hb' : ∀ d t, (w.prep c.out c.cfg).dir = some d → timestamp d = .ok t → ¬ blocked (w.archPrep c.cfg) t) :
    ∃ v early, Spec.Star (CorpusStep input repr) w v ∧ v.pc = .returned c early := by
  let n := w.now + (w.archParsed.map (·.1)).sum + ((w.archPrep c.cfg).map (·.1)).sum + 1
  have g0 : Spec.Star (CorpusStep input repr) w { w with now := n } := .tail .refl (.tick (by simp only [n]; omega))
  have g1 := Spec.Star.tail (.tail (.tail g0 (.begin c hp)) (.create rfl)) (.createOut rfl)
  simp only at g1
  by_cases hf : c.kind = .vocab ∧ w.hasVocab c.cfg
  · exact ⟨_, true, .tail g1 (.found rfl hf.1 hf.2), rfl⟩
  have g2 := Spec.Star.tail g1 (.notFound rfl (fun hk hv => hf ⟨hk, hv⟩))
  simp only at g2
  obtain ⟨d1, m1, a1, g3⟩ := goes_done h0 c.caching (w.parsed.dir.getD ⟨n, []⟩) w.parsed.marker w.archParsed n (not_blocked hb (by simp only [n]; omega))
  have g4 := Pool.star_trans g2 (lift_parse (repr := repr) (c := c) (p := .ready) rfl g3)
  have g5 := Spec.Star.tail g4 (.parsed rfl)
  have hi := reach_inv hn (Pool.star_trans h (ccareful_of g5))
  have g6 := prepResults_eq hn hi.parsed.1 repr c.cfg
  obtain ⟨d2, m2, a2, g7⟩ := goes_done (results := expected input repr c.cfg) (by unfold expected; simpa using h0) true
    ((w.prep c.out c.cfg).dir.getD ⟨n, []⟩) (w.prep c.out c.cfg).marker (w.archPrep c.cfg) n (not_blocked hb' (by simp only [n]; omega))
  have g8 := lift_prep (repr := repr) (c := c) (p := .ready) (w := _) rfl g6 (fun _ => not_missing hi.parsed.1) (Option.some_ne_none _) (s := ⟨some d2, m2, a2, n, .done⟩) (by
    unfold CWorld.prepStage
    simp only [CWorld.putParse, upd2_same]
    exact g7)
  have g9 := Pool.star_trans g5 g8
  cases hk : c.kind with
  | prep => exact ⟨_, false, .tail g9 (.prepared rfl hk), rfl⟩
  | vocab =>
    have g10 := Spec.Star.tail g9 (.toCount rfl (by rw [hk]; simp))
    by_cases hv : w.hasVocab c.cfg
    · exact ⟨_, false, .tail g10 (.counted rfl hv), rfl⟩
    · exact ⟨_, false, .tail (.tail g10 (.countBegin rfl hv h0)) (.countEnd rfl), rfl⟩
  | base =>
    have g10 := Spec.Star.tail g9 (.toCount rfl (by rw [hk]; simp))
    by_cases hv : w.hasVocab c.cfg
    · exact ⟨_, false, .tail g10 (.counted rfl hv), rfl⟩
    · exact ⟨_, false, .tail (.tail g10 (.countBegin rfl hv h0)) (.countEnd rfl), rfl⟩

/-! ## A history -/

/-- A dataset with a file. -/
def oneFile : List (Bytes × Str) := [([97], ['x'])]

/-- What is done with it: the name of the configuration is put in front. -/
def tagged (cfg text : Str) : Str := cfg ++ text

theorem none_missing {t : Str} {m : Nat} {fs : List RFile} : ¬ Missing (oneFile.map (·.1)) [⟨[97], t, m⟩] fs := by
  rintro ⟨n, hn, hp, -⟩
  exact hp hn

/-- A call with a vocabulary for a directory. -/
def vocabCall (out : Str) : Call := ⟨out, ['u'], .vocab, true⟩

/-- Steps of calls that are not killed. -/
def Unkilled (input : List (Bytes × Str)) (repr : Str → Str → Str) (u v : CWorld) : Prop := CorpusStep input repr u v ∧ v.pc ≠ .off

theorem corpus_of_unkilled {input : List (Bytes × Str)} {repr : Str → Str → Str} {u v : CWorld} (h : Spec.Star (Unkilled input repr) u v) :
    Spec.Star (CorpusStep input repr) u v := by
  induction h with
  | refl => exact .refl
  | tail _ h ih => exact .tail ih h.1

theorem uncut_of {input : List (Bytes × Str)} {repr : Str → Str → Str} {u v : CWorld} (h : Spec.Star (Unkilled input repr) u v) :
    Spec.Star (Uncut input repr) u v := by
  induction h with
  | refl => exact .refl
  | tail _ h ih => exact .tail ih ⟨.inl h.1, fun _ => h.2⟩

/-- A whole call into the directory `a`. -/
theorem corpus_unkilled : ∃ w, Spec.Star (Unkilled oneFile tagged) (CWorld.init 1) w ∧ w.pc = .returned (vocabCall ['a']) false ∧
    filesOf (w.prep ['a'] ['u']).dir = [⟨[97], ['u', 'x'], 1⟩] ∧ (w.prep ['a'] ['u']).marker = some (some 1) ∧ w.vocab ['u'] = some (.whole [['u', 'x']]) ∧
    filesOf (w.prep ['b'] ['u']).dir = [] ∧ w.now = 1 := by
  have h0 : Spec.Star (Unkilled oneFile tagged) (CWorld.init 1) (CWorld.init 1) := .refl
  have h1 := Spec.Star.tail h0 ⟨.begin (vocabCall ['a']) rfl, fun h => by cases h⟩
  have h2 := Spec.Star.tail h1 ⟨.create rfl, fun h => by cases h⟩
  have h3 := Spec.Star.tail h2 ⟨.createOut rfl, fun h => by cases h⟩
  have h4 := Spec.Star.tail h3 ⟨.notFound rfl (fun _ h => h rfl), fun h => by cases h⟩
  have h5 := Spec.Star.tail h4 ⟨.parse rfl (.notReady (.inr rfl)) (by simp), fun h => by cases h⟩
  have h6 := Spec.Star.tail h5 ⟨.parse rfl (.write (a := []) (b := []) (r := ([97], ['x'])) (x := []) (y := []) rfl (by decide)) (by simp), fun h => by cases h⟩
  have h7 := Spec.Star.tail h6 ⟨.parse rfl .finished (by decide), fun h => by cases h⟩
  have h8 := Spec.Star.tail h7 ⟨.parse rfl .mark (by simp), fun h => by cases h⟩
  have h9 := Spec.Star.tail h8 ⟨.parse rfl (.stamp (t := 1) (by decide)) (by simp), fun h => by cases h⟩
  have h10 := Spec.Star.tail h9 ⟨.parsed rfl, fun h => by cases h⟩
  have h11 := Spec.Star.tail h10 ⟨.prep rfl (fun _ _ => Option.some_ne_none _) (fun _ => none_missing) (.notReady (.inr rfl)) (by simp), fun h => by cases h⟩
  have h12 := Spec.Star.tail h11 ⟨.prep rfl (fun _ _ => Option.some_ne_none _) (fun _ => none_missing) (.write (a := []) (b := []) (r := ([97], ['u', 'x'])) (x := []) (y := []) rfl (by decide)) (by simp), fun h => by cases h⟩
  have h13 := Spec.Star.tail h12 ⟨.prep rfl (fun _ _ => Option.some_ne_none _) (fun _ => none_missing) .finished (by simp), fun h => by cases h⟩
  have h14 := Spec.Star.tail h13 ⟨.prep rfl (fun _ _ => Option.some_ne_none _) (fun _ => none_missing) .mark (by simp), fun h => by cases h⟩
  have h15 := Spec.Star.tail h14 ⟨.prep rfl (fun _ _ => Option.some_ne_none _) (fun _ => none_missing) (.stamp (t := 1) (by decide)) (by simp), fun h => by cases h⟩
  have h16 := Spec.Star.tail h15 ⟨.toCount rfl (by decide), fun h => by cases h⟩
  have h17 := Spec.Star.tail h16 ⟨.countBegin rfl (fun h => h rfl) (by decide), fun h => by cases h⟩
  have h18 := Spec.Star.tail h17 ⟨.countEnd rfl, fun h => by cases h⟩
  exact ⟨_, h18, rfl, rfl, rfl, rfl, rfl, rfl⟩

theorem corpus_first : ∃ w, Spec.Star (CorpusStep oneFile tagged) (CWorld.init 1) w ∧ w.pc = .returned (vocabCall ['a']) false ∧
    filesOf (w.prep ['a'] ['u']).dir = [⟨[97], ['u', 'x'], 1⟩] ∧ (w.prep ['a'] ['u']).marker = some (some 1) ∧ w.vocab ['u'] = some (.whole [['u', 'x']]) ∧
    filesOf (w.prep ['b'] ['u']).dir = [] ∧ w.now = 1 := by
  obtain ⟨w, h, hw⟩ := corpus_unkilled
  exact ⟨w, corpus_of_unkilled h, hw⟩

/-- The theorems about vocabularies apply to it. -/
example : ∃ w texts, Spec.Star (Uncut oneFile tagged) (CWorld.init 1) w ∧ w.pc = .returned (vocabCall ['a']) false ∧
    w.vocab ['u'] = some (.whole texts) ∧ RightVocab oneFile tagged ['u'] texts := by
  obtain ⟨w, h, h1, _⟩ := corpus_unkilled
  obtain ⟨t, h2, h3⟩ := C60_vocab_partial oneFile (by decide) tagged 1 (uncut_of h) _ _ h1 (by decide)
  exact ⟨w, t, uncut_of h, h1, h2, h3⟩

/-! ## A vocabulary that is there already -/

/-- Steps of calls with a vocabulary for a configuration. -/
def VocabCalls (input : List (Bytes × Str)) (repr : Str → Str → Str) (cfg : Str) (u v : CWorld) : Prop :=
  CorpusStep input repr u v ∧ ∀ c, v.pc = .create c → c.kind = .vocab ∧ c.cfg = cfg

/-- The call is one with a vocabulary that is there. -/
def AtFound (cfg : Str) (w : CWorld) : Prop :=
  w.hasVocab cfg ∧
  match w.pc with
  | .off => True
  | .create c => c.kind = .vocab ∧ c.cfg = cfg
  | .createOut c => c.kind = .vocab ∧ c.cfg = cfg
  | .look c => c.kind = .vocab ∧ c.cfg = cfg
  | .returned _ _ => True
  | _ => False

/-- **C60** If the vocabulary of a configuration is there, calls with a vocabulary compute nothing: in no directory a file appears, is changed or
disappears. -/
theorem C60_nothing_computed (input : List (Bytes × Str)) (repr : Str → Str → Str) (cfg : Str) {u v : CWorld} (hp : u.pc = .off ∨ ∃ c e, u.pc = .returned c e)
    (hv : u.hasVocab cfg) (h : Spec.Star (VocabCalls input repr cfg) u v) (out cfg' : Str) :
    filesOf (v.prep out cfg').dir = filesOf (u.prep out cfg').dir ∧ filesOf v.parsed.dir = filesOf u.parsed.dir ∧ v.vocab = u.vocab := by
  have hu : AtFound cfg u := by
    refine ⟨hv, ?_⟩
    rcases hp with hp | ⟨c, e, hp⟩ <;> rw [hp] <;> trivial
  have key : AtFound cfg v ∧ filesOf (v.prep out cfg').dir = filesOf (u.prep out cfg').dir ∧ filesOf v.parsed.dir = filesOf u.parsed.dir ∧ v.vocab = u.vocab := by
    induction h with
    | refl => exact ⟨hu, rfl, rfl, rfl⟩
    | @tail x y _ hs ih =>
      obtain ⟨⟨hi1, hi2⟩, h1, h2, h3⟩ := ih
      obtain ⟨hs, hc⟩ := hs
      cases hs with
      | begin c h => exact ⟨⟨hi1, hc c rfl⟩, h1, h2, h3⟩
      | create h =>
        rw [h] at hi2
        refine ⟨⟨hi1, hi2⟩, h1, ?_, h3⟩
        rw [← h2]
        cases hd : x.parsed.dir <;> simp [filesOf]
      | @createOut c h =>
        rw [h] at hi2
        refine ⟨⟨hi1, hi2⟩, ?_, h2, h3⟩
        rw [← h1]
        by_cases hk : out = c.out ∧ cfg' = c.cfg
        · obtain ⟨rfl, rfl⟩ := hk
          simp only [upd2_same]
          cases hd : (x.prep c.out c.cfg).dir <;> simp [filesOf]
        · simp only [upd2_other _ _ hk]
      | found h hk hv' => exact ⟨⟨hi1, trivial⟩, h1, h2, h3⟩
      | notFound h hv' =>
        rw [h] at hi2
        exact absurd (hi2.2 ▸ hi1) (hv' hi2.1)
      | exit => exact ⟨⟨hi1, trivial⟩, h1, h2, h3⟩
      | tick h => exact ⟨⟨hi1, hi2⟩, h1, h2, h3⟩
      | _ => simp_all
  exact key.2

/-- **C60, the missing part is false** A call with a vocabulary for a second directory ends without results: the directory is empty, and stays empty
however often the call is repeated. -/
theorem C60_directory_violated : ∃ w, Spec.Star (CorpusStep oneFile tagged) (CWorld.init 1) w ∧ w.pc = .returned (vocabCall ['b']) true ∧
    ∀ v, Spec.Star (VocabCalls oneFile tagged ['u']) w v → filesOf (v.prep ['b'] ['u']).dir = [] ∧ ¬ HasResults oneFile tagged v ['b'] ['u'] := by
  obtain ⟨w, h, h1, h2, h3, h4, h5, h6⟩ := corpus_first
  have g := Spec.Star.tail (.tail (.tail (.tail (.tail h .exit) (.begin (vocabCall ['b']) rfl)) (.create rfl)) (.createOut rfl))
    (.found rfl rfl (by show w.vocab ['u'] ≠ none; rw [h4]; simp))
  refine ⟨_, g, rfl, fun v hv => ?_⟩
  have := (C60_nothing_computed oneFile tagged ['u'] (.inr ⟨_, _, rfl⟩) (by show w.vocab ['u'] ≠ none; rw [h4]; simp) hv ['b'] ['u']).1
  have e : filesOf (v.prep ['b'] ['u']).dir = [] := by
    rw [this]
    simp only [vocabCall, upd2_same]
    cases hd : (w.prep ['b'] ['u']).dir with
    | none => rfl
    | some d => rw [hd] at h5; exact h5
  refine ⟨e, fun hr => ?_⟩
  unfold HasResults at hr
  rw [e] at hr
  exact absurd hr.length_eq (by decide)

/-- **C60, the missing part is false** A call with a vocabulary after its results were removed ends without results. -/
theorem C60_removed_violated : ∃ w, Spec.Star (CCareful oneFile tagged) (CWorld.init 1) w ∧ w.pc = .returned (vocabCall ['a']) true ∧
    ¬ HasResults oneFile tagged w ['a'] ['u'] := by
  obtain ⟨w, h, h1, h2, h3, h4, h5, h6⟩ := corpus_first
  have g1 : Spec.Star (CCareful oneFile tagged) (CWorld.init 1) { w with pc := .off, now := 2 } :=
    .tail (.tail (ccareful_of h) (.inl .exit)) (.inl (.tick (by simp only [h6]; decide)))
  have g2 := Spec.Star.tail g1 (.inr (.prep ['a'] ['u'] rfl .removeAll ⟨rfl, by simp [CWorld.prepStage, h3], by simp [CWorld.prepStage, h3], .inl rfl⟩))
  have g3 := Spec.Star.tail (.tail (.tail (.tail g2 (.inl (.begin (vocabCall ['a']) rfl))) (.inl (.create rfl))) (.inl (.createOut rfl)))
    (.inl (.found rfl rfl (by show w.vocab ['u'] ≠ none; rw [h4]; simp)))
  refine ⟨_, g3, rfl, fun hr => ?_⟩
  unfold HasResults at hr
  simp only [vocabCall, upd2_same] at hr
  exact absurd hr.length_eq (by decide)

/-- **C60, the missing part is false** After a call that was killed while it wrote the vocabulary, calls end with this incomplete vocabulary, also
those of learning. -/
theorem C60_cut_violated (k : Kind) (hk : k ≠ .prep) : ∃ w early, Spec.Star (CorpusStep oneFile tagged) (CWorld.init 1) w ∧
    w.pc = .returned ⟨['a'], ['u'], k, true⟩ early ∧ w.vocab ['u'] = some .cut := by
  have h0 : Spec.Star (CorpusStep oneFile tagged) (CWorld.init 1) (CWorld.init 1) := .refl
  have h1 := Spec.Star.tail (.tail (.tail (.tail h0 (.begin (vocabCall ['a']) rfl)) (.create rfl)) (.createOut rfl)) (.notFound rfl (fun _ h => h rfl))
  have h2 := Spec.Star.tail (.tail h1 (.parse rfl (.notReady (.inr rfl)) (by simp)))
    (.parse rfl (.write (a := []) (b := []) (r := ([97], ['x'])) (x := []) (y := []) rfl (by decide)) (by simp))
  have h3 := Spec.Star.tail (.tail (.tail h2 (.parse rfl .finished (by decide))) (.parse rfl .mark (by simp))) (.parse rfl (.stamp (t := 1) (by decide)) (by simp))
  have h4 := Spec.Star.tail (.tail (.tail h3 (.parsed rfl)) (.prep rfl (fun _ _ => Option.some_ne_none _) (fun _ => none_missing) (.notReady (.inr rfl)) (by simp)))
    (.prep rfl (fun _ _ => Option.some_ne_none _) (fun _ => none_missing) (.write (a := []) (b := []) (r := ([97], ['u', 'x'])) (x := []) (y := []) rfl (by decide)) (by simp))
  have h5 := Spec.Star.tail (.tail (.tail h4 (.prep rfl (fun _ _ => Option.some_ne_none _) (fun _ => none_missing) .finished (by simp)))
    (.prep rfl (fun _ _ => Option.some_ne_none _) (fun _ => none_missing) .mark (by simp))) (.prep rfl (fun _ _ => Option.some_ne_none _) (fun _ => none_missing) (.stamp (t := 1) (by decide)) (by simp))
  have h6 := Spec.Star.tail (.tail (.tail h5 (.toCount rfl (by decide))) (.countBegin rfl (fun h => h rfl) (by decide))) .exit
  cases k with
  | prep => exact absurd rfl hk
  | vocab =>
    exact ⟨_, true, .tail (.tail (.tail (.tail h6 (.begin (vocabCall ['a']) rfl)) (.create rfl)) (.createOut rfl)) (.found rfl rfl (fun h => by cases h)), rfl, rfl⟩
  | base =>
    have g1 := Spec.Star.tail (.tail (.tail (.tail h6 (.begin ⟨['a'], ['u'], .base, true⟩ rfl)) (.create rfl)) (.createOut rfl)) (.notFound rfl (fun h => by cases h))
    have g2 := Spec.Star.tail (.tail (.tail g1 (.parse rfl .isReady (by simp))) (.parse rfl (.upToDate (t := 1) (by decide) rfl) (by simp))) (.parsed rfl)
    have g3 := Spec.Star.tail (.tail g2 (.prep rfl (fun _ _ => Option.some_ne_none _) (fun _ => none_missing) .isReady (by simp)))
      (.prep rfl (fun _ _ => Option.some_ne_none _) (fun _ => none_missing) (.upToDate (t := 1) (by decide) rfl) (by simp))
    exact ⟨_, false, .tail (.tail g3 (.toCount rfl (by decide))) (.counted rfl (fun h => by cases h)), rfl, rfl⟩

/-! ## The directory -/

/-- **C60** The results are written to the given directory, or to the current one if none is given. -/
theorem C60_output (o : Option Str) (cwd : Str) : outputPath o cwd = if o = none ∨ o = some [] then cwd else o.getD cwd := by
  match o with
  | none => rfl
  | some [] => rfl
  | some (c :: r) => simp [outputPath]

/-- **C60, the documentation is wrong** The help of the program says that without a directory the results are written to `<path>_preprocessed`. -/
theorem C60_default_violated : ¬ ∀ path cwd : Str, outputPath none cwd = path ++ "_preprocessed".toList :=
  fun h => absurd (h [] []) (by decide)

/-- The theorems are about this history. -/
example : ∃ w, Spec.Star (CCareful oneFile tagged) (CWorld.init 1) w ∧ w.pc = .returned (vocabCall ['a']) false ∧ HasResults oneFile tagged w ['a'] ['u'] := by
  obtain ⟨w, h, h1, _⟩ := corpus_first
  exact ⟨w, ccareful_of h, h1, C60_results_partial oneFile (by decide) tagged 1 (ccareful_of h) _ _ h1 (.inr rfl)⟩

example (c : Call) : ∃ v early, Spec.Star (CorpusStep oneFile tagged) (CWorld.init 1) v ∧ v.pc = .returned c early :=
  C60_finishes_partial oneFile (by decide) (by decide) tagged 1 .refl rfl c (fun _ _ h => by cases h) (fun _ _ h => by cases h)

end Verif.Props
