import Verif.Spec.LearnText
import Verif.Proofs.Recorded
import Verif.Props.Solid
import Verif.Props.Gather
import Verif.Props.LearnDisk
/-!
# C68: merges are learnt from the words that are shown of the texts
-/
namespace Verif.Props
open Verif Verif.Spec Verif.Source Verif.Props.Source
open Verif.Pool (Job GoodJobs GWorld GReachable KeepsFinal KeepsTokens SavesTokens)

/-- What the stage that writes results has for a file: the text of the result, and the tokens that are saved with it, in some order. -/
def JobOf (env : Env) (L : Lexers) (c : PrepConfig) (f : Bytes × Bytes) (j : Job) (out set : List Str) : Prop :=
  ∃ x ts md, ExtensionIs f.1 x ∧ convertText env.ucd (lexText L (parsedText f.2) (some x)) = .ok ts ∧
    toRepr env c (ts ++ [.specialToken Ph.ect]) none = .ok (out, md) ∧ set.Perm md.nonproc ∧
    j.res = .ok (prepText out) (dumpTokenSet set)

/-- What the text functions show of a file, and the metadata. -/
def ShownOf (env : Env) (load : Str → Except PyErr BpeData) (L : Lexers) (b : BpeConfig) (f : Bytes × Bytes) (toks : List Str)
    (md : Meta) : Prop :=
  ∃ x t, ExtensionIs f.1 x ∧ TextOf f.2 t ∧ textApi env load (learnCall b) (lexText L t (some x)) true = .ok (toks, md)

theorem learnCall_config (b : BpeConfig) : textConfig (learnCall b) = .ok b.toPrepConfig := by
  have hv : createStrValue (optsOf (learnCall b)).noStr (optsOf (learnCall b)).maxStrLength = .ok ['E'] := by
    show createStrValue false 14 = _
    decide +kernel
  rw [(textConfig_eq (learnCall b) hv (by decide +kernel)).1]
  unfold configOf BpeConfig.toPrepConfig
  simp [optsOf, learnCall, splitCode, noCaseOf]

theorem toPrepConfig_valid (b : BpeConfig) : b.toPrepConfig.Valid := by
  have hv : createStrValue (optsOf (learnCall b)).noStr (optsOf (learnCall b)).maxStrLength = .ok ['E'] := by
    show createStrValue false 14 = _
    decide +kernel
  have h := (textConfig_eq (learnCall b) hv (by decide +kernel)).1
  rw [learnCall_config] at h
  rw [Except.ok.inj h]
  exact configOf_valid _ (by decide +kernel)

theorem toPrepConfig_nobpe (b : BpeConfig) : b.toPrepConfig.isBpe = false := by
  show decide (['F'] ∈ [['4'], ['5'], ['6'], ['7'], ['8'], ['9']]) = false
  decide

/-- The result of a file and what is shown of its text differ by line breaks only. -/
theorem job_shown {env : Env} {load : Str → Except PyErr BpeData} {L : Lexers} {b : BpeConfig} {f : Bytes × Bytes} {toks : List Str}
    {md : Meta} (hs : ShownOf env load L b f toks md) {j : Job} {out set : List Str} (hj : JobOf env L b.toPrepConfig f j out set)
    (w : Str) (hw : w ≠ ['\n']) : out.count w = toks.count w ∧ (w ∈ set ↔ w ∈ md.nonproc) := by
  obtain ⟨x, t, hx, ht, h⟩ := hs
  obtain ⟨x', ts, fmd, hx', hts, hr, hp, -⟩ := hj
  have e := extension_is hx
  rw [extension_is hx'] at e
  cases e
  have ht := (C66_text _ _).mp ht
  subst ht
  unfold textApi at h
  simp only [learnCall_config, bind, Except.bind] at h
  rw [preprocess_codes (bd := none) (fun h => by rw [toPrepConfig_nobpe] at h; cases h)] at h
  rw [hts] at h
  simp only [bind, Except.bind, finishParsed, if_true] at h
  have hv := toPrepConfig_valid b
  rw [hp.mem_iff]
  by_cases hl : ts.getLast? = some .newLine
  · obtain ⟨pre, rfl⟩ := ends_in hl
    rw [show removeTrailingNewline (pre ++ [.newLine]) = pre by simp [removeTrailingNewline, Tok.isNewLine]] at h
    obtain ⟨m1, e1⟩ := toRepr_newline env hv none
    obtain ⟨m2, e2⟩ := toRepr_eof env hv none
    have hnl : b.toPrepConfig.tabsNewlines ≠ ['0'] := by
      show (['s'] : Str) ≠ ['0']
      decide
    rw [if_neg hnl, toPrepConfig_nobpe] at e1
    simp only [Bool.false_eq_true, if_false] at e1
    cases hq : toRepr env b.toPrepConfig pre none with
    | error e =>
      rw [(C16_failure env _ hv pre [.specialToken Ph.ect] none e).mpr (.inl hq)] at h
      cases h
    | ok r =>
      obtain ⟨r, m'⟩ := r
      obtain ⟨m3, e3, -, -, k3⟩ := C16_compositional env _ hv _ _ none _ _ _ _ hq e1
      obtain ⟨m4, e4, -, -, k4⟩ := C16_compositional env _ hv _ _ none _ _ _ _ e3 e2
      obtain ⟨m5, e5, -, -, k5⟩ := C16_compositional env _ hv _ _ none _ _ _ _ hq e2
      rw [e5] at h
      rw [e4] at hr
      cases h
      cases hr
      have hm1 : w ∉ m1.nonproc := by
        intro hm
        have := (recorded_shown hv (toPrepConfig_nobpe b) e1).2 w hm
        simp at this
        exact hw this
      constructor
      · have h0 : [(['\n'] ++ [] : Str)].count w = 0 := List.count_eq_zero.mpr (by simpa using hw)
        simp only [List.count_append, h0]
        omega
      · rw [k4, k3, k5]
        simp [hm1]
  · have hn : removeTrailingNewline ts = ts := by
      unfold removeTrailingNewline
      cases hg : ts.getLast? with
      | none => rfl
      | some k =>
        rw [hg] at hl
        have : k.isNewLine = false := by
          cases k <;> first | rfl | exact absurd rfl hl
        simp [this]
    rw [hn, hr] at h
    cases h
    exact ⟨rfl, Iff.rfl⟩

/-- The words of a dataset as they are learnt from, and those that are kept whole, in terms of what the text functions show of its files. -/
structure WordsOf (outs : List (List Str)) (mds : List Meta) (ws : Words) : Prop where
  learnt : ∀ w n, w ≠ ['\n'] → ((w, n) ∈ ws.learnt ↔ 0 < n ∧ n = occurrencesIn outs w ∧ ¬ KeptWhole mds w)
  kept : ∀ w n, w ≠ ['\n'] → ((w, n) ∈ ws.kept ↔ 0 < n ∧ n = occurrencesIn outs w ∧ KeptWhole mds w)
  once : ((ws.learnt ++ ws.kept).map (·.1)).Nodup

theorem job_solid {env : Env} (hu : env.ucd.Laws) (hk : KeepsSolid env) {L : Lexers} {b : BpeConfig} {f : Bytes × Bytes} (hl : LexedSolid L f)
    {j : Job} {out set : List Str} (hj : JobOf env L b.toPrepConfig f j out set) :
    out ≠ [] ∧ (∀ t ∈ out, Solid t) ∧ set.Nodup ∧ ∀ t ∈ set, t ∈ out := by
  obtain ⟨x, ts, md, hx, hts, hr, hp, -⟩ := hj
  have hv := toPrepConfig_valid b
  obtain ⟨h1, h2⟩ := fileTokens_solid (bd := none) hu hk hv (toPrepConfig_nobpe b) (fun d hd => by cases hd) hl ⟨x, ts, md, hx, hts, hr⟩
  obtain ⟨h3, h4⟩ := recorded_shown hv (toPrepConfig_nobpe b) hr
  exact ⟨h1, h2, hp.nodup_iff.mpr h3, fun t ht => h4 t (hp.mem_iff.mp ht)⟩

/-- **C68 (partial)** When the files of a dataset have been preprocessed and its vocabulary has been calculated, with any number of
processes and after any crashes that do not cut off a token or the collected tokens, learning starts from exactly the words that the text
functions show of the files, with the numbers of their occurrences; without the words that were recorded as not to be split. -/
theorem C68_ready_partial (env : Env) (hu : env.ucd.Laws) (hk : KeepsSolid env) (L : Lexers) (b : BpeConfig)
    (load : Str → Except PyErr BpeData) (jobs : List Job) (h0 : jobs ≠ []) (hg : GoodJobs jobs) (src : Job → Bytes × Bytes)
    (hl : ∀ j ∈ jobs, LexedSolid L (src j)) (toks : Job → List Str) (md : Job → Meta)
    (hs : ∀ j ∈ jobs, ShownOf env load L b (src j) (toks j) (md j)) (out set : Job → List Str)
    (hj : ∀ j ∈ jobs, JobOf env L b.toPrepConfig (src j) j (out j) (set j))
    (n : Nat) (g : GWorld) (hgr : GReachable true jobs n (fun u v => KeepsFinal u v ∧ KeepsTokens set u v) g) (hd : g.phase = .done)
    (parts : List (Dict Str Nat × Nat)) (hp : partialCounts (jobs.map fun j => prepText (out j)) = .ok parts)
    (k : Nat) (hk0 : 0 < k) (dir : DumpDir) (hdir : readyName ∉ dir.map (·.1)) (dk : Disk)
    (hw : Star (WStep parts k) (World.first dir) ⟨dk, .returned⟩) :
    ∃ all nonBpe, Ready all nonBpe ⟨[], dk.vocab, g.final⟩ ∧
      WordsOf (jobs.map toks) (jobs.map md) (datasetWords all nonBpe) := by
  have hsol := fun j hm => job_solid hu hk (hl j hm) (hj j hm)
  have hsave : SavesTokens set jobs := by
    intro j hm
    refine ⟨(hsol j hm).2.2.1, fun s t h => ?_⟩
    obtain ⟨_, _, _, _, _, _, _, hr⟩ := hj j hm
    rw [hr] at h
    cases h
    rfl
  obtain ⟨nb, ⟨ft, hft, hload⟩, hnb⟩ := Verif.Props.C52_partial hg hsave hgr hd
  have hne : ∀ l ∈ jobs.map out, l ≠ [] := by
    intro l hl'
    obtain ⟨j, hm, rfl⟩ := List.mem_map.mp hl'
    exact (hsol j hm).1
  have hsp : ∀ l ∈ jobs.map out, ∀ t ∈ l, ' ' ∉ t := by
    intro l hl'
    obtain ⟨j, hm, rfl⟩ := List.mem_map.mp hl'
    exact fun t ht => ((hsol j hm).2.1 t ht).2
  have hmap : (jobs.map fun j => prepText (out j)) = (jobs.map out).map prepText := by rw [List.map_map]; rfl
  rw [hmap] at hp
  obtain ⟨parts', hp', hend⟩ := C30_end_to_end (by simpa using h0) hne hsp hk0 hdir
  rw [hp] at hp'
  cases hp'
  obtain ⟨text, ht, v, hv, hwf, hkeys, hvals⟩ := hend dk hw
  have hmem : ∀ w c, (w, c) ∈ v ↔ w ∈ (jobs.map out).flatten ∧ c = ((jobs.map out).flatten.count w : Int) := by
    intro w c
    rw [mem_iff_get? hwf]
    constructor
    · intro h
      exact ⟨(hkeys w).mp (List.mem_map.mpr ⟨(w, c), (mem_iff_get? hwf w c).mpr h, rfl⟩), hvals w c h⟩
    · rintro ⟨h1, rfl⟩
      obtain ⟨⟨w', c'⟩, h2, h3⟩ := List.mem_map.mp ((hkeys w).mpr h1)
      cases h3
      have h2 := (mem_iff_get? hwf w' c').mp h2
      rw [h2, hvals w' c' h2]
  let all : List (Str × Nat) := v.map fun e => (e.1, e.2.toNat)
  have hall : ∀ w c, (w, c) ∈ all ↔ 0 < c ∧ c = (jobs.map out).flatten.count w := by
    intro w c
    constructor
    · intro h
      obtain ⟨⟨w', c'⟩, h1, h2⟩ := List.mem_map.mp h
      cases h2
      obtain ⟨h3, h4⟩ := (hmem w' c').mp h1
      have := List.count_pos_iff.mpr h3
      subst h4
      simp only [Int.toNat_natCast]
      exact ⟨this, trivial⟩
    · rintro ⟨h1, rfl⟩
      refine List.mem_map.mpr ⟨(w, ((jobs.map out).flatten.count w : Int)), (hmem w _).mpr ⟨List.count_pos_iff.mp h1, rfl⟩, by simp⟩
  have hallk : all.map (·.1) = v.keys := by
    show (v.map _).map _ = v.map _
    rw [List.map_map]
    rfl
  have hdist : (all.map (·.1)).Nodup := by rw [hallk]; exact hwf
  have hsolid : ∀ e ∈ all, Solid e.1 := by
    rintro ⟨w, c⟩ he
    obtain ⟨h1, h2⟩ := (hall w c).mp he
    subst h2
    obtain ⟨l, hl', hm⟩ := List.mem_flatten.mp (List.count_pos_iff.mp h1)
    obtain ⟨j, hjm, rfl⟩ := List.mem_map.mp hl'
    exact (hsol j hjm).2.1 w hm
  have hcount : ∀ w, w ≠ ['\n'] → (jobs.map out).flatten.count w = occurrencesIn (jobs.map toks) w := by
    intro w hwn
    unfold occurrencesIn
    rw [List.count_flatten, List.map_map, List.map_map]
    congr 1
    exact List.map_congr_left fun j hm => (job_shown (hs j hm) (hj j hm) w hwn).1
  have hkept : ∀ w, w ≠ ['\n'] → (w ∈ nb ↔ KeptWhole (jobs.map md) w) := by
    intro w hwn
    rw [hnb]
    unfold KeptWhole
    refine or_congr ?_ Iff.rfl
    constructor
    · rintro ⟨j, hm, h⟩
      exact ⟨md j, List.mem_map_of_mem hm, (job_shown (hs j hm) (hj j hm) w hwn).2.mp h⟩
    · rintro ⟨m, hm, h⟩
      obtain ⟨j, hjm, rfl⟩ := List.mem_map.mp hm
      exact ⟨j, hjm, (job_shown (hs j hjm) (hj j hjm) w hwn).2.mpr h⟩
  refine ⟨all, nb, ⟨rfl, ⟨text, ht, ?_⟩, ⟨ft, hft, hload⟩, hdist, ?_, ?_, ?_⟩, ?_, ?_, ?_⟩
  · rw [hv]
    congr 1
    show v = (v.map _).map _
    rw [List.map_map]
    refine (List.map_id v).symm.trans (List.map_congr_left ?_)
    rintro ⟨w, c⟩ he
    have := ((hmem w c).mp he).2
    subst this
    rfl
  · rintro ⟨w, c⟩ he
    exact ((hall w c).mp he).1
  · exact fun e he => ⟨(hsolid e he).2, (hsolid e he).1⟩
  · intro w hm
    rcases (hnb w).mp hm with ⟨j, hjm, h⟩ | h
    · exact ((hsol j hjm).2.1 w ((hsol j hjm).2.2.2 w h)).2
    · revert w
      have : ∀ w ∈ Ph.all, ' ' ∉ w := by decide +kernel
      exact fun w _ h => this w h
  · intro w c hwn
    unfold datasetWords
    simp only [List.mem_filter, hall, hcount w hwn, hkept w hwn, decide_eq_true_eq, and_assoc]
  · intro w c hwn
    unfold datasetWords
    simp only [List.mem_filter, hall, hcount w hwn, hkept w hwn, decide_eq_true_eq, and_assoc]
  · refine ((List.Perm.map _ ?_).nodup_iff).mpr hdist
    unfold datasetWords
    simp only
    have := List.filter_append_perm (fun e : Str × Nat => decide (e.1 ∉ nb)) all
    simpa using this

/-- **C68 (partial)** So all merges that are learnt are learnt from these words: every directory with merges holds the result of learning
from them, after any sequence of runs, and there is a further one for every number of merges. -/
theorem C68_learns_partial (env : Env) (hu : env.ucd.Laws) (hk : KeepsSolid env) (L : Lexers) (b : BpeConfig) (hb : Supported b)
    (load : Str → Except PyErr BpeData) (jobs : List Job) (h0 : jobs ≠ []) (hg : GoodJobs jobs) (src : Job → Bytes × Bytes)
    (hl : ∀ j ∈ jobs, LexedSolid L (src j)) (toks : Job → List Str) (md : Job → Meta)
    (hs : ∀ j ∈ jobs, ShownOf env load L b (src j) (toks j) (md j)) (out set : Job → List Str)
    (hj : ∀ j ∈ jobs, JobOf env L b.toPrepConfig (src j) j (out j) (set j))
    (n : Nat) (g : GWorld) (hgr : GReachable true jobs n (fun u v => KeepsFinal u v ∧ KeepsTokens set u v) g) (hd : g.phase = .done)
    (parts : List (Dict Str Nat × Nat)) (hp : partialCounts (jobs.map fun j => prepText (out j)) = .ok parts)
    (k : Nat) (hk0 : 0 < k) (dir : DumpDir) (hdir : readyName ∉ dir.map (·.1)) (dk : Disk)
    (hw : Star (WStep parts k) (World.first dir) ⟨dk, .returned⟩) :
    ∃ ws, WordsOf (jobs.map toks) (jobs.map md) ws ∧ ∀ d, History b ⟨[], dk.vocab, g.final⟩ [] d →
      (∀ m ∈ d.dirs, ∀ i, pyInt m.name = .ok i → ∃ ms v, Spec.Holds ws m ms v ∧ i = ms.length) ∧
      ∀ i, ∃ r m ms v, learnOnDisk b d i = .ok r ∧ m ∈ (d.save r).dirs ∧ Spec.Holds ws m ms v ∧ ms.length ≤ i.toNat ∧
        (ms.length < i.toNat → ∀ q, weightedCount v q = 0) := by
  obtain ⟨all, nb, hr, hws⟩ := C68_ready_partial env hu hk L b load jobs h0 hg src hl toks md hs out set hj n g hgr hd parts hp k hk0 dir
    hdir dk hw
  exact ⟨_, hws, fun d hh => C59_history_partial hb hr hh⟩

/-- **C68 (partial)** The stages come to this point: there are such runs. -/
theorem C68_possible_partial (env : Env) (hu : env.ucd.Laws) (hk : KeepsSolid env) (L : Lexers) (b : BpeConfig)
    (jobs : List Job) (hg : GoodJobs jobs) (hf : ∀ j ∈ jobs, Pool.Fine ⟨.repr, true, true⟩ j)
    (src : Job → Bytes × Bytes) (hl : ∀ j ∈ jobs, LexedSolid L (src j)) (out set : Job → List Str)
    (hj : ∀ j ∈ jobs, JobOf env L b.toPrepConfig (src j) j (out j) (set j)) (n : Nat) (hn : 0 < n) (k : Nat) (hk0 : 0 < k)
    (dir : DumpDir) (hdir : readyName ∉ dir.map (·.1)) :
    (∃ g, GReachable true jobs n (fun u v => KeepsFinal u v ∧ KeepsTokens set u v) g ∧ g.phase = .done) ∧
    ∃ parts dk, partialCounts (jobs.map fun j => prepText (out j)) = .ok parts ∧ Star (WStep parts k) (World.first dir) ⟨dk, .returned⟩ := by
  have hsave : SavesTokens set jobs := by
    intro j hm
    refine ⟨(job_solid hu hk (hl j hm) (hj j hm)).2.2.1, fun s t h => ?_⟩
    obtain ⟨_, _, _, _, _, _, _, hr⟩ := hj j hm
    rw [hr] at h
    cases h
    rfl
  constructor
  · exact C52_progress_partial hn hg hsave hf .refl rfl rfl
  · obtain ⟨parts, hp, -⟩ := partialCounts_ok (jobs.map fun j => prepText (out j))
    obtain ⟨gs, h1, h2⟩ := partialCounts_spec hp
    have hnd : ∀ p ∈ parts, (p.1.map (·.1)).Nodup := by
      intro p hpm
      have : p.1 ∈ parts.map (·.1) := List.mem_map_of_mem hpm
      rw [h2] at this
      obtain ⟨g, _, hg⟩ := List.mem_map.mp this
      rw [← hg]
      exact getVocab_WF g
    obtain ⟨dk, hdk⟩ := C30_ends hk0 hnd hdir .refl
    exact ⟨parts, dk, hp, hdk⟩

/-! ## An example -/

/-- The file `a.py` with the text `ab`, and what is shown of it. -/
def learnSrc : Bytes × Bytes := (utf8 "d/a.py".toList, utf8 "ab\n".toList)

def learnOut : List Str := ["ab", "\n", "<EOF>"].map String.toList

def learnJob : Job := ⟨utf8 "a.py.prep".toList, .ok (prepText learnOut) (dumpTokenSet (["\n", "<EOF>"].map String.toList))⟩

theorem learnSrc_extension : ExtensionIs learnSrc.1 "py".toList := by
  refine .inl ⟨utf8 "d/".toList, utf8 "a".toList, ?_⟩
  simp only [learnSrc, utf8_eq]; decide +kernel

theorem learnSrc_solid : LexedSolid demoLexers learnSrc := by
  intro x h
  have h1 := extension_is h
  rw [extension_is learnSrc_extension] at h1
  cases h1
  simp only [learnSrc, utf8_eq]; unfold SolidNumber; decide +kernel

theorem learnJob_of (b : BpeConfig) (hb : b.unicode ≠ "no".toList) : JobOf demoEnv demoLexers b.toPrepConfig learnSrc learnJob learnOut
    (["\n", "<EOF>"].map String.toList) := by
  have hc : b.toPrepConfig = ⟨['u'], ['0'], ['E'], ['F'], ['s'], ['u']⟩ := by unfold BpeConfig.toPrepConfig; rw [if_neg hb]
  rw [hc]
  have h : (convertText demoEnv.ucd (lexText demoLexers (parsedText learnSrc.2) (some "py".toList)) >>= fun ts =>
      (toRepr demoEnv ⟨['u'], ['0'], ['E'], ['F'], ['s'], ['u']⟩ (ts ++ [.specialToken Ph.ect]) none).map fun r => (r.1, r.2.nonproc)) =
      .ok (learnOut, ["\n", "<EOF>"].map String.toList) := by
    simp only [learnSrc, utf8_eq]; decide +kernel
  cases ht : convertText demoEnv.ucd (lexText demoLexers (parsedText learnSrc.2) (some "py".toList)) with
  | error e => rw [ht] at h; cases h
  | ok ts =>
    simp only [ht, bind, Except.bind] at h
    cases hr : toRepr demoEnv ⟨['u'], ['0'], ['E'], ['F'], ['s'], ['u']⟩ (ts ++ [.specialToken Ph.ect]) none with
    | error e => rw [hr] at h; cases h
    | ok q =>
      obtain ⟨q1, q2⟩ := q
      rw [hr] at h
      simp only [Except.map, Except.ok.injEq, Prod.mk.injEq] at h
      obtain ⟨rfl, h⟩ := h
      exact ⟨_, ts, q2, learnSrc_extension, ht, hr, by rw [h], rfl⟩

theorem learnShown (b : BpeConfig) (hb : b.unicode ≠ "no".toList) (load : Str → Except PyErr BpeData) :
    ∃ md, ShownOf demoEnv load demoLexers b learnSrc (["ab", "<EOF>"].map String.toList) md ∧ md.nonproc = [Ph.ect] := by
  have hc : b.toPrepConfig = ⟨['u'], ['0'], ['E'], ['F'], ['s'], ['u']⟩ := by unfold BpeConfig.toPrepConfig; rw [if_neg hb]
  have h : (textApi demoEnv load (learnCall b) (lexText demoLexers (parsedText learnSrc.2) (some "py".toList)) true).map
      (fun r => (r.1, r.2.nonproc)) = .ok (["ab", "<EOF>"].map String.toList, [Ph.ect]) := by
    unfold textApi
    simp only [learnCall_config, hc, bind, Except.bind]
    rw [preprocess_codes (bd := none) (fun h => absurd h (by decide))]
    simp only [learnSrc, utf8_eq]
    decide +kernel
  cases ht : textApi demoEnv load (learnCall b) (lexText demoLexers (parsedText learnSrc.2) (some "py".toList)) true with
  | error e => rw [ht] at h; cases h
  | ok q =>
    obtain ⟨q1, q2⟩ := q
    rw [ht] at h
    simp only [Except.map, Except.ok.injEq, Prod.mk.injEq] at h
    obtain ⟨rfl, h⟩ := h
    exact ⟨q2, ⟨_, _, learnSrc_extension, (C66_text _ _).mpr rfl, ht⟩, h⟩

/-- Non-vacuity: for the dataset with this file, whatever the schedule, the only word that is learnt from is `ab`, once. -/
theorem learnSrc_learns (b : BpeConfig) (hb : b.unicode ≠ "no".toList) :
    (∃ g, GReachable true [learnJob] 2 (fun u v => KeepsFinal u v ∧ KeepsTokens (fun _ => ["\n", "<EOF>"].map String.toList) u v) g ∧ g.phase = .done) ∧
    ∀ g, GReachable true [learnJob] 2 (fun u v => KeepsFinal u v ∧ KeepsTokens (fun _ => ["\n", "<EOF>"].map String.toList) u v) g → g.phase = .done →
      ∃ parts, partialCounts [prepText learnOut] = .ok parts ∧ ∀ dk, Star (WStep parts 2) (World.first []) ⟨dk, .returned⟩ →
      ∃ all nonBpe, Ready all nonBpe ⟨[], dk.vocab, g.final⟩ ∧
        ∀ w n, w ≠ ['\n'] → ((w, n) ∈ (datasetWords all nonBpe).learnt ↔ w = "ab".toList ∧ n = 1) := by
  have hg : GoodJobs [learnJob] := by
    constructor
    · decide
    · intro j hj
      obtain rfl := List.mem_singleton.mp hj
      simp only [learnJob, utf8_eq]
      decide +kernel
  have hj : ∀ j ∈ [learnJob], JobOf demoEnv demoLexers b.toPrepConfig learnSrc j learnOut (["\n", "<EOF>"].map String.toList) := by
    intro j hj
    obtain rfl := List.mem_singleton.mp hj
    exact learnJob_of b hb
  have hf : ∀ j ∈ [learnJob], Pool.Fine ⟨.repr, true, true⟩ j := by
    intro j hj
    obtain rfl := List.mem_singleton.mp hj
    exact ⟨by simp [learnJob], by simp [learnJob]⟩
  obtain ⟨md, hs, hmd⟩ := learnShown b hb (fun _ => .error .keyError)
  obtain ⟨h1, parts, -, hp, -⟩ := C68_possible_partial demoEnv asciiUcd_laws demoEnv_keepsSolid demoLexers b [learnJob] hg hf (fun _ => learnSrc)
    (fun _ _ => learnSrc_solid) (fun _ => learnOut) _ hj 2 (by decide) 2 (by decide) [] (by simp)
  refine ⟨h1, fun g hgr hd => ⟨parts, hp, fun dk hdk => ?_⟩⟩
  obtain ⟨all, nb, hr, hw⟩ := C68_ready_partial demoEnv asciiUcd_laws demoEnv_keepsSolid demoLexers b (fun _ => .error .keyError) [learnJob]
    (by simp) hg (fun _ => learnSrc) (fun _ _ => learnSrc_solid) (fun _ => ["ab", "<EOF>"].map String.toList) (fun _ => md) (fun _ _ => hs)
    (fun _ => learnOut) _ hj 2 g hgr hd parts hp 2 (by decide) [] (by simp) dk hdk
  refine ⟨all, nb, hr, fun w n hwn => (hw.learnt w n hwn).trans ?_⟩
  have hkw : KeptWhole ([learnJob].map fun _ => md) w ↔ w ∈ Ph.all := by
    unfold KeptWhole
    simp only [List.map_cons, List.map_nil, List.mem_singleton, exists_eq_left, hmd]
    constructor
    · rintro (rfl | h)
      · decide +kernel
      · exact h
    · exact .inr
  rw [hkw]
  have hocc : occurrencesIn ([learnJob].map fun _ => ["ab", "<EOF>"].map String.toList) w = ["ab".toList, Ph.ect].count w := by
    simp only [occurrencesIn, List.map_cons, List.map_nil, List.sum_cons, List.sum_nil, Nat.add_zero]
    rfl
  rw [hocc]
  by_cases h1 : w = "ab".toList
  · subst h1
    rw [show ["ab".toList, Ph.ect].count "ab".toList = 1 by decide +kernel]
    have : "ab".toList ∉ Ph.all := by decide +kernel
    constructor
    · rintro ⟨-, h, -⟩; exact ⟨rfl, h⟩
    · rintro ⟨-, rfl⟩; exact ⟨by decide, rfl, this⟩
  · constructor
    · rintro ⟨h2, rfl, h3⟩
      have := List.count_pos_iff.mp h2
      simp only [List.mem_cons, List.not_mem_nil, or_false] at this
      rcases this with h | h
      · exact absurd h h1
      · subst h
        exact absurd (by decide +kernel) h3
    · rintro ⟨h2, -⟩
      exact absurd h2 h1

/-! ## Keywords with spaces -/

/-- **C68 is violated** for keywords with spaces: `import static` is recorded as not to be split, but `import` and `static` are words of
the vocabulary and are learnt from, as if they were names. -/
theorem C68_violated :
    (textApi demoEnv (fun _ => .error .keyError) (learnCall plainSettings) importStatic true).map (fun r => (r.1, r.2.nonproc)) =
      .ok (["import static", "a", ";", "<EOF>"].map String.toList, ["import static", ";", "<EOF>"].map String.toList) ∧
    (prepareScratch (getVocab [prepText (["import static", "a", ";", "<EOF>"].map String.toList)])
      (["import static", ";", "<EOF>"].map String.toList)).1 =
      [(["i", "m", "p", "o", "r", "t", "@"].map String.toList, 1), (["s", "t", "a", "t", "i", "c", "@"].map String.toList, 1),
        (["a", "@"].map String.toList, 1)] := by
  refine ⟨by decide +kernel, by decide +kernel⟩

end Verif.Props
