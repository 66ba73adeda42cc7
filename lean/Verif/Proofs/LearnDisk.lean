import Verif.Spec.LearnDisk
import Verif.Props.BpeResume
import Verif.Props.Files
import Verif.Props.Registry
/-!
# Proofs about learning runs on disk
-/
namespace Verif.Props
open Verif Spec Dict

theorem learns_seq {v v' : List (List Str × Nat)} {ms : List ((Str × Str) × Int)} (h : Learns v ms v') :
    v' = mergeSeq (ms.map (·.1)) v := by
  induction h with
  | done v => simp [mergeSeq, seqAll]
  | step _ _ _ ih =>
    rw [ih]
    simp only [mergeSeq, mergeIn, List.map_map]
    rfl

theorem learns_derivable {v v' : List (List Str × Nat)} {ms : List ((Str × Str) × Int)} (h : Learns v ms v') :
    Derivable (Verif.wordsOf v) (ms.map (·.1)) := by
  induction h with
  | done v =>
    intro pre p post e
    cases pre <;> simp at e
  | @step v v' p ms hp _ _ ih =>
    intro pre q post e
    cases pre with
    | nil =>
      simp only [List.map_cons, List.nil_append, List.cons.injEq] at e
      obtain ⟨rfl, _⟩ := e
      obtain ⟨s, f, hs, ha⟩ := weightedCount_pos hp
      exact ⟨s, ⟨f, hs⟩, ha⟩
    | cons x t =>
      simp only [List.map_cons, List.cons_append, List.cons.injEq] at e
      obtain ⟨rfl, e⟩ := e
      obtain ⟨s, ⟨f, hf⟩, ha⟩ := ih t q post e
      simp only [mergeIn, List.mem_map, Prod.mk.injEq] at hf
      obtain ⟨e0, he0, rfl, _⟩ := hf
      exact ⟨e0.1, ⟨e0.2, he0⟩, ha⟩

theorem learns_good {words : Dict Str Nat} (hw : words.WF) (hp : ∀ e ∈ words, 0 < e.2) {ms : List ((Str × Str) × Int)}
    {v : List (List Str × Nat)} (h : Learns (trainingVocab words) ms v) : Good (segAll initSeg (ms.map (·.1))) v := by
  have g := good_training hw hp
  have hv1 := learns_seq h
  constructor
  · intro e he
    rw [hv1] at he
    simp only [mergeSeq, List.mem_map] at he
    obtain ⟨e0, he0, rfl⟩ := he
    exact coh_seqAll (g.coh e0 he0) _
  · have := g.distinct
    rw [hv1]
    simpa [mergeSeq, Function.comp_def, seqAll_flatten] using this
  · intro e he
    rw [hv1] at he
    simp only [mergeSeq, List.mem_map] at he
    obtain ⟨e0, he0, rfl⟩ := he
    exact g.pos e0 he0

/-- Learning further from learnt splits. -/
theorem learn_more {words : Dict Str Nat} (hw : words.WF) (hp : ∀ e ∈ words, 0 < e.2) {ms1 : List ((Str × Str) × Int)}
    {v1 : List (List Str × Nat)} (h : Learns (trainingVocab words) ms1 v1) (n : Nat) :
    ∃ ms2 v2, doMerges v1 n = .ok (v2, ranked 0 ms2) ∧ Learns v1 ms2 v2 ∧ Learns (trainingVocab words) (ms1 ++ ms2) v2 ∧
      ms2.length ≤ n ∧ (ms2.length < n → ∀ q, weightedCount v2 q = 0) := by
  obtain ⟨ms2, v2, r1, r2, r3, r4, _, _⟩ := doMergesLoop_spec n _ _ _ (inv_init (learns_good hw hp h))
  exact ⟨ms2, v2, by simpa [doMerges] using r1, r2, learns_append h r2, r3, r4⟩

theorem learns_nodup {words : Dict Str Nat} {ms : List ((Str × Str) × Int)} {v : List (List Str × Nat)}
    (h : Learns (trainingVocab words) ms v) : (ms.map (·.1)).Nodup :=
  ((learns_derivable h).mono wordsOf_training).nodup allWords_coh

section
variable {all : Dict Str Nat} {nonBpe : List Str}

theorem splits_saved {ms : List ((Str × Str) × Int)} {v : List (List Str × Nat)}
    (h : Learns (trainingVocab (bpeWords all nonBpe)) ms v) :
    (datasetWords all nonBpe).splits v = savedVocab all nonBpe ms := by
  have hv := learns_seq h
  have e1 : (datasetWords all nonBpe).kept = keptWords all nonBpe := by simp [datasetWords, keptWords]
  rw [Words.splits, e1, savedVocab, hv]
  simp [mergeSeq, trainingVocab]

theorem learnt_eq : (datasetWords all nonBpe).learnt = bpeWords all nonBpe := by simp [datasetWords, bpeWords]
theorem kept_eq : (datasetWords all nonBpe).kept = keptWords all nonBpe := by simp [datasetWords, keptWords]

/-- One run in memory, from the splits that an earlier run has reached. -/
theorem learnRun_more (hw : all.WF) (hp : ∀ e ∈ all, 0 < e.2) {ms1 : List ((Str × Str) × Int)}
    {v1 : List (List Str × Nat)} (h : Learns (trainingVocab (bpeWords all nonBpe)) ms1 v1) (n : Nat) (hn : ms1.length ≤ n) :
    ∃ ms2 v2, learnRun v1 ((keptWords all nonBpe).map fun e => ([escape e.1 true], e.2)) (ranked 0 ms1) n =
        .ok ((datasetWords all nonBpe).splits v2, ranked 0 (ms1 ++ ms2)) ∧
      Learns (trainingVocab (bpeWords all nonBpe)) (ms1 ++ ms2) v2 ∧
      (ms1 ++ ms2).length ≤ n ∧ ((ms1 ++ ms2).length < n → ∀ q, weightedCount v2 q = 0) := by
  have hbw : (bpeWords all nonBpe).WF := wf_filter hw _
  have hbp : ∀ e ∈ bpeWords all nonBpe, 0 < e.2 := fun e he => hp e (List.mem_filter.1 he).1
  obtain ⟨ms2, v2, r1, r2, r3, r4, r5⟩ := learn_more hbw hbp h (n - ms1.length)
  refine ⟨ms2, v2, ?_, r3, by rw [List.length_append]; omega, by rw [List.length_append]; intro hl; exact r5 (by omega)⟩
  simp only [learnRun, ranked_length, r1, bind, Except.bind]
  have hv2 := learns_seq r3
  have hpb := putBack hw nonBpe (ms1 ++ ms2)
  rw [splits_saved r3, ← hpb, C14_add_concatenates ms1 ms2 (learns_nodup r3)]
  rw [hv2]
  simp only [mergeSeq, trainingVocab, List.map_map]
  rfl

/-- Subwords of learnt splits hold no spaces. -/
theorem splits_noSpace (hs : ∀ e ∈ all, ' ' ∉ e.1 ∧ e.1 ≠ []) (ms : List ((Str × Str) × Int)) :
    ∀ e ∈ savedVocab all nonBpe ms, e.1 ≠ [] ∧ ∀ p ∈ e.1, ' ' ∉ p := by
  have hesc : ∀ w : Str, ' ' ∉ w → ' ' ∉ escape w true := by
    intro w hw
    rw [escape_eq]
    intro h
    obtain ⟨x, hx, hc⟩ := List.mem_flatten.1 h
    exact noSpace_unitsOf hw x hx hc
  intro e he
  rcases List.mem_append.1 he with h | h
  · obtain ⟨e0, he0, rfl⟩ := List.mem_map.1 h
    have hsp := (hs e0 (List.mem_filter.1 he0).1).1
    have hfl : (seqAll (ms.map (·.1)) (initialSymbols e0.1)).flatten = escape e0.1 true := by
      rw [seqAll_flatten, escape_eq]; rfl
    constructor
    · intro hn
      simp only at hn
      rw [hn] at hfl
      simp [escape] at hfl
    · intro p hp hc
      have : ' ' ∈ (seqAll (ms.map (·.1)) (initialSymbols e0.1)).flatten := List.mem_flatten.2 ⟨p, hp, hc⟩
      rw [hfl] at this
      exact hesc _ hsp this
  · obtain ⟨e0, he0, rfl⟩ := List.mem_map.1 h
    have hsp := (hs e0 (List.mem_filter.1 he0).1).1
    refine ⟨by simp, ?_⟩
    intro p hp
    rw [List.mem_singleton.1 hp]
    exact hesc _ hsp

theorem splitKeys_joinKeys {v : SplitVocab} (h : ∀ e ∈ v, e.1 ≠ [] ∧ ∀ p ∈ e.1, ' ' ∉ p) : splitKeys (joinKeys v) = v := by
  unfold splitKeys joinKeys
  rw [List.map_map]
  conv => rhs; rw [← List.map_id v]
  apply List.map_congr_left
  intro e he
  simp only [Function.comp, id]
  rw [pySplit_pyJoin (h e he).1 (h e he).2]

theorem joinKeys_wf {v : SplitVocab} (hw : v.WF) (h : ∀ e ∈ v, e.1 ≠ [] ∧ ∀ p ∈ e.1, ' ' ∉ p) : (joinKeys v).WF := by
  have e : (Dict.keys v) = (joinKeys v).keys.map (pySplit ' ') := by
    have := congrArg Dict.keys (splitKeys_joinKeys h)
    rw [← this]
    simp [splitKeys, Dict.keys]
  have hw' : (Dict.keys v).Nodup := hw
  rw [e] at hw'
  exact List.Nodup.of_map _ hw'

theorem pairs_noSpace (hs : ∀ e ∈ all, ' ' ∉ e.1 ∧ e.1 ≠ []) {ms : List ((Str × Str) × Int)} {v : List (List Str × Nat)}
    (h : Learns (trainingVocab (bpeWords all nonBpe)) ms v) : ∀ e ∈ ms, ' ' ∉ e.1.1 ∧ ' ' ∉ e.1.2 := by
  intro e he
  obtain ⟨pre, post, hms⟩ := List.append_of_mem he
  obtain ⟨s, ⟨f, hf⟩, ha⟩ := learns_derivable h (pre.map (·.1)) e.1 (post.map (·.1)) (by rw [hms]; simp)
  simp only [trainingVocab, List.mem_map, Prod.mk.injEq] at hf
  obtain ⟨e0, he0, rfl, _⟩ := hf
  have hmem : (seqAll (pre.map (·.1)) (initialSymbols e0.1), e0.2) ∈ savedVocab all nonBpe pre :=
    List.mem_append.2 (Or.inl (List.mem_map.2 ⟨e0, he0, rfl⟩))
  have := (splits_noSpace hs pre _ hmem).2
  exact ⟨this _ ha.mem_left, this _ ha.mem_right⟩

theorem ranked_wf {ms : List ((Str × Str) × Int)} (h : (ms.map (·.1)).Nodup) (i : Nat) : Dict.WF (ranked i ms) := by
  unfold Dict.WF
  rw [ranked_keys]
  exact h

theorem ranked_ranks : ∀ (ms : List ((Str × Str) × Int)) (i : Nat), (ranked i ms).map (·.2.2) = List.range' i ms.length
  | [], _ => rfl
  | (p, f) :: r, i => by simp [ranked, ranked_ranks r (i + 1), List.range'_succ]

theorem ranked_mem : ∀ (ms : List ((Str × Str) × Int)) (i : Nat), ∀ e ∈ ranked i ms, e.2.1 ≠ none ∧ ∃ f, (e.1, f) ∈ ms
  | [], _, e, h => by cases h
  | (p, f) :: r, i, e, h => by
    rcases List.mem_cons.1 h with rfl | h
    · exact ⟨by simp, f, by simp⟩
    · obtain ⟨h1, g, h2⟩ := ranked_mem r (i + 1) e h
      exact ⟨h1, g, List.mem_cons_of_mem _ h2⟩

theorem ranked_take : ∀ (ms : List ((Str × Str) × Int)) (i n : Nat), (ranked i ms).take n = ranked i (ms.take n)
  | [], i, n => by simp [ranked]
  | e :: r, i, 0 => by simp [ranked]
  | (p, f) :: r, i, n + 1 => by simp [ranked, ranked_take r (i + 1) n]

/-- The written merge file is read back. -/
theorem ranked_file (hs : ∀ e ∈ all, ' ' ∉ e.1 ∧ e.1 ≠ []) {ms : List ((Str × Str) × Int)} {v : List (List Str × Nat)}
    (h : Learns (trainingVocab (bpeWords all nonBpe)) ms v) :
    Dict.WF (ranked 0 ms) ∧ (ranked 0 ms).map (·.2.2) = List.range (ranked 0 ms).length ∧
      (∀ e ∈ ranked 0 ms, e.2.1 ≠ none) ∧ (∀ e ∈ ranked 0 ms, ' ' ∉ e.1.1 ∧ ' ' ∉ e.1.2) := by
  refine ⟨ranked_wf (learns_nodup h) 0, by rw [ranked_ranks, ranked_length, List.range_eq_range'], ?_, ?_⟩
  · intro e he; exact (ranked_mem ms 0 e he).1
  · intro e he
    obtain ⟨_, f, hf⟩ := ranked_mem ms 0 e he
    exact pairs_noSpace hs h _ hf

theorem occurrences_mem {v : List (List Str × Nat)} (hp : ∀ e ∈ v, 0 < e.2) (s : Str) :
    0 < occurrences v s ↔ ∃ e ∈ v, s ∈ e.1 := by
  unfold occurrences
  induction v with
  | nil => simp
  | cons e r ih =>
    have := ih (fun x hx => hp x (List.mem_cons_of_mem _ hx))
    simp only [List.map_cons, List.sum_cons, List.mem_cons, exists_eq_or_imp]
    rw [← this, ← List.count_pos_iff]
    have h0 := hp e (by simp)
    constructor
    · intro h
      rcases Nat.eq_zero_or_pos (List.count s e.1) with hc | hc
      · rw [hc] at h; right; simpa using h
      · left; exact hc
    · rintro (h | h)
      · have := Nat.mul_pos h0 h; omega
      · omega

/-- What `save_results` writes. -/
theorem holds_results (hw : all.WF) (hp : ∀ e ∈ all, 0 < e.2) (hs : ∀ e ∈ all, ' ' ∉ e.1 ∧ e.1 ≠ [])
    {ms : List ((Str × Str) × Int)} {v : List (List Str × Nat)} (h : Learns (trainingVocab (bpeWords all nonBpe)) ms v) :
    Holds (datasetWords all nonBpe) (resultsDir ((datasetWords all nonBpe).splits v) (ranked 0 ms)) ms v := by
  have hsv := splits_saved h
  have hns := splits_noSpace (nonBpe := nonBpe) hs ms
  have hwf : (savedVocab all nonBpe ms).WF := wf_of_flatten (saved_wf hw nonBpe ms)
  have hpos : ∀ e ∈ savedVocab all nonBpe ms, 0 < e.2 := by
    intro e he
    rcases List.mem_append.1 he with h | h <;>
    · obtain ⟨e0, he0, rfl⟩ := List.mem_map.1 h
      exact hp e0 (List.mem_filter.1 he0).1
  obtain ⟨q1, q2, q3, q4⟩ := ranked_file hs h
  constructor
  · simp [resultsDir, ranked_length]
  · rw [learnt_eq]; exact h
  · refine ⟨_, rfl, C11_merges_roundtrip _ q1 q2 q3 q4, ?_⟩
    intro n hn
    rw [C11_merges_limit _ n hn q1 q2 q3 q4, ranked_take]
  · refine ⟨_, rfl, ?_⟩
    rw [hsv, C13_vocab_roundtrip _ (joinKeys_wf hwf hns)]
    simp [joinKeys]
  · refine ⟨_, rfl, ?_⟩
    rw [hsv]
    have hc : createBpeCache (savedVocab all nonBpe ms) = (savedVocab all nonBpe ms).map fun e => (e.1.flatten, e.1) := by
      rw [createBpeCache, foldl_set_distinct (fun e : List Str × Nat => e.1.flatten) (fun e => e.1)]
      · simp
      · simpa using saved_wf hw nonBpe ms
    rw [hc]
    refine C12_cache_roundtrip _ ?_ ?_ ?_
    · have := saved_wf hw nonBpe ms
      simpa [Dict.WF, Dict.keys, Function.comp_def] using this
    · intro e he
      obtain ⟨x, hx, rfl⟩ := List.mem_map.1 he
      exact (hns x hx).1
    · intro e he
      obtain ⟨x, hx, rfl⟩ := List.mem_map.1 he
      exact (hns x hx).2
  · rw [hsv]
    have hv := fun s => C09_subword_vocab (savedVocab all nonBpe ms) s
    have hwr : (createResultingVocab (savedVocab all nonBpe ms)).WF := (hv []).2.2
    have hwr' : Dict.WF (sortDesc (createResultingVocab (savedVocab all nonBpe ms))) :=
      ((sortDesc_perm (createResultingVocab (savedVocab all nonBpe ms))).map (fun e : Str × Nat => e.1)).nodup_iff.2 hwr
    refine ⟨_, _, rfl, C13_vocab_roundtrip _ hwr', ?_, ?_, ?_⟩
    · simpa [Function.comp_def, Dict.WF, Dict.keys] using hwr'
    · rw [List.pairwise_map]
      refine (sortDesc_sorted _).imp ?_
      intro a b hab
      simp only
      omega
    · intro s x
      have hocc : occurrences (savedVocab all nonBpe ms) s = ((createResultingVocab (savedVocab all nonBpe ms)).get? s).getD 0 :=
        (hv s).1.symm
      have hhas : 0 < occurrences (savedVocab all nonBpe ms) s ↔ (createResultingVocab (savedVocab all nonBpe ms)).has s = true := by
        rw [occurrences_mem hpos, (hv s).2.1]
      rw [List.mem_map]
      constructor
      · rintro ⟨e, he, hex⟩
        simp only [Prod.mk.injEq] at hex
        obtain ⟨rfl, rfl⟩ := hex
        have he' := (sortDesc_perm _).mem_iff.1 he
        have hg := Dict.mem_get? hwr he'
        rw [hocc, hg]
        refine ⟨by simp, ?_⟩
        have : 0 < occurrences (savedVocab all nonBpe ms) e.1 := hhas.2 (by simp [Dict.has, hg])
        rw [hocc, hg] at this
        exact this
      · rintro ⟨rfl, h0⟩
        have hh := hhas.1 h0
        cases hg : (createResultingVocab (savedVocab all nonBpe ms)).get? s with
        | none => simp [Dict.has, hg] at hh
        | some y =>
          refine ⟨(s, y), (sortDesc_perm _).mem_iff.2 (Dict.get?_some_mem hg), ?_⟩
          rw [hocc, hg]
          rfl

theorem escape_noSpace {w : Str} (hw : ' ' ∉ w) : ' ' ∉ escape w true := by
  rw [escape_eq]
  intro h
  obtain ⟨x, hx, hc⟩ := List.mem_flatten.1 h
  exact noSpace_unitsOf hw x hx hc

theorem loadCounts_of {t : Str} {l : Dict Str Nat} (h : loadVocabDict t = .ok (l.map fun e => (e.1, (e.2 : Int)))) :
    loadCounts t = .ok l := by
  simp only [loadCounts, h, bind, Except.bind, List.map_map]
  congr 1
  conv => rhs; rw [← List.map_id l]
  apply List.map_congr_left
  intro e _
  rfl

/-- `prepare_vocabs` from the file of an earlier run. -/
theorem separate_joined (hw : all.WF) (hs : ∀ e ∈ all, ' ' ∉ e.1 ∧ e.1 ≠ []) (hk : ∀ w ∈ nonBpe, ' ' ∉ w)
    (ms : List ((Str × Str) × Int)) :
    let r := separateVocabs (joinKeys (savedVocab all nonBpe ms)) (fun s => s ∈ nonBpe.map fun w => escape w true)
    (splitKeys r.1, splitKeys r.2) = prepareResume (savedVocab all nonBpe ms) nonBpe := by
  have hns := splits_noSpace (nonBpe := nonBpe) hs ms
  have hwf : (savedVocab all nonBpe ms).WF := wf_of_flatten (saved_wf hw nonBpe ms)
  simp only
  rw [C09_separate_vocabs _ (joinKeys_wf hwf hns), prepareResume, C09_separate_vocabs _ hwf]
  have key : ∀ e ∈ savedVocab all nonBpe ms, (pyJoin [' '] e.1 ∈ nonBpe.map fun w => escape w true) ↔
      (e.1 ∈ nonBpe.map fun w => [escape w true]) := by
    intro e he
    simp only [List.mem_map]
    constructor
    · rintro ⟨w, hw, he'⟩
      refine ⟨w, hw, ?_⟩
      have h1 := pySplit_pyJoin (sep := ' ') (hns e he).1 (hns e he).2
      rw [← he'] at h1
      have h2 := pySplit_pyJoin (sep := ' ') (l := [escape w true]) (by simp)
        (by simpa using escape_noSpace (hk w hw))
      rw [← h1]
      exact h2.symm
    · rintro ⟨w, hw, he'⟩
      exact ⟨w, hw, by rw [← he']; rfl⟩
  have hf : ∀ f : Bool → Bool, splitKeys ((joinKeys (savedVocab all nonBpe ms)).filter fun e =>
      f (decide (e.1 ∈ nonBpe.map fun w => escape w true))) =
      (savedVocab all nonBpe ms).filter fun e => f (decide (e.1 ∈ nonBpe.map fun w => [escape w true])) := by
    intro f
    rw [joinKeys, List.filter_map]
    have e1 : (savedVocab all nonBpe ms).filter ((fun e : Str × Nat => f (decide (e.1 ∈ nonBpe.map fun w => escape w true))) ∘
        fun e => (pyJoin [' '] e.1, e.2)) =
        (savedVocab all nonBpe ms).filter fun e => f (decide (e.1 ∈ nonBpe.map fun w => [escape w true])) := by
      apply List.filter_congr
      intro e he
      simp only [Function.comp]
      rw [decide_eq_decide.2 (key e he)]
    rw [e1]
    exact splitKeys_joinKeys (fun e he => hns e (List.mem_filter.1 he).1)
  exact Prod.ext (hf not) (hf id)

theorem prepareScratch_eq (hw : all.WF) (hs : ∀ e ∈ all, ' ' ∉ e.1 ∧ e.1 ≠ []) :
    prepareScratch all nonBpe = (trainingVocab (bpeWords all nonBpe),
      (keptWords all nonBpe).map (fun e => ([escape e.1 true], e.2))) := by
  have hbw : (bpeWords all nonBpe).WF := wf_filter hw _
  have hbs : ∀ e ∈ bpeWords all nonBpe, ' ' ∉ e.1 ∧ e.1 ≠ [] := fun e he => hs e (List.mem_filter.1 he).1
  simp only [prepareScratch, C09_separate_vocabs all hw]
  rw [show (all.filter fun e => !decide (e.1 ∈ nonBpe)) = bpeWords all nonBpe from rfl,
    show (all.filter fun e => decide (e.1 ∈ nonBpe)) = keptWords all nonBpe from rfl,
    splitBaseVocab_eq _ hbw hbs]
  congr 1
  rw [escapedOther, foldl_set_distinct (fun e : Str × Nat => [escape e.1 true]) (fun e => e.2)]
  · simp
  · have : (keptWords all nonBpe).map (fun e => [escape e.1 true]) =
        (keptWords all nonBpe).keys.map (fun w => [escape w true]) := by simp [Dict.keys]
    simp only [List.map_nil, List.nil_append, this]
    refine List.Nodup.map (fun a b e => escape_inj ?_) (wf_filter hw _)
    simpa using e

theorem natStr_inj {a b : Nat} (h : natStr a = natStr b) : a = b := by
  have h1 := pyInt_natStr a
  rw [h, pyInt_natStr b] at h1
  cases h1
  rfl

/-- What holds at any time for the directories of a dataset. -/
structure DiskInv (all : Dict Str Nat) (nonBpe : List Str) (ks : List Str) (d : LearnDisk) : Prop where
  vocab : ∃ t, d.baseVocab = some t ∧ loadVocabDict t = .ok (all.map fun e => (e.1, (e.2 : Int)))
  nonbpe : ∃ t, d.nonbpe = some t ∧ loadVocabSet t = .ok nonBpe
  nodup : (d.dirs.map (·.name)).Nodup
  dirs : ∀ m ∈ d.dirs, (∀ k, pyInt m.name ≠ .ok k) ∨
    ∃ k : Nat, m.name = natStr k ∧ (m.name ∈ ks ∨ ∃ ms v, Holds (datasetWords all nonBpe) m ms v)

theorem dir_find {dirs : List MergesDir} (h : (dirs.map (·.name)).Nodup) {m : MergesDir} (hm : m ∈ dirs) :
    dirs.find? (·.name = m.name) = some m := by
  induction dirs with
  | nil => cases hm
  | cons x r ih =>
    rw [List.map_cons, List.nodup_cons] at h
    rcases List.mem_cons.1 hm with rfl | hm'
    · simp
    · rw [List.find?_cons_of_neg, ih h.2 hm']
      simp only [decide_eq_true_eq]
      intro e
      exact h.1 (e ▸ List.mem_map.2 ⟨m, hm', rfl⟩)

theorem file_name {d : LearnDisk} (h : (d.dirs.map (·.name)).Nodup) {m : MergesDir} (hm : m ∈ d.dirs) (f : MergesDir → Option Str) :
    d.file m.name f = f m := by
  rw [LearnDisk.file, dir_find h hm]
  rfl

theorem learnt_dir {d : LearnDisk} {m : MergesDir} (hm : m ∈ d.dirs) {k : Nat} (hk : m.name = natStr k) :
    Learnt ⟨[], none, d.dirs.map (·.name)⟩ k :=
  ⟨m.name, List.mem_map.2 ⟨m, hm, rfl⟩, by rw [hk, pyInt_natStr]⟩

theorem dir_learnt {ks : List Str} {d : LearnDisk} (h : DiskInv all nonBpe ks d) {x : Int}
    (hx : Learnt ⟨[], none, d.dirs.map (·.name)⟩ x) : ∃ m ∈ d.dirs, ∃ k : Nat, x = k ∧ m.name = natStr k := by
  obtain ⟨s, hs, hp⟩ := hx
  obtain ⟨m, hm, rfl⟩ := List.mem_map.1 hs
  rcases h.dirs m hm with h' | ⟨k, hk, _⟩
  · exact absurd hp (h' x)
  · refine ⟨m, hm, k, ?_, hk⟩
    rw [hk, pyInt_natStr] at hp
    cases hp
    rfl

/-- The directory a run continues. -/
theorem most_spec {ks : List Str} {d : LearnDisk} (h : DiskInv all nonBpe ks d) (n : Int) :
    (dirWithMost d.dirs n = none ∧ ∀ m ∈ d.dirs, ∀ k : Nat, m.name = natStr k → (k : Int) ≤ n → k = 0) ∨
    ∃ m ∈ d.dirs, ∃ k : Nat, dirWithMost d.dirs n = some m.name ∧ m.name = natStr k ∧ 0 < k ∧ (k : Int) ≤ n ∧
      ∀ m' ∈ d.dirs, ∀ k' : Nat, m'.name = natStr k' → (k' : Int) ≤ n → k' ≤ k := by
  unfold dirWithMost
  cases hg : getMaxMerges (d.dirs.map (·.name)) n with
  | none =>
    refine Or.inl ⟨rfl, ?_⟩
    intro m hm k hk hkn
    have := ((C39_none ⟨[], none, d.dirs.map (·.name)⟩ n).2.1 hg) k (learnt_dir hm hk) hkn
    omega
  | some x =>
    obtain ⟨h1, h2, h3, h4⟩ := (C39_max ⟨[], none, d.dirs.map (·.name)⟩ n x).1 hg
    obtain ⟨m, hm, k, rfl, hk⟩ := dir_learnt h h1
    refine Or.inr ⟨m, hm, k, ?_, hk, by omega, h3, ?_⟩
    · simp only
      rw [if_neg (by omega), hk]
      rfl
    · intro m' hm' k' hk' hkn
      have := h4 k' (learnt_dir hm' hk') hkn
      omega

/-- What a run does if the directory it continues, if any, is in order. -/
theorem run_spec {ks : List Str} {d : LearnDisk} {b : BpeConfig} (hb : checkSupported b = .ok ()) (hw : all.WF)
    (hp : ∀ e ∈ all, 0 < e.2) (hs : ∀ e ∈ all, ' ' ∉ e.1 ∧ e.1 ≠ []) (hk : ∀ w ∈ nonBpe, ' ' ∉ w)
    (h : DiskInv all nonBpe ks d) (n : Int) (hn : ∀ name, dirWithMost d.dirs n = some name → name ∉ ks) :
    ∃ ms1 v1 ms2 v2, 
      ((dirWithMost d.dirs n = none ∧ ms1 = []) ∨
        ∃ m ∈ d.dirs, dirWithMost d.dirs n = some m.name ∧ Holds (datasetWords all nonBpe) m ms1 v1) ∧
      learnOnDisk b d n = .ok (if natStr (ms1 ++ ms2).length ∈ d.dirs.map (·.name) then none
        else some (resultsDir ((datasetWords all nonBpe).splits v2) (ranked 0 (ms1 ++ ms2)))) ∧
      Learns (trainingVocab (bpeWords all nonBpe)) (ms1 ++ ms2) v2 ∧
      (ms1 ++ ms2).length ≤ n.toNat ∧ ((ms1 ++ ms2).length < n.toNat → ∀ q, weightedCount v2 q = 0) := by
  obtain ⟨tv, hv1, hv2⟩ := h.vocab
  obtain ⟨tn, hn1, hn2⟩ := h.nonbpe
  have fin : ∀ (r : Except PyErr (SplitVocab × MergeList)) (x : SplitVocab) (y : List ((Str × Str) × Int)), r = .ok (x, ranked 0 y) →
      (do let (v, ms) ← r
          if natStr ms.length ∈ d.dirs.map (·.name) then Except.ok none
          else .ok (some (resultsDir v ms))) =
      (.ok (if natStr y.length ∈ d.dirs.map (·.name) then none else some (resultsDir x (ranked 0 y))) :
        Except PyErr (Option MergesDir)) := by
    rintro _ x y rfl
    simp only [bind, Except.bind, ranked_length]
    split <;> rfl
  rcases most_spec h n with ⟨h1, h2⟩ | ⟨m, hm, k, h1, h2, h3, h4, h5⟩
  · obtain ⟨ms2, v2, r1, r2, r3, r4⟩ := learnRun_more (nonBpe := nonBpe) hw hp (Learns.done _) n.toNat (by simp)
    refine ⟨[], [], ms2, v2, Or.inl ⟨h1, rfl⟩, ?_, r2, r3, r4⟩
    rw [learnOnDisk, hb, h1]
    simp only [bind, Except.bind, doneMerges, prepareVocabs, hv1, hn1, openText, loadCounts_of hv2, hn2, prepareScratch_eq hw hs]
    exact fin _ _ _ r1
  · rcases h.dirs m hm with h' | ⟨k', hk', h' | ⟨ms1, v1, hh⟩⟩
    · exact absurd (by rw [h2, pyInt_natStr]) (h' k)
    · exact absurd h' (hn _ h1)
    · have hl : ms1.length = k := natStr_inj (hh.name.symm.trans h2)
      have hlearn := hh.learnt
      rw [learnt_eq] at hlearn
      obtain ⟨ms2, v2, r1, r2, r3, r4⟩ := learnRun_more (nonBpe := nonBpe) hw hp hlearn n.toNat (by omega)
      refine ⟨ms1, v1, ms2, v2, Or.inr ⟨m, hm, h1, hh⟩, ?_, r2, r3, r4⟩
      obtain ⟨tm, hm1, hm2, _⟩ := hh.merges
      obtain ⟨ts, hs1, hs2⟩ := hh.splits
      have hs3 : loadCounts ts = .ok (joinKeys (savedVocab all nonBpe ms1)) := by
        apply loadCounts_of
        rw [hs2, splits_saved hlearn]
        simp [joinKeys]
      have hsep := separate_joined hw hs hk ms1
      simp only at hsep
      rw [prepareResume_saved hw] at hsep
      have hv1' := learns_seq hlearn
      have hv1'' : v1 = (bpeWords all nonBpe).map (fun e => (seqAll (ms1.map (·.1)) (initialSymbols e.1), e.2)) := by
        rw [hv1']; simp only [mergeSeq, trainingVocab, List.map_map]; rfl
      rw [← hv1''] at hsep
      have e1 := congrArg Prod.fst hsep
      have e2 := congrArg Prod.snd hsep
      simp only at e1 e2
      rw [learnOnDisk, hb, h1]
      simp only [bind, Except.bind, doneMerges, prepareVocabs, hn1, openText, hn2, file_name h.nodup hm, hm1, hm2, hs1, hs3, e1, e2]
      exact fin _ _ _ r1

/-- The directory written is new and is named after a number. -/
theorem result_name {b : BpeConfig} {d : LearnDisk} {n : Int} {m : MergesDir} (h : learnOnDisk b d n = .ok (some m)) :
    m.name ∉ d.dirs.map (·.name) ∧ ∃ k : Nat, m.name = natStr k := by
  unfold learnOnDisk at h
  simp only [bind, Except.bind] at h
  repeat' split at h
  all_goals first
    | (cases h; done)
    | (cases h; exact ⟨by assumption, _, rfl⟩)

theorem DiskInv.save {ks : List Str} {d : LearnDisk} (h : DiskInv all nonBpe ks d) {m : MergesDir}
    (hm : m.name ∉ d.dirs.map (·.name))
    (hd : (∀ k, pyInt m.name ≠ .ok k) ∨ ∃ k : Nat, m.name = natStr k ∧ (m.name ∈ ks ∨ ∃ ms v, Holds (datasetWords all nonBpe) m ms v)) :
    DiskInv all nonBpe ks (d.save (some m)) := by
  constructor
  · exact h.vocab
  · exact h.nonbpe
  · simp only [LearnDisk.save, List.map_append, List.map_cons, List.map_nil]
    rw [List.nodup_append]
    exact ⟨h.nodup, by simp, fun a ha b hb e => hm (by rw [List.mem_singleton.1 hb] at e; exact e ▸ ha)⟩
  · intro x hx
    rcases List.mem_append.1 hx with hx | hx
    · exact h.dirs x hx
    · rw [List.mem_singleton.1 hx]; exact hd

theorem DiskInv.mono {ks ks' : List Str} {d : LearnDisk} (h : DiskInv all nonBpe ks d) (hk : ∀ k ∈ ks, k ∈ ks') :
    DiskInv all nonBpe ks' d := by
  refine ⟨h.vocab, h.nonbpe, h.nodup, ?_⟩
  intro m hm
  rcases h.dirs m hm with h' | ⟨k, hk', h' | h'⟩
  · exact Or.inl h'
  · exact Or.inr ⟨k, hk', Or.inl (hk _ h')⟩
  · exact Or.inr ⟨k, hk', Or.inr h'⟩

theorem history_inv {d0 d : LearnDisk} {b : BpeConfig} {ks : List Str} (hb : checkSupported b = .ok ())
    (hr : Ready all nonBpe d0) (h : History b d0 ks d) : DiskInv all nonBpe ks d := by
  induction h with
  | start => exact ⟨hr.vocab, hr.nonbpe, by rw [hr.dirs]; simp, by rw [hr.dirs]; simp⟩
  | @run ks d n r _ hl ih =>
    cases r with
    | none =>
      have : taint ks d n none = ks := by unfold taint; split <;> simp_all
      rw [this]; exact ih
    | some m =>
      obtain ⟨hm, k, hk⟩ := result_name hl
      by_cases hc : ∃ name, dirWithMost d.dirs n = some name ∧ name ∈ ks
      · obtain ⟨name, h1, h2⟩ := hc
        have : taint ks d n (some m) = m.name :: ks := by simp [taint, h1, h2]
        rw [this]
        exact (ih.mono (fun k hk => List.mem_cons_of_mem _ hk)).save hm (Or.inr ⟨k, hk, Or.inl (by simp)⟩)
      · have : taint ks d n (some m) = ks := by
          unfold taint
          split
          · next name m' h1 h2 =>
            rw [if_neg (fun h => hc ⟨name, h1, h⟩)]
          · rfl
        rw [this]
        obtain ⟨ms1, v1, ms2, v2, _, h2, h3, _, _⟩ := run_spec hb hr.distinct hr.positive hr.words hr.kept ih n
          (fun name h1 h2 => hc ⟨name, h1, h2⟩)
        rw [hl] at h2
        simp only [Except.ok.injEq] at h2
        split at h2
        · cases h2
        · cases h2
          exact ih.save hm (Or.inr ⟨k, hk, Or.inr ⟨_, _, holds_results hr.distinct hr.positive hr.words h3⟩⟩)
  | @kill ks d n m i j _ hl ih =>
    obtain ⟨hm, k, hk⟩ := result_name hl
    exact (ih.mono (fun k hk => List.mem_cons_of_mem _ hk)).save (m := m.cut i j) hm (Or.inr ⟨k, hk, Or.inl (by simp [MergesDir.cut])⟩)
  | other m _ h1 h2 ih => exact ih.save h2 (Or.inl h1)
  | reorder l _ hp ih =>
    refine ⟨ih.vocab, ih.nonbpe, ?_, ?_⟩
    · exact ((hp.map _).nodup_iff).2 ih.nodup
    · intro m hm; exact ih.dirs m (hp.mem_iff.1 hm)

theorem ranked_inj : ∀ {a b : List ((Str × Str) × Int)} {i : Nat}, ranked i a = ranked i b → a = b
  | [], [], _, _ => rfl
  | [], _ :: _, _, h => by simp [ranked] at h
  | _ :: _, [], _, h => by simp [ranked] at h
  | (p, f) :: a, (q, g) :: b, i, h => by
    simp only [ranked, List.cons.injEq, Prod.mk.injEq, Option.some.injEq] at h
    rw [ranked_inj h.2, h.1.1, h.1.2.1]

/-- The merges a directory holds are determined by its files. -/
theorem holds_unique {ws : Words} {m : MergesDir} {a b : List ((Str × Str) × Int)} {v w : List (List Str × Nat)}
    (h : Holds ws m a v) (h' : Holds ws m b w) : a = b := by
  obtain ⟨t, h1, h2, _⟩ := h.merges
  obtain ⟨t', h3, h4, _⟩ := h'.merges
  rw [h1] at h3
  cases h3
  rw [h2] at h4
  simp only [Except.ok.injEq] at h4
  exact ranked_inj h4

end

end Verif.Props
