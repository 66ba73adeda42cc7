import Verif.Props.BpeLearn
/-!
# C47: continuing an earlier learning run
-/
namespace Verif.Props
open Verif Spec Dict

theorem learns_append {v v1 v2 : List (List Str × Nat)} {a b : List ((Str × Str) × Int)}
    (h1 : Learns v a v1) (h2 : Learns v1 b v2) : Learns v (a ++ b) v2 := by
  induction h1 with
  | done v => simpa using h2
  | step hp hm _ ih => exact Learns.step hp hm (ih h2)

/-- Words of the vocabulary that are not excluded / are excluded from BPE. -/
def bpeWords (all : Dict Str Nat) (nonBpe : List Str) : Dict Str Nat := all.filter (fun e => !decide (e.1 ∈ nonBpe))
/-- See `bpeWords`. -/
def keptWords (all : Dict Str Nat) (nonBpe : List Str) : Dict Str Nat := all.filter (fun e => decide (e.1 ∈ nonBpe))

/-- The saved vocabulary: learnt splits of the words, followed by the words kept whole. -/
def savedVocab (all : Dict Str Nat) (nonBpe : List Str) (ms : List ((Str × Str) × Int)) : SplitVocab :=
  (bpeWords all nonBpe).map (fun e => (seqAll (ms.map (·.1)) (initialSymbols e.1), e.2)) ++
    (keptWords all nonBpe).map (fun e => ([escape e.1 true], e.2))

theorem wf_filter {d : Dict Str Nat} (h : d.WF) (f : Str × Nat → Bool) : Dict.WF (d.filter f) :=
  List.Nodup.sublist (List.filter_sublist.map _) h

theorem saved_flatten (all : Dict Str Nat) (nonBpe : List Str) (ms : List ((Str × Str) × Int)) :
    (savedVocab all nonBpe ms).map (fun e => e.1.flatten) =
      ((bpeWords all nonBpe).keys ++ (keptWords all nonBpe).keys).map (fun w => escape w true) := by
  simp only [savedVocab, List.map_append, List.map_map, Dict.keys]
  congr 1
  · apply List.map_congr_left
    intro e _
    simp only [Function.comp, seqAll_flatten, escape_eq]; rfl
  · apply List.map_congr_left
    intro e _
    simp

theorem keys_disjoint {all : Dict Str Nat} (h : all.WF) (nonBpe : List Str) :
    ((bpeWords all nonBpe).keys ++ (keptWords all nonBpe).keys).Nodup := by
  rw [List.nodup_append]
  refine ⟨wf_filter h _, wf_filter h _, ?_⟩
  intro a ha b hb e
  subst e
  obtain ⟨x, hx, rfl⟩ := List.mem_map.1 ha
  obtain ⟨y, hy, hxy⟩ := List.mem_map.1 hb
  have h1 := (List.mem_filter.1 hx).2
  have h2 := (List.mem_filter.1 hy).2
  simp only [decide_eq_true_eq, Bool.not_eq_true', decide_eq_false_iff_not] at h1 h2
  rw [hxy] at h2
  exact h1 h2

theorem saved_wf {all : Dict Str Nat} (h : all.WF) (nonBpe : List Str) (ms : List ((Str × Str) × Int)) :
    (savedVocab all nonBpe ms).map (fun e => e.1.flatten) |>.Nodup := by
  rw [saved_flatten]
  exact List.Nodup.map (fun a b e => escape_inj e) (keys_disjoint h nonBpe)

theorem wf_of_flatten {v : SplitVocab} (h : (v.map fun e => e.1.flatten).Nodup) : v.WF := by
  have : (v.map fun e => e.1.flatten) = (Dict.keys v).map List.flatten := by simp [Dict.keys]
  rw [this] at h
  exact List.Nodup.of_map _ h

/-- `prepare_vocabs` after a saved run recovers exactly the learnt splits and the words kept whole. -/
theorem prepareResume_saved {all : Dict Str Nat} (h : all.WF) (nonBpe : List Str) (ms : List ((Str × Str) × Int)) :
    prepareResume (savedVocab all nonBpe ms) nonBpe =
      ((bpeWords all nonBpe).map (fun e => (seqAll (ms.map (·.1)) (initialSymbols e.1), e.2)),
       (keptWords all nonBpe).map (fun e => ([escape e.1 true], e.2))) := by
  rw [prepareResume, C09_separate_vocabs _ (wf_of_flatten (saved_wf h nonBpe ms))]
  have hb : ∀ e ∈ (bpeWords all nonBpe).map (fun e => (seqAll (ms.map (·.1)) (initialSymbols e.1), e.2)),
      e.1 ∉ nonBpe.map (fun w => [escape w true]) := by
    intro e he hm
    simp only [List.mem_map] at he hm
    obtain ⟨e0, he0, rfl⟩ := he
    obtain ⟨w, hw, heq⟩ := hm
    have := congrArg List.flatten heq
    rw [seqAll_flatten] at this
    have h2 : escape w true = escape e0.1 true := by
      rw [escape_eq e0.1, unitsOf_eq_initialSymbols]; simpa using this
    have h3 := (List.mem_filter.1 he0).2
    simp only [Bool.not_eq_true', decide_eq_false_iff_not] at h3
    rw [← escape_inj h2] at h3
    exact h3 hw
  have hk : ∀ e ∈ (keptWords all nonBpe).map (fun e => ([escape e.1 true], e.2)),
      e.1 ∈ nonBpe.map (fun w => [escape w true]) := by
    intro e he
    simp only [List.mem_map] at he ⊢
    obtain ⟨e0, he0, rfl⟩ := he
    have h3 := (List.mem_filter.1 he0).2
    simp only [decide_eq_true_eq] at h3
    exact ⟨e0.1, h3, rfl⟩
  simp only [savedVocab, List.filter_append]
  rw [List.filter_eq_self.2 (fun e he => by simpa using hb e he),
    List.filter_eq_nil_iff.2 (fun e he => by simpa using hk e he),
    List.filter_eq_nil_iff.2 (fun e he => by simpa using hb e he),
    List.filter_eq_self.2 (fun e he => by simpa using hk e he)]
  simp

/-- Putting back the kept words after learning. -/
theorem putBack {all : Dict Str Nat} (h : all.WF) (nonBpe : List Str) (ms : List ((Str × Str) × Int)) :
    ((keptWords all nonBpe).map (fun e => ([escape e.1 true], e.2))).foldl
      (fun (d : SplitVocab) e => d.set e.1 e.2)
      ((bpeWords all nonBpe).map (fun e => (seqAll (ms.map (·.1)) (initialSymbols e.1), e.2))) =
    savedVocab all nonBpe ms := by
  rw [foldl_set_distinct (fun e : List Str × Nat => e.1) (fun e => e.2)]
  · simp [savedVocab]
  · have := wf_of_flatten (saved_wf h nonBpe ms)
    simpa [Dict.WF, Dict.keys, savedVocab] using this

/-- **C47** Learning `n` merges, saving, and later continuing up to `m` merges never fails and the complete merge list is
again a correct result of learning from scratch: every merge (old and new) is a most frequent pair with its exact
frequency, ranks are positions, pairs are distinct; the earlier merges are kept unchanged as a prefix; the saved
vocabulary holds for every word the split that encoding with the complete list produces, and the words excluded from
BPE unchanged. -/
theorem C47_resume_learning (all : Dict Str Nat) (nonBpe : List Str) (hw : all.WF) (hp : ∀ e ∈ all, 0 < e.2)
    (hs : ∀ e ∈ all, ' ' ∉ e.1 ∧ e.1 ≠ []) (n m : Nat) (hm : m ≤ sysMaxsize) (hn : n ≤ sysMaxsize) :
    ∃ ms1 ms2 : List ((Str × Str) × Int), ∃ v2,
      learnRun (prepareScratch all nonBpe).1 (prepareScratch all nonBpe).2 [] n =
        .ok (savedVocab all nonBpe ms1, ranked 0 ms1) ∧
      learnRun (prepareResume (savedVocab all nonBpe ms1) nonBpe).1
        (prepareResume (savedVocab all nonBpe ms1) nonBpe).2 (ranked 0 ms1) m =
        .ok (savedVocab all nonBpe (ms1 ++ ms2), ranked 0 (ms1 ++ ms2)) ∧
      Learns (trainingVocab (bpeWords all nonBpe)) (ms1 ++ ms2) v2 ∧
      ((ms1 ++ ms2).map (·.1)).Nodup ∧
      (ms1 ++ ms2).Pairwise (fun a b => b.2 ≤ a.2) ∧
      (∀ w, ' ' ∉ w → encodeWord (escape w true) (ranked 0 (ms1 ++ ms2)) =
        .ok (seqAll ((ms1 ++ ms2).map (·.1)) (initialSymbols w))) := by
  have hbw : (bpeWords all nonBpe).WF := wf_filter hw _
  have hbp : ∀ e ∈ bpeWords all nonBpe, 0 < e.2 := fun e he => hp e (List.mem_filter.1 he).1
  have hbs : ∀ e ∈ bpeWords all nonBpe, ' ' ∉ e.1 ∧ e.1 ≠ [] := fun e he => hs e (List.mem_filter.1 he).1
  have hscr : prepareScratch all nonBpe = (trainingVocab (bpeWords all nonBpe),
      (keptWords all nonBpe).map (fun e => ([escape e.1 true], e.2))) := by
    simp only [prepareScratch, C09_separate_vocabs all hw]
    rw [show (all.filter fun e => !decide (e.1 ∈ nonBpe)) = bpeWords all nonBpe from rfl,
      show (all.filter fun e => decide (e.1 ∈ nonBpe)) = keptWords all nonBpe from rfl,
      splitBaseVocab_eq _ hbw hbs]
    congr 1
    rw [escapedOther, foldl_set_distinct (fun e : Str × Nat => [escape e.1 true]) (fun e => e.2)]
    · simp
    · have : (keptWords all nonBpe).map (fun e => [escape e.1 true]) =
          (keptWords all nonBpe).keys.map (fun w => [escape w true]) := by simp [Dict.keys]
      simp only [List.map_nil, List.nil_append, this]
      refine List.Nodup.map (fun a b e => escape_inj ?_) (wf_filter hw _)
      simpa using e
  obtain ⟨ms1, v1, h1, h2, h3, h4, h5, h6⟩ := learn_result _ hbw hbp n
  have hgood : Good (segAll initSeg (ms1.map (·.1))) v1 := by
    have g := good_training hbw hbp
    have hv1 : v1 = mergeSeq (ms1.map (·.1)) (trainingVocab (bpeWords all nonBpe)) := by
      rw [h5]; simp [mergeSeq, trainingVocab]
    constructor
    · intro e he
      rw [hv1] at he
      simp only [mergeSeq, List.mem_map] at he
      obtain ⟨e0, he0, rfl⟩ := he
      exact coh_seqAll (g.coh e0 he0) _
    · have := g.distinct
      rw [hv1]
      simpa [mergeSeq, Function.comp_def, seqAll_flatten] using this
    · intro e he
      rw [hv1] at he
      simp only [mergeSeq, List.mem_map] at he
      obtain ⟨e0, he0, rfl⟩ := he
      exact g.pos e0 he0
  obtain ⟨ms2, v2, r1, r2, r3, r4, r5, r6⟩ := doMergesLoop_spec (m - ms1.length) _ _ _ (inv_init hgood)
  have r1' : doMerges v1 (m - ms1.length) = .ok (v2, ranked 0 ms2) := by simpa [doMerges] using r1
  have hlearn : Learns (trainingVocab (bpeWords all nonBpe)) (ms1 ++ ms2) v2 := learns_append h2 r2
  have hder : Derivable AllWords ((ms1 ++ ms2).map (·.1)) := by
    intro pre p post e
    rw [List.map_append] at e
    rcases List.append_eq_append_iff.1 e with ⟨c, e1, e2⟩ | ⟨c, e1, e2⟩
    · -- the merge belongs to the second run
      obtain ⟨s, ⟨f, hf⟩, ha⟩ := r6 c p post (by simpa [Dict.keys] using e2)
      rw [h5] at hf
      simp only [List.mem_map, Prod.mk.injEq] at hf
      obtain ⟨e0, _, rfl, _⟩ := hf
      refine ⟨initialSymbols e0.1, ⟨_, rfl⟩, ?_⟩
      rw [e1, seqAll_append]; exact ha
    · cases c with
      | nil =>
        simp only [List.append_nil, List.nil_append] at e1 e2
        obtain ⟨s, ⟨f, hf⟩, ha⟩ := r6 [] p post (by simpa [Dict.keys] using e2.symm)
        rw [h5] at hf
        simp only [List.mem_map, Prod.mk.injEq] at hf
        obtain ⟨e0, _, rfl, _⟩ := hf
        refine ⟨initialSymbols e0.1, ⟨_, rfl⟩, ?_⟩
        rw [← e1]; exact ha
      | cons x t =>
        simp only [List.cons_append, List.cons.injEq] at e2
        obtain ⟨rfl, _⟩ := e2
        obtain ⟨s, hs', ha⟩ := h6 pre p t e1
        exact ⟨s, wordsOf_training s hs', ha⟩
  have hnd := hder.nodup allWords_coh
  have hlen : (ms1 ++ ms2).length ≤ sysMaxsize := by simp only [List.length_append]; omega
  refine ⟨ms1, ms2, v2, ?_, ?_, hlearn, hnd, ?_, ?_⟩
  · rw [hscr]
    simp only [learnRun, List.length_nil, Nat.sub_zero, h1, bind, Except.bind]
    rw [h5, putBack hw]
    have := C14_add_concatenates [] ms1 (by simpa using (List.nodup_append.1 (by simpa using hnd)).1)
    simp only [List.nil_append] at this
    have e : (ranked 0 [] : MergeList) = [] := rfl
    rw [e] at this
    rw [this]
  · rw [prepareResume_saved hw]
    rw [← h5]
    simp only [learnRun, ranked_length, r1', bind, Except.bind]
    have hv2 : v2 = (bpeWords all nonBpe).map
        (fun e => (seqAll ((ms1 ++ ms2).map (·.1)) (initialSymbols e.1), e.2)) := by
      rw [r5, h5]
      simp only [mergeSeq, Dict.keys, List.map_nil, List.nil_append, List.map_map, List.map_append]
      apply List.map_congr_left
      intro e _
      simp [seqAll_append]
    rw [hv2, putBack hw, C14_add_concatenates ms1 ms2 hnd]
  · by_cases hB : ∃ B, ∀ q, weightedCount (trainingVocab (bpeWords all nonBpe)) q ≤ B
    · obtain ⟨B, hB⟩ := hB
      exact (learns_sorted hlearn initSeg (good_training hbw hbp).coh B hB).2
    · generalize ms1 ++ ms2 = ms at *
      cases hlearn with
      | done => simp
      | step hpos hmax _ => exact absurd ⟨_, hmax⟩ hB
  · intro w hsw
    exact encode_eq_seqAll (fun s h => h) hder hlen w hsw

set_option synthInstance.maxSize 1000 in
/-- Non-vacuity of C47: learning 2 merges and then continuing to 4, with one word kept whole. -/
example : (do
    let s := prepareScratch [("bird".toList, 3), ("if".toList, 50), ("word".toList, 7), ("wog".toList, 13)] ["if".toList]
    let (saved, ms1) ← learnRun s.1 s.2 [] 2
    let s := prepareResume saved ["if".toList]
    let (saved', ms2) ← learnRun s.1 s.2 ms1 4
    Except.ok (ms1.length, saved', ms2.keys)) =
  Except.ok (2,
    [(["b".toList, "i".toList, "rd".toList, "@".toList], 3), (["wo".toList, "rd".toList, "@".toList], 7),
     (["wog@".toList], 13), (["if@".toList], 50)],
    [("w".toList, "o".toList), ("g".toList, "@".toList), ("wo".toList, "g@".toList), ("r".toList, "d".toList)]) := by
  decide +kernel

end Verif.Props
