import Verif.Proofs.MergeText
/-!
# Merges are learnt on the text of the words (C80)
-/
namespace Verif.Props
open Verif Spec Txt

/-- "a bb c@" and the pair ("bb", "c@"). -/
def exSplit : List Str := ["a".toList, "bb".toList, "c@".toList]
def exPair : Str × Str := ("bb".toList, "c@".toList)

theorem exSplit_clean : Clean exSplit := by
  refine ⟨by decide, by decide, fun s h => ?_⟩
  have : s = "c@".toList := by simpa [exSplit] using h.symm
  rw [this]; decide

theorem exPair_noSpace : NoSpace exPair := by constructor <;> decide

/-- **C80** The regular expression with which a pair is looked for in the text of a split word finds nothing if the two subwords are not
neighbours in the word.  Otherwise it finds the first place where they are, and gives the subword before and the subword after it. -/
theorem C80_search (p : Str × Str) (hp : NoSpace p) (w : List Str) (hw : Clean w) :
    (search (spacedText [p.1, p.2]) [] (spacedText w) = none ↔ ¬ Adjacent p w) ∧
    ∀ m, search (spacedText [p.1, p.2]) [] (spacedText w) = some m →
      ∃ pre post, w = pre ++ p.1 :: p.2 :: post ∧ ¬ Adjacent p (pre ++ [p.1]) ∧
        spacedText w = m.before ++ m.g1 ++ spacedText [p.1, p.2] ++ m.g3 ++ m.after ∧
        spacedText (pre ++ (p.1 ++ p.2) :: post) = m.before ++ m.g1 ++ (p.1 ++ p.2) ++ m.g3 ++ m.after ∧
        (pre = [] → m.g1 = []) ∧ (∀ u z, pre = u ++ [z] → m.g1 = z ++ [' ']) ∧
        (post = [] → m.g3 = []) ∧ (∀ z u, post = z :: u → m.g3 = ' ' :: z) := by
  obtain ⟨h1, h2⟩ := search_eq hp.1 hp.2 hw
  rw [← spacedText_eq, ← spacedText_eq] at h1 h2
  cases e : findPair p w with
  | none =>
    have hs := h1 e
    rw [hs]
    exact ⟨⟨fun _ => findPair_none e, fun _ => rfl⟩, fun m h => (nomatch h)⟩
  | some q =>
    obtain ⟨pre, post⟩ := q
    obtain ⟨m, hm, f⟩ := h2 pre post e
    obtain ⟨ew, hl⟩ := findPair_some e
    rw [hm]
    refine ⟨⟨fun h => (nomatch h), fun h => absurd ⟨pre, post, ew⟩ h⟩, fun m' h => ?_⟩
    cases h
    refine ⟨pre, post, ew, hl, ?_, ?_, ?_, ?_, ?_, ?_⟩
    · have e2 : m.before ++ m.g1 ++ spacedText [p.1, p.2] ++ m.g3 ++ m.after =
          lead pre ++ (p.1 ++ ' ' :: p.2) ++ trail post := by
        have : spacedText [p.1, p.2] = p.1 ++ ' ' :: p.2 := by rw [spacedText_eq, join_cons_cons]; rfl
        rw [f.front, List.nil_append, List.append_assoc _ m.g3, f.back, this]
      rw [e2, ew, spacedText_eq, join_mid]
      simp [trail]
    · rw [f.front, List.nil_append, List.append_assoc _ m.g3, f.back, spacedText_eq, join_mid]
    · rintro rfl; simpa using f.g1
    · rintro u z rfl; simpa using f.g1
    · rintro rfl; simpa using f.g3
    · rintro z u rfl; simpa using f.g3

example : NoSpace exPair ∧ Clean exSplit ∧ Adjacent exPair exSplit ∧
    search (spacedText [exPair.1, exPair.2]) [] (spacedText exSplit) = some ⟨[], "a ".toList, [], []⟩ :=
  ⟨exPair_noSpace, exSplit_clean, ⟨["a".toList], [], rfl⟩, by decide⟩

/-- **C80** Merging a pair in a vocabulary of texts gives the texts of the words with every occurrence of the pair merged, and the changes
that are reported for another pair add up to the change of its number of occurrences. -/
theorem C80_merge (p : Str × Str) (hp : NoSpace p) (h1 : p.1 ≠ []) (h2 : p.2 ≠ []) (v : List (List Str × Nat))
    (hv : ∀ e ∈ v, Clean e.1) (hd : (v.map fun e => e.1.flatten).Nodup) :
    (Txt.mergeVocab p (spacedTexts v)).1 = spacedTexts (mergeIn p v) ∧
    ∀ q, q ≠ p → (((Txt.mergeVocab p (spacedTexts v)).2.filter fun a => a.1 = q).map (·.2)).sum =
      (weightedCount (mergeIn p v) q : Int) - weightedCount v q := by
  obtain ⟨h3, -⟩ := mergeVocab_text hp.1 hp.2 hv
  obtain ⟨added, h4, -, h5⟩ := mergeVocab_spec h1 h2 v hd
  rw [h3, h4]
  refine ⟨rfl, fun q hq => ?_⟩
  rw [← h5 q hq]
  clear h3 h4 h5
  unfold sumAdd
  induction added with
  | nil => rfl
  | cons a l ih =>
    rw [List.map_cons, List.sum_cons, ← ih, List.filter_cons]
    by_cases e : a.1 = q <;> simp [e]

example : NoSpace exPair ∧ exPair.1 ≠ [] ∧ exPair.2 ≠ [] ∧ (∀ e ∈ [(exSplit, 4)], Clean e.1) ∧
    ([(exSplit, 4)].map fun e => e.1.flatten).Nodup ∧
    Txt.mergeVocab exPair (spacedTexts [(exSplit, 4)]) =
      ([("a bbc@".toList, 4)], [(("a".toList, "bbc@".toList), 4), (("a".toList, "bb".toList), -4)]) := by
  refine ⟨exPair_noSpace, by decide, by decide, fun e he => ?_, by simp, by decide⟩
  rw [List.mem_singleton] at he; rw [he]; exact exSplit_clean

/-- **C80** Learning from words without spaces, on their texts: every merge is at its time a most frequent pair, learning stops early
only if no pair is left, and the outcome has the texts of the words with the merges applied. -/
theorem C80_learn (words : Dict Str Nat) (hw : words.WF) (hp : ∀ e ∈ words, 0 < e.2) (hs : ∀ e ∈ words, ' ' ∉ e.1 ∧ e.1 ≠ []) (n : Nat) :
    Txt.splitBaseVocab words = spacedTexts (trainingVocab words) ∧
    ∃ ms v, Txt.doMerges (Txt.splitBaseVocab words) n = .ok (spacedTexts v, ranked 0 ms) ∧ Learns (trainingVocab words) ms v ∧
      ms.length ≤ n ∧ (ms.length < n → ∀ q, weightedCount v q = 0) := by
  obtain ⟨h1, h2⟩ := splitBaseVocab_text hs
  rw [splitBaseVocab_eq words hw hs] at h1 h2
  refine ⟨h1, ?_⟩
  obtain ⟨ms, v, h3, h4, h5, h6, -, -⟩ := learn_result words hw hp n
  refine ⟨ms, v, ?_, h4, h5, h6⟩
  rw [h1, (doMerges_text h2 n).1, h3]
  rfl

example : exWords.WF ∧ (∀ e ∈ exWords, 0 < e.2) ∧ (∀ e ∈ exWords, ' ' ∉ e.1 ∧ e.1 ≠ []) ∧
    Txt.splitBaseVocab exWords = [("b i r d @".toList, 3), ("w o r d @".toList, 7), ("w o g @".toList, 13)] := by
  refine ⟨by decide, by decide, by decide, by decide⟩

/-- **C80** A vocabulary of texts (for example one that was saved by an earlier run) is learnt from as the vocabulary of split words, and
the words that are learnt from stay readable: the cache and the subwords that are saved are those of the split words. -/
theorem C80_any (v : SplitVocab) (hv : ∀ e ∈ v, Clean e.1) (n : Nat) :
    (∀ e, Verif.doMerges v n = .error e → Txt.doMerges (spacedTexts v) n = .error e) ∧
    ∀ v' ms, Verif.doMerges v n = .ok (v', ms) → Txt.doMerges (spacedTexts v) n = .ok (spacedTexts v', ms) ∧
      (∀ e ∈ v', Clean e.1) ∧ Txt.createBpeCache (spacedTexts v') = Verif.createBpeCache v' ∧
      Txt.createResultingVocab (spacedTexts v') = Verif.createResultingVocab v' := by
  obtain ⟨h1, h2⟩ := doMerges_text hv n
  refine ⟨fun e h => by rw [h1, h]; rfl, fun v' ms h => ?_⟩
  have hc := h2 v' ms h
  exact ⟨by rw [h1, h]; rfl, hc, createBpeCache_text hc, createResultingVocab_text hc⟩

example : (∀ e ∈ [(exSplit, 4)], Clean e.1) ∧
    Verif.doMerges [(exSplit, 4)] 5 =
      .ok ([(["abbc@".toList], 4)], [(("a".toList, "bb".toList), (some 4, 0)), (("abb".toList, "c@".toList), (some 4, 1))]) := by
  refine ⟨fun e he => ?_, by rfl⟩
  rw [List.mem_singleton] at he; rw [he]; exact exSplit_clean

/-- **C80** A whole run of the learner on texts, from scratch: it has the outcome of the run on split words. -/
theorem C80_run (all : Dict Str Nat) (hs : ∀ e ∈ all, ' ' ∉ e.1 ∧ e.1 ≠ []) (nonBpe : List Str) (done : MergeList) (n : Nat) :
    (∀ e, Verif.learnRun (Verif.prepareScratch all nonBpe).1 (Verif.prepareScratch all nonBpe).2 done n = .error e →
      Txt.learnRun (Txt.prepareScratch all nonBpe).1 (Txt.prepareScratch all nonBpe).2 done n = .error e) ∧
    ∀ v ms, Verif.learnRun (Verif.prepareScratch all nonBpe).1 (Verif.prepareScratch all nonBpe).2 done n = .ok (v, ms) →
      Txt.learnRun (Txt.prepareScratch all nonBpe).1 (Txt.prepareScratch all nonBpe).2 done n = .ok (spacedTexts v, ms) ∧
      ∀ e ∈ v, Clean e.1 := by
  obtain ⟨h1, h2, h3⟩ := prepareScratch_text hs nonBpe
  obtain ⟨h4, h5⟩ := learnRun_text h2 h3 done n
  rw [h1]
  exact ⟨fun e h => by rw [h4, h]; rfl, fun v ms h => ⟨by rw [h4, h]; rfl, h5 v ms h⟩⟩

/-- **C80** A run that continues from the texts saved by an earlier run has the outcome of the run on split words. -/
theorem C80_resume (saved : SplitVocab) (hv : ∀ e ∈ saved, Clean e.1) (nonBpe : List Str) (hn : ∀ w ∈ nonBpe, ' ' ∉ w) (done : MergeList)
    (n : Nat) :
    let r := Verif.prepareResume saved nonBpe
    let t := Txt.prepareResume (spacedTexts saved) nonBpe
    (∀ e, Verif.learnRun r.1 r.2 done n = .error e → Txt.learnRun t.1 t.2 done n = .error e) ∧
    ∀ v ms, Verif.learnRun r.1 r.2 done n = .ok (v, ms) →
      Txt.learnRun t.1 t.2 done n = .ok (spacedTexts v, ms) ∧ ∀ e ∈ v, Clean e.1 := by
  intro r t
  obtain ⟨h1, h2, h3⟩ := prepareResume_text hv hn
  obtain ⟨h4, h5⟩ := learnRun_text h2 h3 done n
  have ht : t = (spacedTexts r.1, spacedTexts r.2) := h1
  rw [ht]
  exact ⟨fun e h => by rw [h4, h]; rfl, fun v ms h => ⟨by rw [h4, h]; rfl, h5 v ms h⟩⟩

example : (∀ e ∈ exWords, ' ' ∉ e.1 ∧ e.1 ≠ []) ∧ (∀ e ∈ [(exSplit, 4)], Clean e.1) ∧ ∀ w ∈ ["wog".toList], ' ' ∉ w := by
  refine ⟨by decide, fun e he => ?_, by decide⟩
  rw [List.mem_singleton] at he; rw [he]; exact exSplit_clean

example : Txt.prepareScratch exWords ["wog".toList] = ([("b i r d @".toList, 3), ("w o r d @".toList, 7)], [("wog@".toList, 13)]) ∧
    Txt.prepareResume [("b i r d @".toList, 3), ("wog@".toList, 13)] ["wog".toList] =
      ([("b i r d @".toList, 3)], [("wog@".toList, 13)]) := by
  constructor <;> decide

/-- **C80** A word with a space cannot be learnt from: the same merge is tried again, and learning fails. -/
theorem C80_space_violated : Txt.doMerges (Txt.splitBaseVocab [("a b".toList, 3)]) 10 = .error .valueError ∧
    ∃ ms, Txt.doMerges (Txt.splitBaseVocab [("a b".toList, 3)]) 3 = .ok ([("a  b @".toList, 3)], ms) ∧ ms.length = 3 := by
  refine ⟨by rfl, _, rfl, rfl⟩

/-- **C80** The `$` of the regular expression matches before a line feed at the end too: a pair is merged in a word in which its subwords
are not neighbours. -/
theorem C80_linefeed_violated : ¬ Adjacent ("x".toList, "y".toList) ["x".toList, "y\n".toList] ∧
    (Txt.mergeVocab ("x".toList, "y".toList) (spacedTexts [(["x".toList, "y\n".toList], 1)])).1 = [("xy\n".toList, 1)] := by
  refine ⟨?_, by decide⟩
  rw [adjacent_cons_cons]
  rintro (⟨-, h⟩ | h)
  · exact absurd h (by decide)
  · exact adjacent_single _ _ h

end Verif.Props
