import Verif.Model.MergeTextDisk
import Verif.Proofs.MergeText
import Verif.Props.LearnDisk
/-!
# Runs of the learner on texts and files (C80)
-/
namespace Verif.Props
open Verif Spec Txt

theorem replaceAll_sym {P : Str → Prop} {p : Str × Str} (hP : P p.1 → P p.2 → P (p.1 ++ p.2)) : ∀ {w : List Str},
    (∀ s ∈ w, P s) → ∀ s ∈ replaceAll p w, P s
  | [], h => by simp [replaceAll]
  | [a], h => by simpa [replaceAll] using h
  | a :: b :: r, h => by
    have ha := h a (by simp)
    have hb := h b (by simp)
    intro s hs
    rw [replaceAll] at hs
    split at hs
    · rename_i e
      rw [List.mem_cons] at hs
      rcases hs with rfl | hs
      · rw [e.1, e.2]; exact hP (by rw [← e.1]; exact ha) (by rw [← e.2]; exact hb)
      · exact replaceAll_sym hP (fun s hs => h s (by simp [hs])) s hs
    · rw [List.mem_cons] at hs
      rcases hs with rfl | hs
      · exact ha
      · exact replaceAll_sym hP (fun s hs => h s (by simp [hs])) s hs

theorem last_flatten {w : List Str} (h : ∀ s ∈ w, s ≠ []) (s : Str) (hl : w.getLast? = some s) : w.flatten.getLast? = s.getLast? := by
  obtain ⟨pre, rfl⟩ := List.getLast?_eq_some_iff.1 hl
  have hs := h s (by simp)
  simp only [List.flatten_append, List.flatten_cons, List.flatten_nil, List.append_nil]
  exact List.getLast?_append_of_ne_nil _ hs

theorem clean_replaceAll {p : Str × Str} {w : List Str} (h : Clean w) : Clean (replaceAll p w) := by
  have hsym : ∀ s ∈ replaceAll p w, s ≠ [] ∧ ' ' ∉ s := by
    refine replaceAll_sym (P := fun s => s ≠ [] ∧ ' ' ∉ s) ?_ h.sym
    rintro ⟨h1, h2⟩ ⟨-, h3⟩
    refine ⟨by simp [h1], ?_⟩
    rw [List.mem_append]
    rintro (h | h)
    · exact h2 h
    · exact h3 h
  refine ⟨?_, hsym, fun s hs => ?_⟩
  · intro e
    have := replaceAll_flatten p w
    rw [e] at this
    obtain ⟨a, r, rfl⟩ := List.exists_cons_of_ne_nil h.ne
    have ha := (h.sym a (by simp)).1
    simp at this
    exact ha this.1
  · rw [← last_flatten (fun s hs => (hsym s hs).1) s hs, replaceAll_flatten]
    rcases List.eq_nil_or_concat w with hw | ⟨pre, z, hw⟩
    · exact absurd hw h.ne
    · have hz : w.getLast? = some z := by rw [hw]; simp
      rw [last_flatten (fun s hs => (h.sym s hs).1) z hz]
      exact h.last z hz

theorem clean_learns {v v' : List (List Str × Nat)} {ms : List ((Str × Str) × Int)} (hl : Learns v ms v') (h : ∀ e ∈ v, Clean e.1) :
    ∀ e ∈ v', Clean e.1 := by
  induction hl with
  | done => exact h
  | step _ _ _ ih =>
    refine ih fun e he => ?_
    unfold mergeIn at he
    rw [List.mem_map] at he
    obtain ⟨e0, he0, rfl⟩ := he
    exact clean_replaceAll (h e0 he0)

theorem texts_splitKeys (v : Dict Str Nat) : spacedTexts (splitKeys v) = v := by
  unfold spacedTexts splitKeys
  rw [List.map_map]
  conv => rhs; rw [← List.map_id v]
  refine List.map_congr_left fun e _ => ?_
  simp only [Function.comp, spacedText_eq, pyJoin_pySplit]
  rfl

theorem resultsDir_text {v : SplitVocab} (hv : ∀ e ∈ v, Clean e.1) (ms : MergeList) :
    Txt.resultsDir (spacedTexts v) ms = Verif.resultsDir v ms := by
  unfold Txt.resultsDir Verif.resultsDir
  rw [createResultingVocab_text hv, createBpeCache_text hv]
  have : spacedTexts v = joinKeys v := by
    unfold spacedTexts joinKeys
    exact List.map_congr_left fun e _ => by rw [spacedText_eq]
  rw [this]

/-- The words to learn from are the same, and they are readable. -/
theorem learnOnDisk_text {b : BpeConfig} {d : LearnDisk} {n : Int} {base other : SplitVocab} (hb : ∀ e ∈ base, Clean e.1)
    (ho : ∀ e ∈ other, Clean e.1) (h1 : Verif.prepareVocabs d (dirWithMost d.dirs n) = .ok (base, other))
    (h2 : Txt.prepareVocabs d (dirWithMost d.dirs n) = .ok (spacedTexts base, spacedTexts other)) :
    Txt.learnOnDisk b d n = Verif.learnOnDisk b d n := by
  unfold Txt.learnOnDisk Verif.learnOnDisk
  simp only [h1, h2]
  cases checkSupported b with
  | error e => rfl
  | ok _ =>
    simp only [bind, Except.bind]
    cases doneMerges d (dirWithMost d.dirs n) with
    | error e => rfl
    | ok done =>
      obtain ⟨h3, h4⟩ := learnRun_text hb ho done n.toNat
      simp only
      rw [h3]
      cases hr : Verif.learnRun base other done n.toNat with
      | error e => rfl
      | ok r =>
        obtain ⟨v, ms⟩ := r
        simp only [textResult]
        rw [resultsDir_text (h4 v ms hr)]

/-- **C80** A run on texts reads and writes the same files as a run on split words, at any point in the history of a dataset (runs,
killed runs, other directories), provided that it does not continue what a killed run left.  So what C59 says about the directories of
learnt merges holds for runs on texts. -/
theorem C80_disk {all : List (Str × Nat)} {nonBpe : List Str} {b : BpeConfig} (hb : Supported b) {d0 d : LearnDisk}
    (hr : Ready all nonBpe d0) {ks : List Str} (h : History b d0 ks d) (n : Int)
    (hn : ∀ name, dirWithMost d.dirs n = some name → name ∉ ks) :
    Txt.learnOnDisk b d n = Verif.learnOnDisk b d n := by
  have inv := history_inv (supported_ok hb) hr h
  obtain ⟨tv, hv1, hv2⟩ := inv.vocab
  obtain ⟨tn, hn1, hn2⟩ := inv.nonbpe
  rcases most_spec inv n with ⟨h1, h2⟩ | ⟨m, hm, k, h1, h2, h3, h4, h5⟩
  · obtain ⟨g1, g2, g3⟩ := prepareScratch_text hr.words nonBpe
    refine learnOnDisk_text g2 g3 ?_ ?_
    · rw [h1]
      simp only [Verif.prepareVocabs, bind, Except.bind, hv1, hn1, openText, loadCounts_of hv2, hn2]
    · rw [h1]
      simp only [Txt.prepareVocabs, bind, Except.bind, hv1, hn1, openText, loadCounts_of hv2, hn2]
      rw [g1]
  · rcases inv.dirs m hm with h' | ⟨k', hk', h' | ⟨ms1, v1, hh⟩⟩
    · exact absurd (by rw [h2, pyInt_natStr]) (h' k)
    · exact absurd h' (hn _ h1)
    · obtain ⟨ts, hs1, hs2⟩ := hh.splits
      have hcl : ∀ e ∈ (datasetWords all nonBpe).splits v1, Clean e.1 := by
        intro e he
        unfold Words.splits at he
        rw [List.mem_append] at he
        rcases he with he | he
        · refine clean_learns hh.learnt ?_ e he
          intro e he
          unfold trainingVocab at he
          rw [List.mem_map] at he
          obtain ⟨e0, he0, rfl⟩ := he
          exact clean_initial (hr.words e0 (List.mem_filter.1 he0).1).1
        · rw [List.mem_map] at he
          obtain ⟨e0, he0, rfl⟩ := he
          exact clean_escape (hr.words e0 (List.mem_filter.1 he0).1).1
      have hs3 : loadCounts ts = .ok (spacedTexts ((datasetWords all nonBpe).splits v1)) := by
        apply loadCounts_of
        rw [hs2]
        simp [spacedTexts, spacedText_eq]
      have hkey : ∀ e ∈ spacedTexts ((datasetWords all nonBpe).splits v1), Clean (pySplit ' ' e.1) := by
        intro e he
        unfold spacedTexts at he
        rw [List.mem_map] at he
        obtain ⟨e0, he0, rfl⟩ := he
        simp only [spacedText_eq]
        rw [(hcl e0 he0).split]
        exact hcl e0 he0
      obtain ⟨g1, g2⟩ := separate_mem (excl := fun s => decide (s ∈ nonBpe.map fun w => escape w true)) (P := fun k => Clean (pySplit ' ' k))
        _ ([], []) hkey (fun e he => by simp at he) (fun e he => by simp at he)
      have hsk : ∀ {l : Dict Str Nat}, (∀ e ∈ l, Clean (pySplit ' ' e.1)) → ∀ e ∈ splitKeys l, Clean e.1 := by
        intro l hl e he
        unfold splitKeys at he
        rw [List.mem_map] at he
        obtain ⟨e0, he0, rfl⟩ := he
        exact hl e0 he0
      refine learnOnDisk_text (hsk g1) (hsk g2) ?_ ?_
      · rw [h1]
        simp only [Verif.prepareVocabs, bind, Except.bind, hn1, openText, hn2, file_name inv.nodup hm, hs1, hs3]
        rfl
      · rw [h1]
        simp only [Txt.prepareVocabs, bind, Except.bind, hn1, openText, hn2, file_name inv.nodup hm, hs1, hs3]
        rw [texts_splitKeys, texts_splitKeys]
        rfl

example : Supported plainSettings ∧ Ready [("abc".toList, 1)] [] abcDisk ∧
    History plainSettings abcDisk [] (abcDisk.save (some abc3)) ∧
    Txt.learnOnDisk plainSettings (abcDisk.save (some abc3)) 1 = .ok (some abc1) := by
  have h : History plainSettings abcDisk [] (abcDisk.save (some abc3)) := History.run History.start abc_run3
  refine ⟨by unfold Supported; decide +kernel, abc_ready, h, ?_⟩
  rw [C80_disk (by unfold Supported; decide +kernel) abc_ready h 1 (fun _ _ => by simp)]
  exact abc_run1

end Verif.Props
