import Verif.Proofs.Total
import Verif.Props.VocabMerge
/-!
# C93: The frequencies in the vocabulary add up to the size of the corpus
-/
namespace Verif.Props
open Verif Spec

/-- **C93** The counts in the vocabulary of some files add up to their size, whatever the files contain. -/
theorem C93_total (texts : List Str) : countsTotal (getVocab texts) = calcCorpusSize texts := by
  unfold getVocab
  rw [countsTotal_getVocab_aux, countsTotal_nil, Nat.zero_add]

example : countsTotal (getVocab ["a b\n\nc ".toList, "a".toList]) = 6 ∧ calcCorpusSize ["a b\n\nc ".toList, "a".toList] = 6 := by
  decide

theorem count_fileLines (c : Char) (s : Str) : ((fileLines s).map fun l => l.count c).sum = s.count c := by
  induction s with
  | nil => rfl
  | cons a s ih =>
    rw [fileLines]
    by_cases h : a = '\n'
    · subst h
      rw [if_pos rfl, List.map_cons, List.sum_cons, ih, List.count_cons, List.count_cons, List.count_nil]
      omega
    · rw [if_neg h]
      cases hs : fileLines s with
      | nil =>
        rw [hs] at ih
        simp only [List.map_cons, List.map_nil, List.sum_cons, List.sum_nil] at ih ⊢
        rw [List.count_cons, List.count_cons, List.count_nil, ← ih, Nat.add_zero]
      | cons l ls =>
        rw [hs] at ih
        simp only [List.map_cons, List.sum_cons] at ih ⊢
        rw [List.count_cons, List.count_cons, ← ih]
        omega

theorem count_univNl (s : Str) : (univNl s).count ' ' = s.count ' ' := by
  fun_induction univNl s with
  | case1 => rfl
  | case2 r ih => rw [List.count_cons_of_ne (by decide), ih, List.count_cons_of_ne (by decide), List.count_cons_of_ne (by decide)]
  | case3 r _ ih => rw [List.count_cons_of_ne (by decide), ih, List.count_cons_of_ne (by decide)]
  | case4 c r _ _ ih => rw [List.count_cons, List.count_cons, ih]

/-- **C93** The size of a corpus is the number of spaces in its files together with the number of their lines. -/
theorem C93_size (texts : List Str) :
    calcCorpusSize texts = (texts.map fun t => t.count ' ' + (readLines t).length).sum := by
  unfold calcCorpusSize
  congr 1
  refine List.map_congr_left fun t _ => ?_
  have h : (readLines t).map (fun line => (pySplit ' ' line).length) = (readLines t).map fun l => l.count ' ' + 1 :=
    List.map_congr_left fun l _ => length_pySplit ' ' l
  rw [calcNTokens, h, sum_map_add', readLines, count_fileLines, count_univNl]
  congr 1
  generalize fileLines (univNl t) = ls
  induction ls with
  | nil => rfl
  | cons l ls ih => rw [List.map_cons, List.sum_cons, ih, List.length_cons]; omega

/-- The totals of the partial vocabularies. -/
theorem parts_total {texts : List Str} {parts : List (Dict Str Nat × Nat)} (h : partialCounts texts = .ok parts) :
    ((parts.map (·.1)).map countsTotal).sum = calcCorpusSize texts := by
  obtain ⟨gs, h1, h2⟩ := partialCounts_spec h
  have h3 : calcCorpusSize texts = calcCorpusSize gs.flatten := (h1.map calcNTokens).sum_nat.symm
  rw [h2, List.map_map, h3]
  clear h1 h2 h3
  induction gs with
  | nil => rfl
  | cons g gs ih =>
    rw [List.map_cons, List.sum_cons, ih, List.flatten_cons, calcCorpusSize, calcCorpusSize, List.map_append, List.sum_append]
    exact congrArg (· + _) (C93_total g)

/-- The words of some files, in order: every line is split at every space. -/
def wordsOfFiles (texts : List Str) : List Str := (texts.flatMap readFileContents).flatMap (pySplit ' ')

theorem getVocab_eq (texts : List Str) : getVocab texts = counterUpdate [] (wordsOfFiles texts) := by
  have lines : ∀ (ls : List Str) (d : Dict Str Nat),
      ls.foldl (fun d line => counterUpdate d (pySplit ' ' line)) d = counterUpdate d (ls.flatMap (pySplit ' ')) := by
    intro ls
    induction ls with
    | nil => intro d; rfl
    | cons l ls ih => intro d; rw [List.foldl_cons, ih, List.flatMap_cons, counterUpdate_append]
  suffices H : ∀ (texts : List Str) (d : Dict Str Nat), texts.foldl (fun d t => (readFileContents t).foldl
      (fun d line => counterUpdate d (pySplit ' ' line)) d) d = counterUpdate d (wordsOfFiles texts) from H texts []
  intro texts
  induction texts with
  | nil => intro d; rfl
  | cons t ts ih =>
    intro d
    rw [List.foldl_cons, ih, lines, ← counterUpdate_append, wordsOfFiles, wordsOfFiles, List.flatMap_cons, List.flatMap_append]

/-- **C93** In the vocabulary of some files every word has the number of its occurrences. -/
theorem C93_words (texts : List Str) (w : Str) :
    countIn (getVocab texts) w = (wordsOfFiles texts).count w ∧ (w ∈ (getVocab texts).map (·.1) ↔ w ∈ wordsOfFiles texts) := by
  rw [← Dict.getD_eq_count (getVocab_WF texts), getVocab_eq, counterUpdate_get]
  refine ⟨by simp [Dict.get?], ?_⟩
  have := counterUpdate_keys [] (wordsOfFiles texts) w
  simpa [Dict.keys] using this

example : wordsOfFiles ["a b\n\na ".toList, "b".toList] = ["a", "b", "", "a", "", "b"].map String.toList := by decide +kernel

/-- **C93** However many processes calculate the vocabulary of whatever files, and in whatever order they work, the frequencies
in the vocabulary file add up to the size of the corpus. -/
theorem C93_schedule {texts : List Str} (h0 : texts ≠ []) {n : Nat} (hn : 0 < n) {dir : DumpDir} (hd : readyName ∉ dir.map (·.1)) :
    ∃ parts, partialCounts texts = .ok parts ∧ ∀ dk, Star (WStep parts n) (World.first dir) ⟨dk, .returned⟩ →
      ∃ d : List (Str × Nat), dk.vocab = some (d.map fun e => e.1 ++ '\t' :: (natStr e.2 ++ ['\n'])).flatten ∧
        (d.map (·.1)).Nodup ∧ countsTotal d = calcCorpusSize texts ∧
        ∀ w, countIn d w = (wordsOfFiles texts).count w ∧ (w ∈ d.map (·.1) ↔ w ∈ wordsOfFiles texts) := by
  obtain ⟨parts, hp, hp0⟩ := partialCounts_ok texts
  refine ⟨parts, hp, fun dk h => ?_⟩
  have hnd : ∀ p ∈ parts, (p.1.map (·.1)).Nodup := by
    obtain ⟨gs, h1, h2⟩ := partialCounts_spec hp
    intro p hpm
    have : p.1 ∈ parts.map (·.1) := List.mem_map_of_mem hpm
    rw [h2] at this
    obtain ⟨g, _, hg⟩ := List.mem_map.mp this
    rw [← hg]
    exact getVocab_WF g
  obtain ⟨⟨text, h3, d, h4, -, h5⟩, _⟩ := C30_result (hp0 h0) hn hnd hd h
  refine ⟨d, h3.trans (congrArg some h5), h4.once, h4.total.trans (parts_total hp), fun w => ?_⟩
  obtain ⟨gs, h1, h2⟩ := partialCounts_spec hp
  have hm : (wordsOfFiles texts).Perm (gs.flatMap wordsOfFiles) := by
    have e : gs.flatMap wordsOfFiles = wordsOfFiles gs.flatten := by
      clear h1 h2
      induction gs with
      | nil => rfl
      | cons g gs ih =>
        rw [List.flatMap_cons, ih, List.flatten_cons, wordsOfFiles, wordsOfFiles, wordsOfFiles, List.flatMap_append,
          List.flatMap_append]
    rw [e]
    exact ((h1.flatMap_right _).flatMap_right _).symm
  constructor
  · rw [h4.counts w, h2, hm.count_eq, List.count_flatMap, List.map_map]
    congr 1
    exact List.map_congr_left fun g _ => (C93_words g w).1
  · rw [h4.words w, h2, hm.mem_iff, List.mem_flatMap]
    constructor
    · rintro ⟨t, ht, hw⟩
      obtain ⟨g, hg, rfl⟩ := List.mem_map.1 ht
      exact ⟨g, hg, (C93_words g w).2.1 hw⟩
    · rintro ⟨g, hg, hw⟩
      exact ⟨_, List.mem_map_of_mem hg, (C93_words g w).2.2 hw⟩

/-- The text of a vocabulary file. -/
def vocabText (d : List (Str × Nat)) : Str := (d.map fun e => e.1 ++ '\t' :: (natStr e.2 ++ ['\n'])).flatten

/-- **C93** The vocabulary of two corpora together has the sums of their frequencies, in whichever way each of the three was calculated. -/
theorem C93_union {a b : List Str} (ha : a ≠ []) (hb : b ≠ []) {na nb n : Nat} (hna : 0 < na) (hnb : 0 < nb) (hn : 0 < n)
    {dira dirb dir : DumpDir} (hda : readyName ∉ dira.map (·.1)) (hdb : readyName ∉ dirb.map (·.1)) (hd : readyName ∉ dir.map (·.1)) :
    ∃ pa pb p, partialCounts a = .ok pa ∧ partialCounts b = .ok pb ∧ partialCounts (a ++ b) = .ok p ∧
      ∀ dka dkb dk, Star (WStep pa na) (World.first dira) ⟨dka, .returned⟩ → Star (WStep pb nb) (World.first dirb) ⟨dkb, .returned⟩ →
        Star (WStep p n) (World.first dir) ⟨dk, .returned⟩ →
        ∃ va vb v, dka.vocab = some (vocabText va) ∧ dkb.vocab = some (vocabText vb) ∧ dk.vocab = some (vocabText v) ∧
          (va.map (·.1)).Nodup ∧ (vb.map (·.1)).Nodup ∧ (v.map (·.1)).Nodup ∧
          ∀ w, countIn v w = countIn va w + countIn vb w ∧ (w ∈ v.map (·.1) ↔ w ∈ va.map (·.1) ∨ w ∈ vb.map (·.1)) := by
  obtain ⟨pa, h1, g1⟩ := C93_schedule ha hna hda
  obtain ⟨pb, h2, g2⟩ := C93_schedule hb hnb hdb
  obtain ⟨p, h3, g3⟩ := C93_schedule (texts := a ++ b) (by simp [ha]) hn hd
  refine ⟨pa, pb, p, h1, h2, h3, fun dka dkb dk s1 s2 s3 => ?_⟩
  obtain ⟨va, a1, a2, -, a3⟩ := g1 dka s1
  obtain ⟨vb, b1, b2, -, b3⟩ := g2 dkb s2
  obtain ⟨v, c1, c2, -, c3⟩ := g3 dk s3
  refine ⟨va, vb, v, a1, b1, c1, a2, b2, c2, fun w => ?_⟩
  have e : wordsOfFiles (a ++ b) = wordsOfFiles a ++ wordsOfFiles b := by
    rw [wordsOfFiles, wordsOfFiles, wordsOfFiles, List.flatMap_append, List.flatMap_append]
  rw [(c3 w).1, (a3 w).1, (b3 w).1, (c3 w).2, (a3 w).2, (b3 w).2, e, List.count_append, List.mem_append]
  exact ⟨rfl, Iff.rfl⟩

/-- Such an execution exists. -/
example : ∃ parts dk, partialCounts ["a b\n".toList, "a\tb\\ \n\n".toList] = .ok parts ∧
    Star (WStep parts 2) (World.first []) ⟨dk, .returned⟩ := by
  refine ⟨[([("a".toList, 1), ("b".toList, 1)], 0), ([("a\tb\\".toList, 1), ([], 2)], 1)], ?_⟩
  obtain ⟨dk, h⟩ := C30_ends (parts := [([("a".toList, 1), ("b".toList, 1)], 0), ([("a\tb\\".toList, 1), ([], 2)], 1)]) (n := 2)
    (by decide) (by decide) (dir := []) (by decide) .refl
  exact ⟨dk, by decide +kernel, h⟩

/-- What the counts of the words of a list add up to. -/
theorem sum_counts {ws : List Str} {v : Dict Str Int} (hv : v.WF) (h1 : ∀ w, w ∈ v.keys ↔ w ∈ ws)
    (h2 : ∀ w n, v.get? w = some n → n = (ws.count w : Int)) : (v.map (·.2)).sum = (ws.length : Int) := by
  have e : v.map (·.2) = v.keys.map fun w => ((ws.count w : Nat) : Int) := by
    unfold Dict.keys
    rw [List.map_map]
    exact List.map_congr_left fun x hx => h2 _ _ (Dict.mem_get? hv (k := x.1) (v := x.2) hx)
  have g : ∀ l : List Str, (l.map fun w => ((ws.count w : Nat) : Int)).sum = (((l.map fun w => ws.count w).sum : Nat) : Int) := by
    intro l
    induction l with
    | nil => rfl
    | cons a l ih => rw [List.map_cons, List.sum_cons, ih, List.map_cons, List.sum_cons]; omega
  rw [e, g]
  congr 1
  have hc : ∀ w, ws.count w = countIn (ws.map fun w => (w, 1)) w := by
    intro w
    clear h1 h2 e g
    induction ws with
    | nil => rfl
    | cons a ws ih =>
      rw [List.map_cons, countIn_cons, ← ih, List.count_cons]
      by_cases h : a = w <;> simp [h] <;> omega
  have : (v.keys.map fun w => ws.count w) = v.keys.map fun w => countIn (ws.map fun w => (w, 1)) w :=
    List.map_congr_left fun w _ => hc w
  rw [this, sum_countIn hv _ fun x hx => ?_]
  · clear h1 h2 e g hc this
    induction ws with
    | nil => rfl
    | cons a ws ih => rw [List.map_cons, countsTotal_cons, ih, List.length_cons]; omega
  · obtain ⟨w, hw, rfl⟩ := List.mem_map.1 hx
    exact (h1 w).2 hw

/-- **C93** The frequencies in the vocabulary that is loaded for a preprocessed corpus add up to its size, which is the number of its
tokens, for every number of processes and every schedule. -/
theorem C93_loaded {ls : List (List Str)} (h0 : ls ≠ []) (hne : ∀ l ∈ ls, l ≠ []) (hsp : ∀ l ∈ ls, ∀ t ∈ l, ' ' ∉ t)
    {n : Nat} (hn : 0 < n) {dir : DumpDir} (hd : readyName ∉ dir.map (·.1)) :
    ∃ parts, partialCounts (ls.map prepText) = .ok parts ∧ ∀ dk, Star (WStep parts n) (World.first dir) ⟨dk, .returned⟩ →
      ∃ text, dk.vocab = some text ∧ ∃ v : Dict Str Int, loadVocabDict text = .ok v ∧
        (v.map (·.2)).sum = (calcCorpusSize (ls.map prepText) : Int) ∧ calcCorpusSize (ls.map prepText) = ls.flatten.length := by
  obtain ⟨parts, hp, h⟩ := C30_end_to_end h0 hne hsp hn hd
  refine ⟨parts, hp, fun dk hs => ?_⟩
  obtain ⟨text, h1, v, h2, h3, h4, h5⟩ := h dk hs
  have := C35_corpus_size ls hne hsp
  exact ⟨text, h1, v, h2, (sum_counts h3 h4 h5).trans (by rw [this]), this⟩

end Verif.Props
