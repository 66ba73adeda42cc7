import Verif.Proofs.BpeLearnMore
/-!
# Properties of BPE learning (C05 - C09, C14)
-/
namespace Verif.Props
open Verif Spec Dict

/-- The learnt result, in one place: used by the theorems below. -/
theorem learn_result (words : Dict Str Nat) (hw : words.WF) (hp : ∀ e ∈ words, 0 < e.2) (n : Nat) :
    ∃ ms v', doMerges (trainingVocab words) n = .ok (v', ranked 0 ms) ∧ Learns (trainingVocab words) ms v' ∧
      ms.length ≤ n ∧ (ms.length < n → ∀ q, weightedCount v' q = 0) ∧
      v' = words.map (fun e => (seqAll (ms.map (·.1)) (initialSymbols e.1), e.2)) ∧
      Derivable (wordsOf (trainingVocab words)) (ms.map (·.1)) := by
  obtain ⟨post, v', h1, h2, h3, h4, h5, h6⟩ :=
    doMergesLoop_spec n _ _ _ (inv_init (good_training hw hp))
  refine ⟨post, v', by simpa [doMerges] using h1, h2, h3, h4, ?_, by simpa [Dict.keys] using h6⟩
  rw [h5]
  simp [mergeSeq, trainingVocab, Dict.keys]

/-- The words used by the examples below (the doctest of `do_merges`). -/
def exWords : Dict Str Nat := [("bird".toList, 3), ("word".toList, 7), ("wog".toList, 13)]

example : exWords.WF ∧ (∀ e ∈ exWords, 0 < e.2) ∧ (∀ e ∈ exWords, ' ' ∉ e.1) := by
  refine ⟨by decide, by decide, by decide⟩

/-- The vocabulary built by the learner from words is the specified one: every word is split into its characters. -/
theorem splitBaseVocab_eq (words : Dict Str Nat) (hw : words.WF) (hs : ∀ e ∈ words, ' ' ∉ e.1 ∧ e.1 ≠ []) :
    splitBaseVocab words = trainingVocab words := by
  have key : ∀ e ∈ words, pySplit ' ' (escape (pyJoin [' '] (e.1.map fun c => [c])) false) = initialSymbols e.1 := by
    intro e he
    obtain ⟨h1, h2⟩ := hs e he
    have hdj : ∀ w : Str, ' ' ∉ w → doubleEsc (pyJoin [' '] (w.map fun c => [c])) = pyJoin [' '] (w.map unitOf) := by
      intro w
      induction w with
      | nil => intro _; rfl
      | cons c r ih =>
        intro hc
        have ihr := ih (fun h => hc (List.mem_cons_of_mem _ h))
        cases r with
        | nil => simp [pyJoin, doubleEsc, unitOf]
        | cons d t =>
          simp only [List.map_cons, pyJoin] at ihr ⊢
          rw [← ihr]
          simp [doubleEsc, unitOf, escChar]
    have hjoin : ∀ l : List Str, l ≠ [] → pyJoin [' '] l ++ [' ', escChar] = pyJoin [' '] (l ++ [[escChar]]) := by
      intro l
      induction l with
      | nil => intro h; exact absurd rfl h
      | cons a r ih =>
        intro _
        cases r with
        | nil => simp [pyJoin]
        | cons b t =>
          have := ih (by simp)
          simp only [pyJoin, List.cons_append, List.append_assoc] at this ⊢
          rw [this]
    simp only [escape, Bool.false_eq_true, if_false]
    rw [hdj e.1 h1, hjoin _ (by simpa using h2)]
    have := pySplit_pyJoin (sep := ' ') (l := unitsOf e.1) (by simp [unitsOf]) (noSpace_unitsOf h1)
    exact this
  have hfold : splitBaseVocab words = words.foldl (fun (d : SplitVocab) e => d.set (initialSymbols e.1) e.2) [] := by
    have : ∀ (l : Dict Str Nat) (d : SplitVocab), (∀ e ∈ l, e ∈ words) →
        l.foldl (fun d e => d.set (pySplit ' ' (escape (pyJoin [' '] (e.1.map fun c => [c])) false)) e.2) d =
          l.foldl (fun d e => d.set (initialSymbols e.1) e.2) d := by
      intro l
      induction l with
      | nil => intro d _; rfl
      | cons e r ih =>
        intro d hl
        rw [List.foldl_cons, List.foldl_cons, key e (hl e (by simp)), ih _ (fun x hx => hl x (List.mem_cons_of_mem _ hx))]
    exact this words [] (fun _ h => h)
  rw [hfold, foldl_set_distinct (fun e : Str × Nat => initialSymbols e.1) (fun e => e.2)]
  · simp [trainingVocab]
  · simp only [List.map_nil, List.nil_append]
    have : words.map (fun e => initialSymbols e.1) = (words.map (·.1)).map initialSymbols := by simp
    rw [this]
    exact List.Nodup.map (fun a b h => unitsOf_inj h) hw

example : splitBaseVocab exWords = trainingVocab exWords := by decide

/-- **C05** The split recorded for each training word is the split that encoding with the learnt merges produces;
the cache created from the learnt vocabulary contains exactly these splits.  In addition, for *every* word (seen or not),
encoding equals applying the merges in the order in which they were learnt. -/
theorem C05_learnt_split_eq_encoded (words : Dict Str Nat) (hw : words.WF) (hp : ∀ e ∈ words, 0 < e.2) (n : Nat)
    (hn : n ≤ sysMaxsize) :
    ∃ (split : Str → List Str) (v : SplitVocab) (ms : MergeList),
      doMerges (trainingVocab words) n = .ok (v, ms) ∧
      v = words.map (fun e => (split e.1, e.2)) ∧
      (∀ w, ' ' ∉ w → encodeWord (escape w true) ms = .ok (split w)) ∧
      (∀ w, split w = (ms.keys).foldl (fun s p => replaceAll p s) (initialSymbols w)) ∧
      (∀ w, (createBpeCache v).get? (escape w true) = if w ∈ words.keys then some (split w) else none) := by
  obtain ⟨ms, v', h1, h2, h3, h4, h5, h6⟩ := learn_result words hw hp n
  have hcache : createBpeCache v' =
      words.map (fun e => (escape e.1 true, seqAll (ms.map (·.1)) (initialSymbols e.1))) := by
    rw [createBpeCache, foldl_set_distinct (fun e : List Str × Nat => e.1.flatten) (fun e => e.1), h5]
    · simp only [List.nil_append, List.map_map]
      apply List.map_congr_left
      intro e _
      simp only [Function.comp, seqAll_flatten, escape_eq]; rfl
    · rw [h5]
      simp only [List.map_nil, List.nil_append, List.map_map]
      have : words.map ((fun e : List Str × Nat => e.1.flatten) ∘
          fun e : Str × Nat => (seqAll (ms.map (·.1)) (initialSymbols e.1), e.2)) =
          (words.map (·.1)).map (fun w => escape w true) := by
        rw [List.map_map]
        apply List.map_congr_left
        intro e _
        simp only [Function.comp, seqAll_flatten, escape_eq]; rfl
      rw [this]
      exact List.Nodup.map (fun a b h => escape_inj h) hw
  refine ⟨fun w => seqAll (ms.map (·.1)) (initialSymbols w), v', ranked 0 ms, h1, h5, ?_, ?_, ?_⟩
  · intro w hs
    exact encode_eq_seqAll wordsOf_training h6 (Nat.le_trans h3 hn) w hs
  · intro w; rw [ranked_keys]; rfl
  · intro w
    rw [hcache]
    clear h1 h2 h4 h5 h6 hcache hp hw
    induction words with
    | nil => simp [Dict.get?, Dict.keys]
    | cons e r ih =>
      simp only [List.map_cons, Dict.get?]
      have hk : w ∈ Dict.keys (e :: r) ↔ w = e.1 ∨ w ∈ Dict.keys r := List.mem_cons
      by_cases h : e.1 = w
      · rw [if_pos (by rw [h]), if_pos (hk.2 (Or.inl h.symm)), h]
      · rw [if_neg (fun he => h (escape_inj he)), ih]
        by_cases hm : w ∈ Dict.keys r
        · rw [if_pos hm, if_pos (hk.2 (Or.inr hm))]
        · rw [if_neg hm, if_neg (fun h' => (hk.1 h').elim (fun e' => h e'.symm) hm)]

example : (doMerges (trainingVocab exWords) 4).map (fun r => createBpeCache r.1) =
    .ok [("bird@".toList, ["b".toList, "i".toList, "rd".toList, "@".toList]),
         ("word@".toList, ["wo".toList, "rd".toList, "@".toList]),
         ("wog@".toList, ["wog@".toList])] := by decide +kernel

/-- **C06** Learning follows the specification `Learns`: every merge is, at its time, a most frequent pair of neighbours,
recorded with its exact number of occurrences; the recorded frequencies never increase. -/
theorem C06_most_frequent (words : Dict Str Nat) (hw : words.WF) (hp : ∀ e ∈ words, 0 < e.2) (n : Nat) :
    ∃ ms v', doMerges (trainingVocab words) n = .ok (v', ranked 0 ms) ∧ Learns (trainingVocab words) ms v' ∧
      ms.Pairwise (fun a b => b.2 ≤ a.2) := by
  obtain ⟨ms, v', h1, h2, _⟩ := learn_result words hw hp n
  refine ⟨ms, v', h1, h2, ?_⟩
  by_cases hB : ∃ B, ∀ q, weightedCount (trainingVocab words) q ≤ B
  · obtain ⟨B, hB⟩ := hB
    exact (learns_sorted h2 initSeg (good_training hw hp).coh B hB).2
  · cases h2 with
    | done => simp
    | step hpos hmax _ => exact absurd ⟨_, hmax⟩ hB

set_option synthInstance.maxSize 1000 in
example : doMerges (trainingVocab exWords) 3 = .ok
    ([(["b".toList, "i".toList, "r".toList, "d".toList, "@".toList], 3),
      (["wo".toList, "r".toList, "d".toList, "@".toList], 7), (["wog@".toList], 13)],
     [(("w".toList, "o".toList), (some 20, 0)), (("g".toList, "@".toList), (some 13, 1)),
      (("wo".toList, "g@".toList), (some 13, 2))]) := by decide +kernel

/-- **C07** Learning `n` merges gives the first `n` merges of learning more. -/
theorem C07_fewer_merges_prefix (words : Dict Str Nat) (hw : words.WF) (hp : ∀ e ∈ words, 0 < e.2) (n k : Nat) :
    ∃ v1 v2 ms1 ms2, doMerges (trainingVocab words) n = .ok (v1, ms1) ∧
      doMerges (trainingVocab words) (n + k) = .ok (v2, ms2) ∧ ms1 = ms2.take n := by
  suffices h : ∀ (n k : Nat) (v : SplitVocab) (c : PriorityCounter Pair) (ms : MergeList),
      Inv initSeg (trainingVocab words) v c ms →
      ∃ v1 v2 l1 l2, doMergesLoop n ms.length v c ms = .ok (v1, ms ++ l1) ∧
        doMergesLoop (n + k) ms.length v c ms = .ok (v2, ms ++ l2) ∧ l1 = l2.take n by
    obtain ⟨v1, v2, l1, l2, h1, h2, h3⟩ := h n k _ _ _ (inv_init (good_training hw hp))
    exact ⟨v1, v2, l1, l2, by simpa [doMerges] using h1, by simpa [doMerges] using h2, h3⟩
  intro n k
  induction n with
  | zero =>
    intro v c ms hinv
    obtain ⟨post, v2, h, _⟩ := doMergesLoop_spec (0 + k) v c ms hinv
    exact ⟨v, v2, [], _, by simp [doMergesLoop], h, by simp⟩
  | succ n ih =>
    intro v c ms hinv
    have hstep := inv_step hinv
    have e : n + 1 + k = (n + k) + 1 := by omega
    rw [e]
    simp only [doMergesLoop]
    cases hpp : c.popPair with
    | none => exact ⟨v, v, [], [], by simp, by simp, by simp⟩
    | some x =>
      obtain ⟨best, occ, c'⟩ := x
      rw [hpp] at hstep
      obtain ⟨hocc, hpos, hmax, happ, added, c'', hmv, haa, hinv'⟩ := hstep
      obtain ⟨v1, v2, l1, l2, h1, h2, h3⟩ := ih _ c'' _ hinv'
      simp only [List.length_append, List.length_cons, List.length_nil, Nat.zero_add] at h1 h2
      refine ⟨v1, v2, (best, (some occ, ms.length)) :: l1, (best, (some occ, ms.length)) :: l2, ?_, ?_, by simp [h3]⟩
      · simp [bind, Except.bind, happ, hmv, haa, h1]
      · simp [bind, Except.bind, happ, hmv, haa, h2]

example : ∃ v2 ms2, doMerges (trainingVocab exWords) 5 = .ok (v2, ms2) ∧ ms2.length = 5 := by
  obtain ⟨_, v2, _, ms2, _, h, _⟩ := C07_fewer_merges_prefix exWords (by decide) (by decide) 5 0
  refine ⟨v2, ms2, h, ?_⟩
  have h' : (doMerges (trainingVocab exWords) 5).map (fun r => r.2.length) = .ok 5 := by decide +kernel
  rw [h] at h'
  simpa [Except.map] using h'

/-- **C08** Learning never raises; the words, their order and frequencies are unchanged (only the split changes); merges
have ranks 0, 1, 2, … and pairwise different pairs; fewer merges than requested are learnt only if every word has
become a single subword. -/
theorem C08_learning_total (words : Dict Str Nat) (hw : words.WF) (hp : ∀ e ∈ words, 0 < e.2) (n : Nat) :
    ∃ v ms, doMerges (trainingVocab words) n = .ok (v, ms) ∧
      v.map (fun e => (e.1.flatten, e.2)) = words.map (fun e => (escape e.1 true, e.2)) ∧
      ms.keys.Nodup ∧ (ms.map (fun e => e.2.2)) = List.range ms.length ∧ ms.length ≤ n ∧
      (ms.length < n → ∀ e ∈ v, e.1.length = 1) := by
  obtain ⟨ms, v', h1, h2, h3, h4, h5, h6⟩ := learn_result words hw hp n
  refine ⟨v', ranked 0 ms, h1, ?_, ?_, ?_, by rw [ranked_length]; exact h3, ?_⟩
  · rw [h5, List.map_map]
    apply List.map_congr_left
    intro e _
    simp only [Function.comp, seqAll_flatten, escape_eq]; rfl
  · rw [ranked_keys]
    exact (h6.mono wordsOf_training).nodup allWords_coh
  · have : ∀ (l : List (Pair × Int)) (i : Nat), (ranked i l).map (fun e => e.2.2) = List.range' i l.length := by
      intro l
      induction l with
      | nil => intro i; rfl
      | cons e r ih => intro i; simp [ranked, ih, List.range'_succ]
    rw [this, ranked_length, List.range_eq_range']
  · intro hlt e he
    rw [ranked_length] at hlt
    have hz := h4 hlt
    rw [h5] at he
    simp only [List.mem_map] at he
    obtain ⟨e0, he0, rfl⟩ := he
    have hne := Spec.Coarsens.ne_nil (seqAll_coarsens (ms.map (·.1)) (initialSymbols e0.1)) (by simp [initialSymbols])
    simp only
    match hs : seqAll (ms.map (·.1)) (initialSymbols e0.1), hne with
    | [], h => exact absurd hs h
    | [a], _ => rw [hs]; rfl
    | a :: b :: r, _ =>
      exfalso
      have hq := hz (a, b)
      have hmem : (a :: b :: r, e0.2) ∈ v' := by
        rw [h5]; exact List.mem_map.2 ⟨e0, he0, by rw [hs]⟩
      have hpos := hp e0 he0
      have : ∀ (l : SplitVocab), (a :: b :: r, e0.2) ∈ l → 0 < weightedCount l (a, b) := by
        intro l
        induction l with
        | nil => intro h; simp at h
        | cons x t ih =>
          intro h
          simp only [weightedCount, List.map_cons, List.sum_cons] at ih ⊢
          rcases List.mem_cons.1 h with rfl | h
          · have : 0 < e0.2 * pairCount (a, b) (a :: b :: r) :=
              Nat.mul_pos hpos (pairCount_pos.2 (adjacent_cons_cons.2 (Or.inl ⟨rfl, rfl⟩)))
            simp only; omega
          · have := ih h; omega
      have := this v' hmem
      omega

example : (doMerges (trainingVocab exWords) 10).map (fun r => (r.1, r.2.length)) =
    .ok ([(["bird@".toList], 3), (["word@".toList], 7), (["wog@".toList], 13)], 8) := by decide +kernel

/-- **C09** The vocabulary of subwords gives every subword the sum over all words of (occurrences in the split) x
(frequency of the word), and contains exactly the subwords that occur. -/
theorem C09_subword_vocab (v : SplitVocab) (s : Str) :
    ((createResultingVocab v).get? s).getD 0 = (v.map fun e => e.2 * e.1.count s).sum ∧
    ((createResultingVocab v).has s = true ↔ ∃ e ∈ v, s ∈ e.1) ∧ (createResultingVocab v).WF := by
  suffices h : ∀ (v : SplitVocab) (d : Dict Str Nat), d.WF →
      ((v.foldl (fun d e => e.1.foldl (fun d s => bumpN d s e.2) d) d).get? s).getD 0 =
        (d.get? s).getD 0 + (v.map fun e => e.2 * e.1.count s).sum ∧
      ((v.foldl (fun d e => e.1.foldl (fun d s => bumpN d s e.2) d) d).has s = true ↔
        d.has s = true ∨ ∃ e ∈ v, s ∈ e.1) ∧
      (v.foldl (fun d e => e.1.foldl (fun d s => bumpN d s e.2) d) d).WF by
    obtain ⟨h1, h2, h3⟩ := h v [] (by simp [Dict.WF, Dict.keys])
    refine ⟨by simpa [Dict.get?, createResultingVocab] using h1, ?_, h3⟩
    simpa [Dict.has, Dict.get?, createResultingVocab] using h2
  intro v
  induction v with
  | nil => intro d hd; exact ⟨by simp, by simp, hd⟩
  | cons e r ih =>
    intro d hd
    obtain ⟨h1, h2, h3⟩ := ih (e.1.foldl (fun d s => bumpN d s e.2) d) (wf_resulting _ _ _ hd)
    rw [List.foldl_cons]
    refine ⟨?_, ?_, h3⟩
    · rw [h1, createResultingVocab_inner]; simp [Nat.add_assoc]
    · rw [h2, createResultingVocab_has]
      simp [or_assoc]

example : createResultingVocab [(["a".toList, "b".toList, "a".toList], 2), (["b".toList], 3)] =
    [("a".toList, 4), ("b".toList, 5)] := by decide

/-- **C09** Separating a vocabulary by a set of excluded tokens splits it into the entries with and without these tokens,
keeping order and frequencies. -/
theorem C09_separate_vocabs {κ : Type} [DecidableEq κ] (v : Dict κ Nat) (hv : v.WF) (excl : κ → Bool) :
    separateVocabs v excl = (v.filter (fun e => !excl e.1), v.filter (fun e => excl e.1)) := by
  suffices h : ∀ (v : Dict κ Nat) (a b : Dict κ Nat), (a.keys ++ v.keys).Nodup → (b.keys ++ v.keys).Nodup →
      v.foldl (fun st e => if ¬ excl e.1 then (st.1.set e.1 e.2, st.2) else (st.1, st.2.set e.1 e.2)) (a, b) =
        (a ++ v.filter (fun e => !excl e.1), b ++ v.filter (fun e => excl e.1)) by
    have := h v [] [] (by simpa [Dict.WF, Dict.keys] using hv) (by simpa [Dict.WF, Dict.keys] using hv)
    simpa [separateVocabs] using this
  intro v
  induction v with
  | nil => intro a b _ _; simp
  | cons e r ih =>
    intro a b ha hb
    have ha' : e.1 ∉ a.keys := by
      rw [List.nodup_append] at ha
      intro hm; exact ha.2.2 e.1 hm e.1 (by simp [Dict.keys]) rfl
    have hb' : e.1 ∉ b.keys := by
      rw [List.nodup_append] at hb
      intro hm; exact hb.2.2 e.1 hm e.1 (by simp [Dict.keys]) rfl
    rw [List.foldl_cons]
    by_cases hx : excl e.1 = true
    · simp only [hx, not_true_eq_false, if_false]
      rw [set_of_not_mem _ _ _ hb', ih]
      · simp [hx]
      · have : (a.keys ++ Dict.keys (e :: r)).Nodup := ha
        simp only [Dict.keys, List.map_cons] at this ⊢
        exact List.Nodup.sublist (List.Sublist.append_left (List.sublist_cons_self _ _) _) this
      · simpa [Dict.keys] using hb
    · rw [if_pos hx]
      rw [set_of_not_mem _ _ _ ha', ih]
      · simp [hx]
      · simpa [Dict.keys] using ha
      · have : (b.keys ++ Dict.keys (e :: r)).Nodup := hb
        simp only [Dict.keys, List.map_cons] at this ⊢
        exact List.Nodup.sublist (List.Sublist.append_left (List.sublist_cons_self _ _) _) this

example : separateVocabs [("a".toList, 1), ("while".toList, 2), ("b".toList, 3)] (fun w => w = "while".toList) =
    ([("a".toList, 1), ("b".toList, 3)], [("while".toList, 2)]) := by decide

/-! ## C14 -/

/-- **C14** Appending merges with pairwise different pairs (with no rank, or with their position as rank) gives each
pair its position as rank. -/
theorem C14_ranks_are_positions (mgs : List Merge) (hnd : (mgs.map (·.pair)).Nodup)
    (hr : ∀ i (h : i < mgs.length), mgs[i].priority = none ∨ mgs[i].priority = some i) :
    MergeList.appendAll [] mgs = .ok (mgs.mapIdx fun i m => (m.pair, (m.freq, i))) ∧
    ∀ i (h : i < mgs.length),
      MergeList.priority? (mgs.mapIdx fun i m => (m.pair, (m.freq, i))) mgs[i].pair = some i := by
  have happ : ∀ (l : List Merge) (m : MergeList), (m.keys ++ l.map (·.pair)).Nodup →
      (∀ i (h : i < l.length), l[i].priority = none ∨ l[i].priority = some (m.length + i)) →
      MergeList.appendAll m l = .ok (m ++ l.mapIdx fun i x => (x.pair, (x.freq, m.length + i))) := by
    intro l
    induction l with
    | nil => intro m _ _; simp [MergeList.appendAll]
    | cons x r ih =>
      intro m hn hp
      have hx : x.pair ∉ m.keys := by
        rw [List.nodup_append] at hn
        intro hm; exact hn.2.2 x.pair hm x.pair (by simp) rfl
      have ha : m.append x = .ok (m ++ [(x.pair, (x.freq, m.length))]) := by
        have := hp 0 (by simp)
        simp only [List.getElem_cons_zero, Nat.add_zero] at this
        rcases this with h | h
        · simp [MergeList.append, h, set_of_not_mem _ _ _ hx]
        · simp [MergeList.append, h, set_of_not_mem _ _ _ hx]
      have hrec := ih (m ++ [(x.pair, (x.freq, m.length))]) (by simpa [Dict.keys] using hn) (by
        intro i hi
        have := hp (i + 1) (by simpa using hi)
        simp only [List.getElem_cons_succ] at this
        simp only [List.length_append, List.length_cons, List.length_nil, Nat.zero_add]
        rw [show m.length + 1 + i = m.length + (i + 1) by omega]
        exact this)
      simp only [MergeList.appendAll, ha, bind, Except.bind, hrec]
      congr 1
      simp only [List.append_assoc, List.mapIdx_cons, List.cons_append, List.nil_append, List.length_append,
        List.length_cons, List.length_nil, Nat.add_zero, Nat.zero_add]
      congr 2
      congr 1
      funext i y
      rw [show m.length + 1 + i = m.length + (i + 1) by omega]
  constructor
  · have := happ mgs [] (by simpa [Dict.keys] using hnd) (by simpa using hr)
    simpa using this
  · intro i hi
    have hwf : Dict.WF (mgs.mapIdx fun i m => (m.pair, (m.freq, i))) := by
      have : Dict.keys (mgs.mapIdx fun i m => (m.pair, (m.freq, i))) = mgs.map (·.pair) := by
        apply List.ext_getElem
        · simp [Dict.keys]
        · intro i h1 h2; simp [Dict.keys]
      rw [Dict.WF, this]; exact hnd
    have hmem : (mgs[i].pair, (mgs[i].freq, i)) ∈ (mgs.mapIdx fun i m => (m.pair, (m.freq, i))) := by
      rw [List.mem_mapIdx]
      exact ⟨i, hi, rfl⟩
    simp [MergeList.priority?, mem_get? hwf hmem]

/-- **C14** Appending with a wrong rank is rejected. -/
theorem C14_wrong_rank_rejected (m : MergeList) (mg : Merge) (k : Nat) (h : mg.priority = some k) (hk : k ≠ m.length) :
    m.append mg = .error .valueError := by
  simp [MergeList.append, h, hk]

/-- **C14** Adding two merge lists with disjoint pairs concatenates them and shifts the ranks of the second. -/
theorem C14_add_concatenates (a b : List ((Str × Str) × Int)) (h : ((a ++ b).map (·.1)).Nodup) :
    MergeList.add (ranked 0 a) (ranked 0 b) = .ok (ranked 0 (a ++ b)) := by
  have hrk : ∀ (x y : List (Pair × Int)) (i : Nat), ranked i (x ++ y) = ranked i x ++ ranked (i + x.length) y := by
    intro x
    induction x with
    | nil => intro y i; simp [ranked]
    | cons e r ih => intro y i; simp [ranked, ih]; congr 1; omega
  have happ : ∀ (l : List (Pair × Int)) (m : MergeList) (j : Nat), (m.keys ++ l.map (·.1)).Nodup → m.length = j + a.length →
      MergeList.appendAll m ((MergeList.toMerges (ranked j l)).map
        fun mg => { mg with priority := mg.priority.map (· + a.length) }) = .ok (m ++ ranked (j + a.length) l) := by
    intro l
    induction l with
    | nil => intro m j _ _; simp [MergeList.appendAll, ranked, MergeList.toMerges]
    | cons x r ih =>
      intro m j hn hj
      obtain ⟨p, f⟩ := x
      have hx : p ∉ m.keys := by
        rw [List.nodup_append] at hn
        intro hm; exact hn.2.2 p hm p (by simp) rfl
      have := ih (m ++ [(p, (some f, j + a.length))]) (j + 1) (by simpa [Dict.keys] using hn) (by simp; omega)
      simp only [ranked, MergeList.toMerges, List.map_cons, MergeList.appendAll, MergeList.append, Option.map_some,
        hj, ne_eq, not_true_eq_false, if_false, set_of_not_mem _ _ _ hx, bind, Except.bind] at this ⊢
      rw [this]
      simp only [List.append_assoc, List.cons_append, List.nil_append]
      rw [show j + 1 + a.length = j + a.length + 1 by omega]
  have := happ b (ranked 0 a) 0 (by rw [ranked_keys]; simpa using h) (by simp [ranked_length])
  simp only [MergeList.add, ranked_length]
  rw [this, hrk]

example : MergeList.add (ranked 0 [(("a".toList, "b".toList), 5)]) (ranked 0 [(("c".toList, "d".toList), 3)]) =
    .ok [(("a".toList, "b".toList), (some 5, 0)), (("c".toList, "d".toList), (some 3, 1))] := by decide

end Verif.Props
