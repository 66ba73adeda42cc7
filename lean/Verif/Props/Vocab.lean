import Verif.Proofs.Vocab
/-!
# Dividing work, merging and limiting counts (C36, C37, C45)
-/
namespace Verif.Props
open Verif Spec

/-! ## C36 -/

/-- **C36** The groups: the `i`-th group has exactly the elements at the positions with remainder `i`, in their order.
There are `min n length` groups. -/
theorem C36_groups {α : Type} (l : List α) (n : Nat) (hn : n ≠ 0) :
    groupify l n = .ok ((List.range (min n l.length)).map fun i => atRemainder l n i) := groupify_spec l n hn

/-- The elements whose number has a given remainder, counted. -/
theorem length_atRemainder {α : Type} (l : List α) (n i : Nat) (hi : i < n) :
    (atRemainder l n i).length = (l.length + (n - 1 - i)) / n := by
  unfold atRemainder
  rw [List.length_map]
  have key : ∀ (l : List α) (k : Nat),
      ((l.zipIdx k).filter fun e => e.2 % n = i).length + (k + (n - 1 - i)) / n = (k + l.length + (n - 1 - i)) / n := by
    intro l
    induction l with
    | nil => intro k; simp
    | cons a r ih =>
      intro k
      have h := ih (k + 1)
      rw [List.zipIdx_cons, List.filter_cons]
      have step : (k + 1 + (n - 1 - i)) / n = (k + (n - 1 - i)) / n + if k % n = i then 1 else 0 := by
        have hk := Nat.div_add_mod k n
        have hkm := Nat.mod_lt k (show 0 < n by omega)
        have f : ∀ x, x < 2 * n → x / n = if x < n then 0 else 1 := by
          intro x hx
          split
          · exact Nat.div_eq_of_lt (by assumption)
          · exact Nat.div_eq_of_lt_le (by omega) (by omega)
        have e1 : (k + 1 + (n - 1 - i)) / n = (k % n + 1 + (n - 1 - i)) / n + k / n := by
          rw [← Nat.add_mul_div_left _ _ (show 0 < n by omega)]; congr 1; omega
        have e2 : (k + (n - 1 - i)) / n = (k % n + (n - 1 - i)) / n + k / n := by
          rw [← Nat.add_mul_div_left _ _ (show 0 < n by omega)]; congr 1; omega
        rw [e1, e2, f (k % n + 1 + (n - 1 - i)) (by omega), f (k % n + (n - 1 - i)) (by omega)]
        split <;> split <;> split <;> omega
      rw [step] at h
      rw [show k + (a :: r).length + (n - 1 - i) = k + 1 + r.length + (n - 1 - i) by simp; omega, ← h]
      split
      · rename_i hd
        rw [if_pos (by simpa using hd)]; simp; omega
      · rename_i hd
        rw [if_neg (by simpa using hd)]; simp
  have := key l 0
  have h0 : (0 + (n - 1 - i)) / n = 0 := Nat.div_eq_of_lt (by omega)
  rw [h0] at this
  simpa using this

/-- **C36** The sizes of two groups differ by at most one. -/
theorem C36_even {α : Type} (l : List α) (n : Nat) (hn : n ≠ 0) (gs : List (List α)) (h : groupify l n = .ok gs) :
    gs.length = min n l.length ∧ ∀ g ∈ gs, ∀ g' ∈ gs, g.length ≤ g'.length + 1 := by
  rw [C36_groups l n hn] at h
  cases h
  refine ⟨by simp, fun g hg g' hg' => ?_⟩
  obtain ⟨i, hi, rfl⟩ := List.mem_map.mp hg
  obtain ⟨j, hj, rfl⟩ := List.mem_map.mp hg'
  have hi := List.mem_range.mp hi
  have hj := List.mem_range.mp hj
  rw [length_atRemainder l n i (by omega), length_atRemainder l n j (by omega)]
  have h1 : (l.length + (n - 1 - i)) / n ≤ (l.length + (n - 1)) / n := Nat.div_le_div_right (by omega)
  have h2 : l.length / n ≤ (l.length + (n - 1 - j)) / n := Nat.div_le_div_right (by omega)
  have h3 : (l.length + (n - 1)) / n ≤ (l.length + n) / n := Nat.div_le_div_right (by omega)
  have h4 : (l.length + n) / n = l.length / n + 1 := Nat.add_div_right _ (by omega)
  omega

/-- **C36** No group is empty and every element is in exactly one group, as often as in the list. -/
theorem C36_complete {α : Type} [DecidableEq α] (l : List α) (n : Nat) (hn : n ≠ 0) (gs : List (List α))
    (h : groupify l n = .ok gs) : gs.flatten.Perm l ∧ ∀ g ∈ gs, g ≠ [] := by
  rw [C36_groups l n hn] at h
  cases h
  constructor
  · have key : ∀ (m : Nat) (z : List (α × Nat)),
        (((List.range m).map fun i => (z.filter fun e => e.2 % n = i).map (·.1)).flatten).Perm
          ((z.filter fun e => e.2 % n < m).map (·.1)) := by
      intro m z
      induction m with
      | zero => simp
      | succ m ih =>
        rw [List.range_succ, List.map_append, List.flatten_append]
        refine (ih.append_right _).trans ?_
        simp only [List.map_cons, List.map_nil, List.flatten_cons, List.flatten_nil, List.append_nil]
        rw [← List.map_append]
        refine List.Perm.map _ ?_
        clear ih
        induction z with
        | nil => simp
        | cons a r ihz =>
          rw [List.filter_cons, List.filter_cons, List.filter_cons]
          by_cases h1 : a.2 % n < m
          · rw [if_pos (by simpa using h1), if_neg (by simp; omega), if_pos (by simp; omega)]
            exact ihz.cons a
          · by_cases h2 : a.2 % n = m
            · rw [if_neg (by simpa using h1), if_pos (by simpa using h2), if_pos (by simp; omega)]
              exact List.perm_middle.trans (ihz.cons a)
            · rw [if_neg (by simpa using h1), if_neg (by simpa using h2), if_neg (by simp; omega)]
              exact ihz
    refine (key (min n l.length) l.zipIdx).trans ?_
    have : (l.zipIdx.filter fun e => decide (e.2 % n < min n l.length)) = l.zipIdx := by
      rw [List.filter_eq_self]
      intro e he
      have := List.mem_zipIdx (x := e.1) (i := e.2) he
      have h1 := Nat.mod_lt e.2 (show 0 < n by omega)
      have h2 := Nat.mod_le e.2 n
      simp; omega
    rw [this]
    simp
  · intro g hg
    obtain ⟨i, hi, rfl⟩ := List.mem_map.mp hg
    have hi := List.mem_range.mp hi
    intro e
    have := length_atRemainder l n i (by omega)
    rw [e] at this
    have h1 : n / n ≤ (l.length + (n - 1 - i)) / n := Nat.div_le_div_right (by omega)
    rw [Nat.div_self (by omega)] at h1
    simp at this
    omega

/-- **C36** Without chunks there is an error, except if there is nothing to do. -/
theorem C36_no_chunks {α : Type} (a : α) (l : List α) :
    groupify (a :: l) 0 = .error .zeroDivision ∧ groupify ([] : List α) 0 = .ok [] := ⟨rfl, rfl⟩

/-- The example of the documentation. -/
example : groupify [0, 1, 2, 3, 4, 5, 6] 3 = .ok [[0, 3, 6], [1, 4], [2, 5]] ∧
    groupify [0, 1, 2] 300 = .ok [[0], [1], [2]] := by decide +kernel

/-- **C36** The words of a corpus are counted in at most 5120 tables, file number `i` in table `i % 5120`; table number `i` belongs to chunk
number `i % 20`. -/
theorem C36_tables (texts : List Str) :
    partialCounts texts = .ok ((List.range (min 5120 texts.length)).map fun i => (getVocab (atRemainder texts 5120 i), i % 20)) := by
  unfold partialCounts fileGroups
  rw [C36_groups texts maxInitPartialVocabs (by decide)]
  generalize hg : (List.range (min maxInitPartialVocabs texts.length)).map (fun i => atRemainder texts maxInitPartialVocabs i) = gs
  have hlen : gs.length = min 5120 texts.length := by rw [← hg]; simp; rfl
  cases gs with
  | nil =>
    rw [List.length_nil] at hlen
    rw [← hlen]
    rfl
  | cons g gs' =>
    simp only [bind, Except.bind, chunkLabels_eq (g :: gs').length nChunks (by decide)]
    rw [hlen, ← hg, show maxInitPartialVocabs = 5120 from rfl, List.zip_map', List.map_map]
    rfl

example : partialCounts ["a b\n".toList, "b\n".toList] = .ok [([("a".toList, 1), ("b".toList, 1)], 0), ([("b".toList, 1)], 1)] := by decide +kernel

/-! ## C45 -/

/-- **C45** Merging adds the counts of every word; no word is lost or invented; the words reported as new are those of the
second dictionary that were not in the first, each once; the words of the first dictionary keep their order and come first. -/
theorem C45_merge (d1 d2 : Dict Str Nat) (h1 : d1.WF) (h2 : d2.WF) :
    (mergeDicts d1 d2).1.WF ∧
    (∀ w, countIn (mergeDicts d1 d2).1 w = countIn d1 w + countIn d2 w) ∧
    (mergeDicts d1 d2).1.keys = d1.keys ++ (mergeDicts d1 d2).2 ∧
    (mergeDicts d1 d2).2 = d2.keys.filter fun k => decide (k ∉ d1.keys) := by
  have hw := mergeDicts_wf d1 d2 h1
  obtain ⟨h3, h4⟩ := mergeDicts_keys d1 d2 h2
  refine ⟨hw, fun w => ?_, h3, ?_⟩
  · rw [← Dict.getD_eq_count hw, ← Dict.getD_eq_count h1, ← Dict.getD_eq_count h2, mergeDicts_get d1 d2 h2]
  · rw [h4]
    refine List.filter_congr fun k _ => ?_
    by_cases h : k ∈ d1.keys
    · simp [h, Dict.has_iff.mpr h]
    · have : d1.has k = false := by
        cases hb : d1.has k
        · rfl
        · exact absurd (Dict.has_iff.mp hb) h
      simp [h, this]

/-- **C45** Adding a partial vocabulary does this to its counts and keeps its chunk. -/
theorem C45_add_vocab (a b : PVocab) (ha : Dict.WF a.counts) (hb : Dict.WF b.counts) :
    Dict.WF (a.addVocab b).1.counts ∧
    (∀ w, countIn (a.addVocab b).1.counts w = countIn a.counts w + countIn b.counts w) ∧
    (a.addVocab b).1.nFiles = a.nFiles + b.nFiles ∧ (a.addVocab b).1.chunk = a.chunk :=
  ⟨(C45_merge _ _ ha hb).1, (C45_merge _ _ ha hb).2.1, rfl, rfl⟩

example : mergeDicts [("a".toList, 3), ("b".toList, 4)] [("b".toList, 5), ("c".toList, 6)] =
    ([("a".toList, 3), ("b".toList, 9), ("c".toList, 6)], ["c".toList]) ∧
    Dict.WF [("a".toList, 3), ("b".toList, 4)] := by decide +kernel

/-! ## C37 -/

theorem sortDesc_length (l : List (Str × Nat)) : (sortDesc l).length = l.length := (sortDesc_perm l).length_eq

/-- **C37 (partial)** Limiting to fewer words than there are keeps exactly the words that are more frequent than the first
excluded one, the most frequent ones first.  Missing: limiting to exactly as many words as there are fails
(`C37_violated`). -/
theorem C37_limit_partial (d : Dict Str Nat) (n : Nat) (hn : n < d.length) :
    ∃ r f, PVocab.limitMaxVocab d n = .ok r ∧ r = (sortDesc d).filter (fun e => f < e.2) ∧ r.length ≤ n ∧
      (∀ e ∈ r, e ∈ d) ∧ ∀ e ∈ d, e ∉ r → ∀ k ∈ r, e.2 < k.2 := by
  have hl : n < (sortDesc d).length := by rw [sortDesc_length]; exact hn
  have hs := sortDesc_sorted d
  have hp : ((sortDesc d).take n ++ (sortDesc d)[n] :: (sortDesc d).drop (n + 1)).Pairwise fun a b => b.2 ≤ a.2 := by
    rw [← List.drop_eq_getElem_cons hl, List.take_append_drop]; exact hs
  obtain ⟨k, h1, h2, h3⟩ := adjust_ok (sortDesc d) hs (sortDesc d)[n].2 n (by omega)
    (fun e he => (List.pairwise_append.mp hp).2.2 e he _ List.mem_cons_self)
    (fun e he => by
      rw [List.drop_eq_getElem_cons hl] at he
      rcases List.mem_cons.mp he with rfl | he
      · omega
      · exact (List.pairwise_cons.mp (List.pairwise_append.mp hp).2.1).1 e he)
  refine ⟨(sortDesc d).take k, (sortDesc d)[n].2, ?_, h3, by rw [List.length_take]; omega, fun e he => ?_, fun e he hne x hx => ?_⟩
  · unfold PVocab.limitMaxVocab
    have hg : (sortDesc d)[n]? = some (sortDesc d)[n] := by simp [hl]
    simp only [hg, h1, bind, Except.bind]
    rw [if_neg (by omega)]
  · exact (sortDesc_perm d).mem_iff.mp (List.mem_of_mem_take he)
  · rw [h3, List.mem_filter] at hne hx
    have : ¬ (sortDesc d)[n].2 < e.2 := fun h => hne ⟨(sortDesc_perm d).mem_iff.mpr he, by simpa using h⟩
    have h2 := hx.2
    simp only [decide_eq_true_eq] at h2
    omega

/-- **C37 (partial)** A limit larger than the vocabulary changes nothing. -/
theorem C37_large_partial (d : Dict Str Nat) (n : Nat) (hn : d.length < n) : PVocab.limitMaxVocab d n = .ok d := by
  unfold PVocab.limitMaxVocab
  rw [if_pos (by rw [sortDesc_length]; exact hn)]

/-- **C37 is violated**: limiting a vocabulary to the size it has raises an `IndexError`. -/
theorem C37_violated (d : Dict Str Nat) : PVocab.limitMaxVocab d d.length = .error .indexError := by
  unfold PVocab.limitMaxVocab
  have : (sortDesc d)[d.length]? = none := List.getElem?_eq_none (by rw [sortDesc_length]; omega)
  simp only [this]
  rw [if_neg (by rw [sortDesc_length]; omega)]

example : PVocab.limitMaxVocab [("a".toList, 1), ("b".toList, 5), ("c".toList, 1), ("d".toList, 2)] 3 =
    .ok [("b".toList, 5), ("d".toList, 2)] := by decide +kernel

end Verif.Props
