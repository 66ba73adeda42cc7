import Verif.Props.Scale
import Verif.Props.Total
import Verif.Proofs.WholeFile
/-!
# C100: proportions of the frequencies in vocabularies
-/
namespace Verif.Props.Scale
open Verif Spec PVocab

theorem insertDesc_more {k : Nat} (hk : 0 < k) (e : Str × Nat) (l : List (Str × Nat)) :
    insertDesc (e.1, k * e.2) (more k l) = more k (insertDesc e l) := by
  induction l with
  | nil => rfl
  | cons x l ih =>
    show (if k * x.2 ≤ k * e.2 then _ else (x.1, k * x.2) :: insertDesc (e.1, k * e.2) (more k l)) = _
    rw [ih, insertDesc]
    by_cases h : x.2 ≤ e.2
    · rw [if_pos h, if_pos (Nat.mul_le_mul_left k h)]; rfl
    · rw [if_neg h, if_neg fun h' => h (Nat.le_of_mul_le_mul_left h' hk)]; rfl

theorem sortDesc_more {k : Nat} (hk : 0 < k) (l : List (Str × Nat)) : sortDesc (more k l) = more k (sortDesc l) := by
  induction l with
  | nil => rfl
  | cons e l ih =>
    show insertDesc (e.1, k * e.2) (sortDesc (more k l)) = _
    rw [ih, insertDesc_more hk]; rfl

theorem adjust_more {k : Nat} (hk : 0 < k) (l : List (Str × Nat)) (f i : Nat) :
    adjustThreshold (more k l) (k * f) i = adjustThreshold l f i := by
  induction i with
  | zero => rfl
  | succ i ih =>
    have hg : (more k l)[i]? = (l[i]?).map fun e => (e.1, k * e.2) := List.getElem?_map ..
    unfold adjustThreshold
    rw [hg]
    cases l[i]? with
    | none => rfl
    | some e =>
      show (if k * e.2 = k * f then _ else _) = (if e.2 = f then _ else _)
      by_cases h : e.2 = f
      · rw [if_pos h, if_pos (by rw [h]), ih]
      · rw [if_neg h, if_neg fun h' => h (Nat.eq_of_mul_eq_mul_left hk h')]

/-- **C100** Which words are left when a vocabulary is limited depends on the proportions only. -/
theorem C100_limit {k : Nat} (hk : 0 < k) (counts : Dict Str Nat) (t : Nat) :
    limitMaxVocab (more k counts) t = (limitMaxVocab counts t).map (more k) := by
  have hg : (more k (sortDesc counts))[t]? = ((sortDesc counts)[t]?).map fun e => (e.1, k * e.2) := List.getElem?_map ..
  have hl : (more k (sortDesc counts)).length = (sortDesc counts).length := List.length_map ..
  unfold limitMaxVocab
  simp only [sortDesc_more hk, hg, hl]
  by_cases h : t > (sortDesc counts).length
  · rw [if_pos h, if_pos h]; rfl
  · rw [if_neg h, if_neg h]
    cases (sortDesc counts)[t]? with
    | none => rfl
    | some e =>
      show ((adjustThreshold (more k (sortDesc counts)) (k * e.2) t).bind fun j => _) = _
      rw [adjust_more hk]
      cases hadj : adjustThreshold (sortDesc counts) e.2 t with
      | error x => simp [hadj, bind, Except.bind, Except.map]
      | ok j =>
        simp only [hadj, bind, Except.bind, Except.map, more, List.map_take]

example : (limitMaxVocab (more 3 [("a".toList, 2), ("b".toList, 5), ("c".toList, 1)]) 2).toOption = some [("b".toList, 15), ("a".toList, 6)] := by
  decide +kernel

theorem wordsOfFiles_copies (k : Nat) (texts : List Str) (w : Str) :
    (wordsOfFiles (List.replicate k texts).flatten).count w = k * (wordsOfFiles texts).count w := by
  induction k with
  | zero => simp [wordsOfFiles]
  | succ k ih =>
    rw [List.replicate_succ, List.flatten_cons]
    have : wordsOfFiles (texts ++ (List.replicate k texts).flatten) = wordsOfFiles texts ++ wordsOfFiles (List.replicate k texts).flatten := by
      unfold wordsOfFiles; rw [List.flatMap_append, List.flatMap_append]
    rw [this, List.count_append, ih, Nat.succ_mul, Nat.add_comm]

theorem keys_more {α : Type} (k : Nat) (v : List (α × Nat)) : (more k v).map (·.1) = v.map (·.1) := by
  unfold more; rw [List.map_map]; rfl

theorem countIn_more (k : Nat) (v : List (Str × Nat)) (w : Str) : countIn (more k v) w = k * countIn v w := by
  induction v with
  | nil => rfl
  | cons e v ih =>
    unfold countIn more at ih ⊢
    by_cases h : e.1 = w
    · simp only [List.map_cons, List.filter_cons, h, decide_true, if_true, List.sum_cons, Nat.mul_add]
      rw [ih]
    · simp only [List.map_cons, List.filter_cons, h, decide_false, Bool.false_eq_true, if_false]
      exact ih

theorem nodup_of_keys {v : List (Str × Nat)} (h : (v.map (·.1)).Nodup) : v.Nodup :=
  List.Pairwise.imp (fun h' e => h' (congrArg (·.1) e)) (List.pairwise_map.mp h)

theorem mem_counts {v : List (Str × Nat)} (h : (v.map (·.1)).Nodup) {w : Str} {c : Nat} :
    (w, c) ∈ v ↔ w ∈ v.map (·.1) ∧ countIn v w = c := by
  rw [← Dict.getD_eq_count (d := v) h]
  constructor
  · intro hm
    refine ⟨List.mem_map_of_mem (f := (·.1)) hm, ?_⟩
    rw [Dict.mem_get? h hm]; rfl
  · rintro ⟨hm, rfl⟩
    obtain ⟨⟨x, c⟩, he, rfl⟩ := List.mem_map.mp hm
    rw [Dict.mem_get? h he]
    exact he

/-- **C100** A corpus in which every file occurs `k` times has the vocabulary of the corpus with `k` times the frequencies, however many
processes calculate the two vocabularies and in whatever order they work. -/
theorem C100_copies {texts : List Str} (h0 : texts ≠ []) {k : Nat} (hk : 0 < k) {n n' : Nat} (hn : 0 < n) (hn' : 0 < n')
    {dir dir' : DumpDir} (hd : readyName ∉ dir.map (·.1)) (hd' : readyName ∉ dir'.map (·.1)) :
    ∃ p p', partialCounts texts = .ok p ∧ partialCounts (List.replicate k texts).flatten = .ok p' ∧
      ∀ dk dk', Star (WStep p n) (World.first dir) ⟨dk, .returned⟩ → Star (WStep p' n') (World.first dir') ⟨dk', .returned⟩ →
        ∃ v v' : List (Str × Nat), dk.vocab = some (v.map fun e => e.1 ++ '\t' :: (natStr e.2 ++ ['\n'])).flatten ∧
          dk'.vocab = some (v'.map fun e => e.1 ++ '\t' :: (natStr e.2 ++ ['\n'])).flatten ∧ v'.Perm (more k v) := by
  have h0' : (List.replicate k texts).flatten ≠ [] := by
    obtain ⟨j, rfl⟩ : ∃ j, k = j + 1 := ⟨k - 1, by omega⟩
    rw [List.replicate_succ, List.flatten_cons]
    exact fun h => h0 (List.append_eq_nil_iff.mp h).1
  obtain ⟨p, hp, h⟩ := C93_schedule h0 hn hd
  obtain ⟨p', hp', h'⟩ := C93_schedule h0' hn' hd'
  refine ⟨p, p', hp, hp', fun dk dk' hr hr' => ?_⟩
  obtain ⟨v, e1, e2, _, e4⟩ := h dk hr
  obtain ⟨v', f1, f2, _, f4⟩ := h' dk' hr'
  refine ⟨v, v', e1, f1, ?_⟩
  have key : ∀ w, countIn v' w = countIn (more k v) w ∧ (w ∈ v'.map (·.1) ↔ w ∈ (more k v).map (·.1)) := by
    intro w
    rw [(f4 w).1, wordsOfFiles_copies, ← (e4 w).1, countIn_more, keys_more, (f4 w).2, (e4 w).2]
    refine ⟨rfl, ?_⟩
    rw [← List.count_pos_iff, ← List.count_pos_iff, wordsOfFiles_copies]
    exact ⟨fun h => Nat.pos_of_mul_pos_left h, fun h => Nat.mul_pos hk h⟩
  have nd : ((more k v).map (·.1)).Nodup := by rw [keys_more]; exact e2
  refine (List.perm_ext_iff_of_nodup (nodup_of_keys f2) (nodup_of_keys nd)).mpr fun ⟨w, c⟩ => ?_
  rw [mem_counts f2, mem_counts nd, (key w).1, (key w).2]

/-- The vocabulary of one file and of two copies of it. -/
example : (["a b\na".toList] : List Str) ≠ [] ∧ readyName ∉ (([] : DumpDir).map (·.1)) ∧
    getVocab ["a b\na".toList] = [("a".toList, 2), ("b".toList, 1)] ∧
    getVocab (List.replicate 2 ["a b\na".toList]).flatten = more 2 [("a".toList, 2), ("b".toList, 1)] := by decide +kernel

end Verif.Props.Scale
