import Verif.Spec.VocabStats
import Verif.Proofs.VocabExec
/-!
# The lines of the statistics of a vocabulary
-/
namespace Verif
open Spec

theorem nonEngCount_eq {d : Dict Str Nat} (h : d.WF) : PVocab.nonEngCount d = nonEnglishIn d := Dict.getD_eq_count h _

theorem meanOf_le {l : List Nat} {n : Nat} (h : ∀ x ∈ l, x ≤ n) : PVocab.meanOf l ≤ n := by
  have hs : l.sum ≤ n * l.length := by
    induction l with
    | nil => simp
    | cons a t ih =>
      have h1 := h a (by simp)
      have h2 := ih fun x hx => h x (by simp [hx])
      rw [List.sum_cons, List.length_cons, Nat.mul_succ]
      omega
  exact Nat.div_le_of_le_mul (by rw [Nat.mul_comm]; exact hs)

theorem meanOf_perm {a b : List Nat} (h : a.Perm b) : PVocab.meanOf a = mean b := by
  unfold PVocab.meanOf mean
  rw [h.sum_nat, h.length_eq]

theorem count_single (l : List (Nat × Nat × Nat)) (e : Nat × Nat) :
    ((l.filter fun x => x.1 = 1).map (·.2)).count e = l.count (1, e) := by
  induction l with
  | nil => rfl
  | cons x t ih =>
    obtain ⟨k, y⟩ := x
    by_cases hk : k = 1
    · subst hk
      rw [List.filter_cons, if_pos (by simp), List.map_cons, List.count_cons, List.count_cons, ih]
      by_cases hy : y = e
      · subst hy; simp
      · rw [if_neg (by simpa using hy), if_neg (by simpa using hy)]
    · rw [List.filter_cons, if_neg (by simpa using hk), List.count_cons, if_neg (by simp [hk]), ih]; rfl

theorem singles_perm {parts : List (Dict Str Nat × Nat)} {v : PVocab} (h : ∀ w, v.tally w = countAll parts w) :
    ((v.stats.filter fun x => x.1 = 1).map (·.2)).Perm
      (parts.map fun p => (p.1.length, PVocab.nonEngCount p.1)) := by
  rw [List.perm_iff_count]
  intro e
  rw [count_single]
  have := h (.single e)
  show v.tally (.single e) = _
  rw [this]
  unfold countAll
  clear this h
  induction parts with
  | nil => rfl
  | cons p t ih =>
    rw [List.map_cons, List.sum_cons, ih, List.map_cons, List.count_cons]
    show [(1, p.1.length, PVocab.nonEngCount p.1)].count (1, e) + _ = _
    rw [List.count_cons]
    by_cases hy : (p.1.length, PVocab.nonEngCount p.1) = e
    · subst hy; simp [Nat.add_comm]
    · rw [if_neg (by simpa using hy), if_neg (by simpa using hy)]; simp

theorem files_countAll (parts : List (Dict Str Nat × Nat)) : countAll parts .files = parts.length := by
  unfold countAll
  induction parts with
  | nil => rfl
  | cons p t ih =>
    rw [List.map_cons, List.sum_cons, ih, List.length_cons]
    show 1 + _ = _
    omega

theorem filter_one {l : List (Nat × Nat × Nat)} (h1 : ∀ e ∈ l, 1 ≤ e.1) (h2 : 1 ∈ l.map (·.1)) (n : Nat) (hn : 1 ≤ n) :
    ((List.range (n + 1)).filter fun k => k ∈ l.map (·.1)).head? = some 1 := by
  obtain ⟨m, rfl⟩ := Nat.exists_eq_add_of_le hn
  rw [show 1 + m + 1 = m + 1 + 1 by omega, List.range_succ_eq_map, List.range_succ_eq_map, List.map_cons, List.filter_cons,
    if_neg, List.filter_cons, if_pos (by simpa using h2)]
  · rfl
  · intro h
    obtain ⟨e, he, h0⟩ := List.mem_map.mp (of_decide_eq_true h)
    have := h1 e he
    omega

theorem isStatistics {parts : List (Dict Str Nat × Nat)} (hparts : ∀ p ∈ parts, (p.1.map (·.1)).Nodup) {v : PVocab}
    (ht : IsTotal (countAll parts) (wordAny parts) v.counts) (hc : ∀ w, v.tally w = countAll parts w) (hs : StatsOk v)
    {n : Nat} {ls : List (Nat × Nat × Nat)} (hw : v.writeStats = .ok (n, ls)) : IsStatistics (parts.map (·.1)) n ls := by
  obtain ⟨ls', h4⟩ := writeStats_ok hs
  rw [hw] at h4
  cases h4
  obtain ⟨h1, h2, h3⟩ := hs
  have hfiles : v.nFiles = parts.length := (hc .files).trans (files_countAll parts)
  have hne : PVocab.nonEngCount v.counts = ((parts.map (·.1)).map nonEnglishIn).sum := by
    rw [nonEngCount_eq ht.wf]
    exact ht.isSum.counts _
  have hlen : ∀ l : List (Dict Str Nat × Nat), l.map (fun p => p.1.length) = (l.map (·.1)).map (·.length) := by simp
  have hnes : parts.map (fun p => PVocab.nonEngCount p.1) = (parts.map (·.1)).map nonEnglishIn := by
    rw [List.map_map]
    refine List.map_congr_left fun p hp => ?_
    exact nonEngCount_eq (hparts p hp)
  have hperm := singles_perm hc
  have hone : 1 ∈ v.stats.map (·.1) := by
    cases hp : parts with
    | nil => rw [hp] at hfiles; rw [hfiles] at h1; simp at h1
    | cons p t =>
      have : (p.1.length, PVocab.nonEngCount p.1) ∈ (v.stats.filter fun x => x.1 = 1).map (·.2) :=
        hperm.mem_iff.mpr (by rw [hp]; simp)
      obtain ⟨e, he, -⟩ := List.mem_map.mp this
      exact List.mem_map.mpr ⟨e, (List.mem_filter.mp he).1, by simpa using (List.mem_filter.mp he).2⟩
  have hls : ls = (PVocab.groupStats v.stats).map fun e => (e.1, PVocab.meanOf (e.2.map (·.1)), PVocab.meanOf (e.2.map (·.2))) := by
    unfold PVocab.writeStats at hw
    simp only at hw
    split at hw
    · cases hw
    · injection hw with e
      exact (Prod.mk.inj e).2.symm
  have hm : v.nFiles ∈ v.stats.map (·.1) := by
    have : (v.nFiles, v.counts.length, PVocab.nonEngCount v.counts) ∈ v.stats.filter fun e => e.1 = v.nFiles := by
      rw [h3]; simp
    exact List.mem_map.mpr ⟨_, (List.mem_filter.mp this).1, rfl⟩
  have hmax : (v.stats.map (·.1)).foldl max 0 = v.nFiles := by
    refine Nat.le_antisymm (foldl_max_le (Nat.zero_le _) ?_) (le_foldl_max (.inr hm))
    intro x hx
    obtain ⟨e, he, rfl⟩ := List.mem_map.mp hx
    exact (h2 e he).2.1
  refine ⟨⟨v.counts.keys, ht.wf, fun x => ?_, by simp [Dict.keys]⟩, ?_, ?_, ?_, ?_⟩
  · exact ht.isSum.words x
  · rw [hls]
    unfold PVocab.groupStats
    rw [List.map_map, List.pairwise_map]
    exact (List.pairwise_lt_range).filter _
  · rw [hls]
    unfold PVocab.groupStats
    rw [List.map_map, List.head?_map, hmax, filter_one (fun e he => (h2 e he).1) hone _ h1]
    simp only [Option.map_some, Function.comp]
    congr 2
    congr 1
    · rw [meanOf_perm (hperm.map (·.1)), List.map_map, ← hlen]; rfl
    · rw [meanOf_perm (hperm.map (·.2)), List.map_map, ← hnes]; rfl
  · rw [hls]
    unfold PVocab.groupStats
    rw [hmax, List.range_succ, List.filter_append, List.filter_cons, if_pos (by simpa using hm), List.filter_nil]
    simp only [List.map_append, List.map_cons, List.map_nil, List.getLast?_append, List.getLast?_singleton, Option.some_or, h3]
    simp [PVocab.meanOf, hfiles, hne]
  · intro l hl
    rw [hls] at hl
    unfold PVocab.groupStats at hl
    rw [List.map_map] at hl
    obtain ⟨k, -, rfl⟩ := List.mem_map.mp hl
    constructor
    · refine meanOf_le fun x hx => ?_
      rw [List.map_map] at hx
      obtain ⟨e, he, rfl⟩ := List.mem_map.mp hx
      exact (h2 e (List.mem_filter.mp he).1).2.2.1
    · refine meanOf_le fun x hx => ?_
      rw [List.map_map] at hx
      obtain ⟨e, he, rfl⟩ := List.mem_map.mp hx
      rw [← hne]
      exact (h2 e (List.mem_filter.mp he).1).2.2.2

end Verif
