import Verif.Props.Alphabets
import Verif.Props.Occurs
/-!
# C103: Only the order of the merges counts
-/
namespace Verif.Props.Order
open Verif Spec

/-- Two lists of merges have the same merges that occur in a word, in the same order. -/
structure SameOrder (m m' : MergeList) (w : Str) : Prop where
  same : ∀ p, OccursIn p w → ((m.priority? p).isSome ↔ (m'.priority? p).isSome)
  order : ∀ p q k l k' l', OccursIn p w → OccursIn q w → m.priority? p = some k → m.priority? q = some l → m'.priority? p = some k' →
    m'.priority? q = some l' → (k ≤ l ↔ k' ≤ l')

theorem searched_flatten {w : Str} (hs : ' ' ∉ w) : (initialSymbols w).flatten = searched w := by
  unfold initialSymbols searched
  rw [List.flatten_append, List.filter_eq_self.mpr (fun c hc => by
    rw [decide_eq_true_eq]; rintro rfl; exact hs hc), List.flatMap_def]
  rfl

theorem adjacent_occurs {p : Str × Str} {s : List Str} {w : Str} (hf : s.flatten = searched w) (h : Adjacent p s) : OccursIn p w := by
  obtain ⟨pre, post, rfl⟩ := h
  refine ⟨pre.flatten, post.flatten, ?_⟩
  rw [← hf]; simp

theorem step_flatten {rank : Str × Str → Option Nat} {s t : List Str} (h : Step rank s t) : t.flatten = s.flatten := by
  obtain ⟨p, k, -, -, -, rfl⟩ := h
  exact replaceAll_flatten p s

theorem step_same {m m' : MergeList} {w : Str} (h : SameOrder m m' w) {s t : List Str} (hf : s.flatten = searched w)
    (hst : Step m.priority? s t) : Step m'.priority? s t := by
  obtain ⟨p, k, hk, ha, hmin, rfl⟩ := hst
  have hp := adjacent_occurs hf ha
  obtain ⟨k', hk'⟩ := Option.isSome_iff_exists.mp ((h.same p hp).mp (by rw [hk]; rfl))
  refine ⟨p, k', hk', ha, fun q l' hl' haq => ?_, rfl⟩
  have hq := adjacent_occurs hf haq
  obtain ⟨l, hl⟩ := Option.isSome_iff_exists.mp ((h.same q hq).mpr (by rw [hl']; rfl))
  exact (h.order p q k l k' l' hp hq hk hl hk' hl').mp (hmin q l hl haq)

theorem steps_same {m m' : MergeList} {w : Str} (h : SameOrder m m' w) {s t : List Str} (hst : Steps m.priority? s t)
    (hf : s.flatten = searched w) : Steps m'.priority? s t ∧ t.flatten = searched w := by
  induction hst with
  | refl s => exact ⟨.refl s, hf⟩
  | head h1 _ ih =>
    obtain ⟨g1, g2⟩ := ih ((step_flatten h1).trans hf)
    exact ⟨.head (step_same h hf h1) g1, g2⟩

/-- **C103** Two lists of merges that have the merges which occur in a word in the same order split it alike, whatever the numbers are. -/
theorem C103_word {m m' : MergeList} (hm : RanksOk m) (hm' : RanksOk m') (cache : BpeCache) {w : Str} (hs : ' ' ∉ w)
    (h : SameOrder m m' w) : getBpeSubwords w ⟨cache, m⟩ = getBpeSubwords w ⟨cache, m'⟩ := by
  have e : encodeWord (escape w true) m = encodeWord (escape w true) m' := by
    obtain ⟨r, h1, h2, h3⟩ := C02_bpe_greedy_normal_form w m hs hm
    obtain ⟨r', g1, g2, g3⟩ := C02_bpe_greedy_normal_form w m' hs hm'
    obtain ⟨s1, s2⟩ := steps_same h h2 (searched_flatten hs)
    have f : Final m'.priority? r := by
      intro p hp
      have ho := adjacent_occurs s2 hp
      cases hk : m'.priority? p with
      | none => rfl
      | some k =>
        have := (h.same p ho).mpr (by rw [hk]; rfl)
        rw [h3 p hp] at this; cases this
    rw [h1, g1, C02_normal_form_unique m' hm' _ r r' s1 g2 f g3]
  unfold getBpeSubwords getBpeSubwordsSt
  cases hc : cache.get? (escape w true) with
  | some r =>
    simp only [hc, bind, Except.bind]
    cases unescape r with
    | error e => rfl
    | ok x => rfl
  | none =>
    simp only [hc, e, bind, Except.bind]
    cases encodeWord (escape w true) m' with
    | error e => rfl
    | ok x =>
      simp only
      cases unescape x with
      | error e => rfl
      | ok y => rfl

theorem priority_ranked_cons (i : Nat) (e : (Str × Str) × Int) (l : List ((Str × Str) × Int)) (p : Str × Str) :
    MergeList.priority? (ranked i (e :: l)) p = if e.1 = p then some i else MergeList.priority? (ranked (i + 1) l) p := by
  obtain ⟨q, f⟩ := e
  show Option.map (fun x => x.snd) (if q = p then some (some f, i) else Dict.get? (ranked (i + 1) l) p) = _
  by_cases h : q = p
  · rw [if_pos h, if_pos h]; rfl
  · rw [if_neg h, if_neg h]; rfl

theorem priority_ranked_ge (l : List ((Str × Str) × Int)) : ∀ (i : Nat) (p : Str × Str) (k : Nat),
    MergeList.priority? (ranked i l) p = some k → i ≤ k := by
  induction l with
  | nil => intro i p k h; cases h
  | cons e l ih =>
    intro i p k h
    rw [priority_ranked_cons] at h
    split at h
    · cases h; exact Nat.le_refl _
    · have := ih _ _ _ h; omega

theorem filter_some (keep : Str × Str → Bool) (l : List ((Str × Str) × Int)) : ∀ (i j : Nat) (p : Str × Str), keep p = true →
    ((MergeList.priority? (ranked i l) p).isSome ↔ (MergeList.priority? (ranked j (l.filter fun e => keep e.1)) p).isSome) := by
  induction l with
  | nil => intro i j p _; exact Iff.rfl
  | cons e l ih =>
    intro i j p hp
    rw [priority_ranked_cons]
    by_cases he : keep e.1 = true
    · rw [List.filter_cons_of_pos (by exact he), priority_ranked_cons]
      split
      · exact ⟨fun _ => rfl, fun _ => rfl⟩
      · exact ih _ _ p hp
    · rw [List.filter_cons_of_neg (by exact he), if_neg (by rintro rfl; exact he hp)]
      exact ih _ _ p hp

theorem filter_order (keep : Str × Str → Bool) (ms : List ((Str × Str) × Int)) : ∀ (i j : Nat) (p q : Str × Str) (k l k' l' : Nat),
    keep p = true → keep q = true → MergeList.priority? (ranked i ms) p = some k → MergeList.priority? (ranked i ms) q = some l →
    MergeList.priority? (ranked j (ms.filter fun e => keep e.1)) p = some k' →
    MergeList.priority? (ranked j (ms.filter fun e => keep e.1)) q = some l' → (k ≤ l ↔ k' ≤ l') := by
  induction ms with
  | nil => intro i j p q k l k' l' _ _ h; cases h
  | cons e ms ih =>
    intro i j p q k l k' l' hp hq h1 h2 h3 h4
    rw [priority_ranked_cons] at h1 h2
    by_cases he : keep e.1 = true
    · rw [List.filter_cons_of_pos (by exact he), priority_ranked_cons] at h3 h4
      by_cases ep : e.1 = p <;> by_cases eq : e.1 = q
      · rw [if_pos ep] at h1 h3; rw [if_pos eq] at h2 h4
        cases h1; cases h2; cases h3; cases h4; exact ⟨fun _ => Nat.le_refl _, fun _ => Nat.le_refl _⟩
      · rw [if_pos ep] at h1 h3; rw [if_neg eq] at h2 h4
        cases h1; cases h3
        have := priority_ranked_ge _ _ _ _ h2
        have := priority_ranked_ge _ _ _ _ h4
        constructor <;> intro <;> omega
      · rw [if_neg ep] at h1 h3; rw [if_pos eq] at h2 h4
        cases h2; cases h4
        have := priority_ranked_ge _ _ _ _ h1
        have := priority_ranked_ge _ _ _ _ h3
        constructor <;> intro <;> omega
      · rw [if_neg ep] at h1 h3; rw [if_neg eq] at h2 h4
        exact ih _ _ p q k l k' l' hp hq h1 h2 h3 h4
    · rw [List.filter_cons_of_neg (by exact he)] at h3 h4
      rw [if_neg (by rintro rfl; exact he hp)] at h1
      rw [if_neg (by rintro rfl; exact he hq)] at h2
      exact ih _ _ p q k l k' l' hp hq h1 h2 h3 h4

theorem priority_absent {ms : List ((Str × Str) × Int)} {p : Str × Str} (h : p ∉ ms.map (·.1)) (i : Nat) :
    MergeList.priority? (ranked i ms) p = none := by
  induction ms generalizing i with
  | nil => rfl
  | cons e ms ih =>
    rw [List.map_cons, List.mem_cons, not_or] at h
    rw [priority_ranked_cons, if_neg fun e' => h.1 e'.symm, ih h.2]

/-- **C103** Merges that do not occur in a word may be removed from the list, and the others numbered anew. -/
theorem C103_removed {ms : List ((Str × Str) × Int)} (hl : ms.length ≤ sysMaxsize) (cache : BpeCache) {w : Str} (hs : ' ' ∉ w)
    (keep : Str × Str → Bool) (h : ∀ e ∈ ms, OccursIn e.1 w → keep e.1 = true) :
    getBpeSubwords w ⟨cache, ranked 0 (ms.filter fun e => keep e.1)⟩ = getBpeSubwords w ⟨cache, ranked 0 ms⟩ := by
  let keep' : Str × Str → Bool := fun p => keep p || decide (p ∉ ms.map (·.1))
  have e : (ms.filter fun e => keep e.1) = ms.filter fun e => keep' e.1 := by
    refine List.filter_congr fun e he => ?_
    have : e.1 ∈ ms.map (·.1) := List.mem_map_of_mem he
    simp only [keep', this, not_true_eq_false, decide_false, Bool.or_false]
  have hk : ∀ p, OccursIn p w → keep' p = true := by
    intro p hp
    by_cases hm : p ∈ ms.map (·.1)
    · obtain ⟨e, he, rfl⟩ := List.mem_map.mp hm
      simp only [keep', h e he hp, Bool.true_or]
    · simp only [keep', hm, not_false_eq_true, decide_true, Bool.or_true]
  rw [e]
  refine (C103_word (ranked_ok hl) (ranked_ok (Nat.le_trans (List.length_filter_le ..) hl)) cache hs ⟨fun p hp => ?_, ?_⟩).symm
  · exact filter_some keep' ms 0 0 p (hk p hp)
  · intro p q k l k' l' hp hq
    exact filter_order keep' ms 0 0 p q k l k' l' (hk p hp) (hk q hq)

theorem weighted_pos {v : List (List Str × Nat)} {p : Str × Str} (h : 0 < weightedCount v p) : ∃ e ∈ v, 0 < pairCount p e.1 := by
  induction v with
  | nil => exact absurd h (by simp [weightedCount])
  | cons a v ih =>
    by_cases ha : 0 < pairCount p a.1
    · exact ⟨a, by simp, ha⟩
    · have h0 : pairCount p a.1 = 0 := by omega
      have : 0 < weightedCount v p := by
        unfold weightedCount at h ⊢
        rw [List.map_cons, List.sum_cons, h0, Nat.mul_zero, Nat.zero_add] at h
        exact h
      obtain ⟨e, he, hc⟩ := ih this
      exact ⟨e, List.mem_cons_of_mem _ he, hc⟩

theorem learns_second {v v' : List (List Str × Nat)} {ms : List ((Str × Str) × Int)} (h : Learns v ms v')
    (hv : ∀ e ∈ v, ∀ s ∈ e.1, s ≠ []) : ∀ e ∈ ms, e.1.2 ≠ [] := by
  induction h with
  | done v => intro e he; cases he
  | @step v v' p ms hpos _ _ ih =>
    intro e he
    rcases List.mem_cons.mp he with rfl | he
    · have : ∃ e ∈ v, 0 < pairCount p e.1 := by
        exact weighted_pos hpos
      obtain ⟨e, he, hc⟩ := this
      obtain ⟨u, t, e1⟩ := Alphabets.count_pos hc
      exact hv e he p.2 (by rw [e1]; simp)
    · refine ih (fun a ha => ?_) e he
      obtain ⟨a0, h0, rfl⟩ := List.mem_map.mp ha
      exact Alphabets.replace_ne (hv a0 h0)

/-- **C102** So every word of the alphabet, whether it was in the vocabulary or not, is split by all learnt merges as by those of the
alphabet alone. -/
theorem C102_split (words : Dict Str Nat) (hw : words.WF) (hp : ∀ e ∈ words, 0 < e.2) (S : Char → Bool) {n : Nat} (hn : n ≤ sysMaxsize)
    {ms : List ((Str × Str) × Int)} {v : SplitVocab} (hl : doMerges (trainingVocab words) n = .ok (v, ranked 0 ms)) (cache : BpeCache)
    {w : Str} (hs : ' ' ∉ w) (hS : ∀ c ∈ w, S c = true) :
    getBpeSubwords w ⟨cache, ranked 0 (ms.filter fun e => e.1.1.all S)⟩ = getBpeSubwords w ⟨cache, ranked 0 ms⟩ := by
  obtain ⟨h1, h2, -⟩ := learnt_learns hw hp hl
  refine C103_removed (Nat.le_trans h2 hn) cache hs (fun p => p.1.all S) fun e he ⟨u, t, ho⟩ => ?_
  have hne := learns_second h1 (fun a ha s hsm => by
    obtain ⟨e0, h0, rfl⟩ := List.mem_map.mp ha
    rcases List.mem_append.mp hsm with hsm | hsm
    · obtain ⟨c, -, rfl⟩ := List.mem_map.mp hsm
      split <;> simp
    · rw [List.mem_singleton.mp hsm]; simp) e he
  have hd := Alphabets.initial_dropLast S w
  rw [searched_flatten hs, ho, List.append_assoc, List.dropLast_append_of_ne_nil (fun e' => hne (List.append_eq_nil_iff.mp e').1),
    List.all_append, List.all_append, List.all_eq_true.mpr hS, Bool.and_eq_true, Bool.and_eq_true] at hd
  exact hd.1.2

/-- **C103** The order does count: with the same two merges in the other order `abc` is split differently. -/
theorem C103_order_counts :
    getBpeSubwords "abc".toList ⟨[], ranked 0 [(("a".toList, "b".toList), 2), (("b".toList, "c".toList), 1)]⟩ = .ok ["ab".toList, "c".toList, []] ∧
    getBpeSubwords "abc".toList ⟨[], ranked 0 [(("b".toList, "c".toList), 2), (("a".toList, "b".toList), 1)]⟩ = .ok ["a".toList, "bc".toList, []] := by
  constructor <;> decide +kernel

/-- A list with a merge that does not occur in `ab`, and the list without it; the numbers are different. -/
example : getBpeSubwords "ab".toList ⟨[], ranked 0 [(("x".toList, "y".toList), 3), (("a".toList, "b".toList), 2)]⟩ = .ok ["ab".toList, []] ∧
    getBpeSubwords "ab".toList ⟨[], ranked 0 [(("a".toList, "b".toList), 2)]⟩ = .ok ["ab".toList, []] ∧
    MergeList.priority? (ranked 0 [(("x".toList, "y".toList), 3), (("a".toList, "b".toList), 2)]) ("a".toList, "b".toList) = some 1 := by
  decide +kernel

/-- Non-vacuity of `SameOrder` with different numbers. -/
example : SameOrder [(("a".toList, "b".toList), (some 9, 0)), (("ab".toList, "@".toList), (some 4, 1))]
    [(("a".toList, "b".toList), (some 9, 5)), (("ab".toList, "@".toList), (some 4, 8))] "ab".toList := by
  have f : ∀ p : Str × Str, MergeList.priority? [(("a".toList, "b".toList), (some 9, 5)), (("ab".toList, "@".toList), (some 4, 8))] p =
      (MergeList.priority? [(("a".toList, "b".toList), (some 9, 0)), (("ab".toList, "@".toList), (some 4, 1))] p).map fun k => 5 + 3 * k := by
    intro p
    show Option.map _ (if _ = p then _ else if _ = p then _ else _) = Option.map _ (Option.map _ (if _ = p then _ else if _ = p then _ else _))
    by_cases h1 : ("a".toList, "b".toList) = p
    · rw [if_pos h1, if_pos h1]; rfl
    · rw [if_neg h1, if_neg h1]
      by_cases h2 : ("ab".toList, "@".toList) = p
      · rw [if_pos h2, if_pos h2]; rfl
      · rw [if_neg h2, if_neg h2]; rfl
  refine ⟨fun p _ => by rw [f]; simp, fun p q k l k' l' _ _ h1 h2 h3 h4 => ?_⟩
  rw [f, h1] at h3
  rw [f, h2] at h4
  cases h3; cases h4
  show k ≤ l ↔ 5 + 3 * k ≤ 5 + 3 * l
  constructor <;> intro <;> omega

end Verif.Props.Order
