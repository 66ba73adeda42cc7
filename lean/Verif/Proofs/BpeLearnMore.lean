import Verif.Proofs.BpeLearn
import Verif.Model.BpeLearner
/-!
# More about byte-pair learning: frequencies do not increase, ranks are positions, vocabularies
-/
namespace Verif
open Spec Dict

/-! ## Frequencies never increase -/

theorem replaceAll_head {p : Pair} (b : Str) (r : List Str) :
    (replaceAll p (b :: r)).head? = some b ∨ (replaceAll p (b :: r)).head? = some (p.1 ++ p.2) := by
  cases r with
  | nil => left; rfl
  | cons c t =>
    simp only [replaceAll]
    split
    · rename_i h; right; rw [h.1, h.2]; rfl
    · left; rfl

theorem pairCount_replaceAll_le {p q : Pair} (h1 : q.1 ≠ p.1 ++ p.2) (h2 : q.2 ≠ p.1 ++ p.2) :
    ∀ s : List Str, pairCount q (replaceAll p s) ≤ pairCount q s
  | [] => by simp [replaceAll]
  | [a] => by simp [replaceAll]
  | a :: b :: r => by
    simp only [replaceAll]
    split
    · rename_i hm
      have ih := pairCount_replaceAll_le h1 h2 r
      rw [pairCount_cons, pairCount_cons, pairCount_cons]
      have : bd q (some (a ++ b)) (replaceAll p r).head? = 0 := by
        simp only [bd, Option.some.injEq]
        rw [if_neg]
        rintro ⟨e, _⟩
        rw [hm.1, hm.2] at e
        exact h1 e.symm
      omega
    · have ih := pairCount_replaceAll_le h1 h2 (b :: r)
      rw [pairCount_cons, pairCount_cons q a]
      have : bd q (some a) (replaceAll p (b :: r)).head? ≤ bd q (some a) (some b) := by
        rcases replaceAll_head (p := p) b r with e | e
        · rw [e]; exact Nat.le_refl _
        · rw [e]
          simp only [bd, Option.some.injEq]
          rw [if_neg (fun h => h2 h.2.symm)]
          exact Nat.zero_le _
      simp only [List.head?_cons]
      omega

theorem pairCount_le_count_left (q : Pair) : ∀ s : List Str, pairCount q s ≤ s.count q.1
  | [] => by simp [pairCount]
  | [a] => by simp [pairCount]
  | a :: b :: r => by
    have ih := pairCount_le_count_left q (b :: r)
    rw [pairCount, List.count_cons]
    split
    · rename_i h; simp [h.1]; omega
    · omega

theorem pairCount_le_count_right (q : Pair) : ∀ s : List Str, pairCount q s ≤ s.tail.count q.2
  | [] => by simp [pairCount]
  | [a] => by simp [pairCount]
  | a :: b :: r => by
    have ih := pairCount_le_count_right q (b :: r)
    rw [pairCount]
    simp only [List.tail_cons] at ih ⊢
    rw [List.count_cons]
    split
    · rename_i h; simp only [h.2, beq_self_eq_true, if_true] at ih ⊢; omega
    · omega

theorem count_replaceAll_le {p : Pair} : ∀ (s : List Str), p.1 ++ p.2 ∉ s →
    (replaceAll p s).count (p.1 ++ p.2) ≤ pairCount p s
  | [], _ => by simp [replaceAll]
  | [a], h => by
    simp only [replaceAll, pairCount]
    rw [List.count_eq_zero_of_not_mem h]
    exact Nat.le_refl _
  | a :: b :: r, h => by
    simp only [replaceAll, pairCount]
    split
    · rename_i hm
      have ih := count_replaceAll_le (p := p) r (fun h' => h (by simp [h']))
      rw [List.count_cons]
      have : pairCount p r ≤ pairCount p (b :: r) := by rw [pairCount_cons]; omega
      split <;> omega
    · have ih := count_replaceAll_le (b :: r) (fun h' => h (List.mem_cons_of_mem _ h'))
      rw [List.count_cons]
      have : ¬ (a == p.1 ++ p.2) = true := by
        intro e
        simp only [beq_iff_eq] at e
        exact h (by simp [e])
      simp only [this]
      simp only [Bool.false_eq_true, if_false]
      omega

theorem weightedCount_mono {v v' : SplitVocab} {q p : Pair} (f : List Str → List Str)
    (hv : v' = v.map fun e => (f e.1, e.2)) (h : ∀ e ∈ v, pairCount q (f e.1) ≤ pairCount p e.1) :
    weightedCount v' q ≤ weightedCount v p := by
  subst hv
  induction v with
  | nil => simp [weightedCount]
  | cons e r ih =>
    have h1 := ih (fun e he => h e (List.mem_cons_of_mem _ he))
    have h2 := Nat.mul_le_mul_left e.2 (h e (by simp))
    simp only [weightedCount, List.map_cons, List.sum_cons] at h1 ⊢
    omega

theorem weightedCount_mergeIn_le {seg : Str → List Str} {v : SplitVocab} {p : Pair} (hc : ∀ e ∈ v, Coh seg e.1)
    (hpos : 0 < weightedCount v p) (hmax : ∀ q, weightedCount v q ≤ weightedCount v p) (q : Pair) :
    weightedCount (mergeIn p v) q ≤ weightedCount v p := by
  obtain ⟨s0, f0, hm0, ha0⟩ := weightedCount_pos hpos
  have hpair := (hc _ hm0).pair ha0
  have hnew : ∀ e ∈ v, p.1 ++ p.2 ∉ e.1 := by
    intro e he hx
    have := (hc e he).symbol hx
    rw [hpair] at this
    simp at this
  by_cases h1 : q.1 = p.1 ++ p.2
  · refine weightedCount_mono (replaceAll p) rfl (fun e he => ?_)
    have a := pairCount_le_count_left q (replaceAll p e.1)
    have b := count_replaceAll_le e.1 (hnew e he)
    rw [h1] at a
    omega
  · by_cases h2 : q.2 = p.1 ++ p.2
    · refine weightedCount_mono (replaceAll p) rfl (fun e he => ?_)
      have a := pairCount_le_count_right q (replaceAll p e.1)
      have b := count_replaceAll_le e.1 (hnew e he)
      have c := (List.tail_sublist (replaceAll p e.1)).count_le (p.1 ++ p.2)
      rw [h2] at a
      omega
    · exact Nat.le_trans (weightedCount_mono (replaceAll p) rfl (fun e _ => pairCount_replaceAll_le h1 h2 e.1))
        (hmax q)

theorem learns_sorted {v v' : SplitVocab} {ms : List (Pair × Int)} (h : Learns v ms v') :
    ∀ (seg : Str → List Str), (∀ e ∈ v, Coh seg e.1) → ∀ B : Nat, (∀ q, weightedCount v q ≤ B) →
      (∀ e ∈ ms, e.2 ≤ B) ∧ ms.Pairwise (fun a b => b.2 ≤ a.2) := by
  induction h with
  | done v => intro seg _ B _; simp
  | @step v v' p ms hpos hmax _ ih =>
    intro seg hc B hB
    obtain ⟨h1, h2⟩ := ih (fun x => replaceAll p (seg x)) (by
      intro e he
      simp only [mergeIn, List.mem_map] at he
      obtain ⟨e0, he0, rfl⟩ := he
      exact (hc e0 he0).replaceAll p) (weightedCount v p) (weightedCount_mergeIn_le hc hpos hmax)
    have hp := hB p
    refine ⟨?_, ?_⟩
    · intro e he
      rcases List.mem_cons.1 he with rfl | he
      · simp only; omega
      · have := h1 e he; omega
    · rw [List.pairwise_cons]
      exact ⟨h1, h2⟩

/-! ## The training vocabulary -/

theorem unitsOf_inj {w w' : Str} (h : unitsOf w = unitsOf w') : w = w' := by
  have h' : w.map unitOf = w'.map unitOf := by
    simp only [unitsOf] at h
    exact (List.append_inj' h rfl).1
  have := congrArg (fun l => undoubleEsc (List.flatten l)) h'
  simpa [undouble_units] using this

theorem escape_inj {w w' : Str} (h : escape w true = escape w' true) : w = w' := by
  rw [escape_eq, escape_eq] at h
  have h1 := (coh_unitsOf w).span [] (unitsOf w) [] (by simp)
  have h2 := (coh_unitsOf w').span [] (unitsOf w') [] (by simp)
  rw [h, h2] at h1
  exact unitsOf_inj h1.symm

theorem good_training {words : Dict Str Nat} (hw : words.WF) (hp : ∀ e ∈ words, 0 < e.2) :
    Good initSeg (trainingVocab words) := by
  constructor
  · intro e he
    simp only [trainingVocab, List.mem_map] at he
    obtain ⟨e0, _, rfl⟩ := he
    exact coh_unitsOf e0.1
  · simp only [trainingVocab, List.map_map]
    have : ((fun e : List Str × Nat => e.1.flatten) ∘ fun e : Str × Nat => (initialSymbols e.1, e.2)) =
        (fun w => escape w true) ∘ (fun e : Str × Nat => e.1) := by
      funext e; simp only [Function.comp, escape_eq]; rfl
    rw [this, ← List.map_map]
    exact List.Nodup.map (fun a b h => escape_inj h) hw
  · intro e he
    simp only [trainingVocab, List.mem_map] at he
    obtain ⟨e0, h0, rfl⟩ := he
    exact hp e0 h0

theorem Derivable.mono {W W' : List Str → Prop} (h : ∀ s, W s → W' s) {ms : List Pair} (hd : Derivable W ms) :
    Derivable W' ms := by
  intro pre p post e
  obtain ⟨s, hs, ha⟩ := hd pre p post e
  exact ⟨s, h s hs, ha⟩

/-- the words BPE may have to split: all words -/
def AllWords (s : List Str) : Prop := ∃ w, s = initialSymbols w

theorem allWords_coh : ∀ s, AllWords s → Coh initSeg s := by
  rintro s ⟨w, rfl⟩; exact coh_unitsOf w

theorem wordsOf_training {words : Dict Str Nat} : ∀ s, wordsOf (trainingVocab words) s → AllWords s := by
  rintro s ⟨f, hf⟩
  simp only [trainingVocab, List.mem_map, Prod.mk.injEq] at hf
  obtain ⟨e, _, rfl, _⟩ := hf
  exact ⟨e.1, rfl⟩

/-! ## Ranks are positions -/

theorem ranked_priority : ∀ (ms : List (Pair × Int)) (i : Nat) (p : Pair),
    MergeList.priority? (ranked i ms) p = if p ∈ ms.map (·.1) then some (i + (ms.map (·.1)).idxOf p) else none
  | [], i, p => by simp [ranked, MergeList.priority?, Dict.get?]
  | (q, f) :: r, i, p => by
    have ih := ranked_priority r (i + 1) p
    simp only [MergeList.priority?] at ih ⊢
    simp only [ranked, Dict.get?]
    by_cases h : q = p
    · subst h; simp
    · simp only [h, if_false, ih, List.map_cons, List.mem_cons, Ne.symm h, false_or,
        List.idxOf_cons_ne _ h]
      split
      · congr 1; omega
      · rfl

theorem ranked_posRank (ms : List (Pair × Int)) : MergeList.priority? (ranked 0 ms) = posRank (ms.map (·.1)) := by
  funext p
  rw [ranked_priority, posRank]
  simp

theorem ranked_ok {ms : List (Pair × Int)} (hl : ms.length ≤ sysMaxsize) : RanksOk (ranked 0 ms) := by
  constructor
  · intro p q k hp hq
    rw [ranked_posRank, posRank] at hp hq
    split at hp
    · rename_i h1
      split at hq
      · rename_i h2
        simp only [Option.some.injEq] at hp hq
        have e1 := List.getElem_idxOf (xs := ms.map (·.1)) (x := p) (List.idxOf_lt_length_iff.2 h1)
        have e2 := List.getElem_idxOf (xs := ms.map (·.1)) (x := q) (List.idxOf_lt_length_iff.2 h2)
        rw [← e1, ← e2]
        congr 1
        omega
      · simp at hq
    · simp at hp
  · intro p k hp
    rw [ranked_posRank, posRank] at hp
    split at hp
    · rename_i h1
      simp only [Option.some.injEq] at hp
      have := List.idxOf_lt_length_iff.2 h1
      simp only [List.length_map] at this
      omega
    · simp at hp

/-- For every word, encoding with learnt merges is the same as applying the merges in the order of learning. -/
theorem encode_eq_seqAll {W : List Str → Prop} (hW : ∀ s, W s → AllWords s) {ms : List (Pair × Int)}
    (hd : Derivable W (ms.map (·.1))) (hl : ms.length ≤ sysMaxsize) (w : Str) (hs : ' ' ∉ w) :
    encodeWord (escape w true) (ranked 0 ms) = .ok (seqAll (ms.map (·.1)) (initialSymbols w)) := by
  obtain ⟨r, h1, hco, h2⟩ := encodeWord_escape w (ranked 0 ms) hs
  have hok := ranked_ok hl
  obtain ⟨st, fn⟩ := encodeLoop_steps hok _ _ _ h2
  rw [ranked_posRank] at st fn
  obtain ⟨st', fn'⟩ := steps_seqAll allWords_coh (hd.mono hW) (s := initialSymbols w) ⟨w, rfl⟩
  rw [h1]
  congr 1
  have det : ∀ s t u, Step (posRank (ms.map (·.1))) s t → Step (posRank (ms.map (·.1))) s u → t = u := by
    rintro s t u ⟨p, k, hk, ha, hmin, rfl⟩ ⟨q, k', hk', ha', hmin', rfl⟩
    have e1 := hmin q k' hk' ha'
    have e2 := hmin' p k hk ha
    have e : k = k' := by omega
    subst e
    have := hok.inj p q k (by rw [ranked_posRank]; exact hk) (by rw [ranked_posRank]; exact hk')
    rw [this]
  clear h1 h2 hco
  have hu : unitsOf w = initialSymbols w := rfl
  rw [hu] at st
  clear hu
  generalize seqAll (ms.map (·.1)) (initialSymbols w) = r' at *
  generalize initialSymbols w = s at *
  induction st with
  | refl s =>
    cases st' with
    | refl => rfl
    | head hst _ => obtain ⟨p, k, hk, ha, _⟩ := hst; rw [fn p ha] at hk; simp at hk
  | head hst hsts ih =>
    cases st' with
    | refl => obtain ⟨p, k, hk, ha, _⟩ := hst; rw [fn' p ha] at hk; simp at hk
    | head hst' hsts' =>
      have := det _ _ _ hst hst'
      subst this
      exact ih fn hsts'

/-! ## Dictionaries built in a loop -/

theorem foldl_set_distinct {α β γ : Type} [DecidableEq α] (f : γ → α) (g : γ → β) :
    ∀ (l : List γ) (d : Dict α β), ((d.map (·.1)) ++ l.map f).Nodup →
      l.foldl (fun d e => d.set (f e) (g e)) d = d ++ l.map (fun e => (f e, g e))
  | [], d, _ => by simp
  | x :: r, d, h => by
    have hx : f x ∉ Dict.keys d := by
      rw [List.nodup_append] at h
      intro hm
      exact h.2.2 (f x) hm (f x) (by simp) rfl
    rw [List.foldl_cons, set_of_not_mem _ _ _ hx, foldl_set_distinct f g r _ (by simpa using h)]
    simp

theorem bumpN_get (d : Dict Str Nat) (p q : Str) (x : Nat) :
    ((bumpN d p x).get? q).getD 0 = (d.get? q).getD 0 + if p = q then x else 0 := by
  simp only [bumpN, get?_set]
  split
  · rename_i h; subst h; rfl
  · simp

theorem createResultingVocab_inner (f : Nat) (q : Str) : ∀ (s : List Str) (d : Dict Str Nat),
    ((s.foldl (fun d x => bumpN d x f) d).get? q).getD 0 = (d.get? q).getD 0 + f * s.count q
  | [], d => by simp
  | x :: r, d => by
    rw [List.foldl_cons, createResultingVocab_inner f q r, bumpN_get, List.count_cons]
    by_cases h : x = q
    · simp [h, Nat.mul_add]; omega
    · simp [h]

theorem has_bumpN (d : Dict Str Nat) (p q : Str) (x : Nat) :
    (bumpN d p x).has q = (decide (p = q) || d.has q) := by
  simp only [Dict.has, bumpN, get?_set]
  by_cases h : p = q <;> simp [h]

theorem createResultingVocab_has (f : Nat) (q : Str) : ∀ (s : List Str) (d : Dict Str Nat),
    (s.foldl (fun d x => bumpN d x f) d).has q = (d.has q || decide (q ∈ s))
  | [], d => by simp
  | x :: r, d => by
    rw [List.foldl_cons, createResultingVocab_has f q r, has_bumpN]
    by_cases h : x = q
    · simp [h]
    · have : ¬ q = x := fun e => h e.symm
      simp [h, this]

theorem wf_resulting (f : Nat) : ∀ (s : List Str) (d : Dict Str Nat), d.WF →
    (s.foldl (fun d x => bumpN d x f) d).WF
  | [], d, h => h
  | x :: r, d, h => by rw [List.foldl_cons]; exact wf_resulting f r _ (WF_set h _ _)

end Verif
