import Verif.Spec.Made
import Verif.Proofs.BpeLearnMore
/-!
# Every merge makes a new subword
-/
namespace Verif
open Spec

theorem seqAll_single (ms : List (Str × Str)) (x : Str) : seqAll ms [x] = [x] := by
  induction ms with
  | nil => rfl
  | cons p ms ih => exact ih

theorem coh_mergeIn {seg : Str → List Str} {v : SplitVocab} (hc : ∀ e ∈ v, Coh seg e.1) (p : Pair) :
    ∀ e ∈ mergeIn p v, Coh (fun x => replaceAll p (seg x)) e.1 := by
  intro e he
  simp only [mergeIn, List.mem_map] at he
  obtain ⟨e0, he0, rfl⟩ := he
  exact (hc e0 he0).replaceAll p

theorem seg_pair {seg : Str → List Str} {v : SplitVocab} (hc : ∀ e ∈ v, Coh seg e.1) {p : Pair} (h : 0 < weightedCount v p) :
    seg (p.1 ++ p.2) = [p.1, p.2] := by
  obtain ⟨s, f, hm, ha⟩ := weightedCount_pos h
  exact (hc _ hm).pair ha

/-- What is a symbol by itself is not made by later merges. -/
theorem learns_not_made {v v' : SplitVocab} {ms : List (Pair × Int)} (h : Learns v ms v') :
    ∀ (seg : Str → List Str), (∀ e ∈ v, Coh seg e.1) → ∀ x, seg x = [x] → ∀ e ∈ ms, made e ≠ x := by
  induction h with
  | done v => intro _ _ _ _ e he; cases he
  | @step v v' p ms hpos hmax _ ih =>
    intro seg hc x hx e he hm
    rcases List.mem_cons.1 he with rfl | he
    · have := seg_pair hc hpos
      have hm : p.1 ++ p.2 = x := hm
      rw [hm, hx] at this
      cases this
    · exact ih _ (coh_mergeIn hc p) x (by rw [hx]; rfl) e he hm

theorem learns_made_nodup {v v' : SplitVocab} {ms : List (Pair × Int)} (h : Learns v ms v') :
    ∀ (seg : Str → List Str), (∀ e ∈ v, Coh seg e.1) → (ms.map made).Nodup := by
  induction h with
  | done v => intro _ _; exact List.nodup_nil
  | @step v v' p ms hpos hmax hl ih =>
    intro seg hc
    rw [List.map_cons, List.nodup_cons]
    refine ⟨fun hm => ?_, ih _ (coh_mergeIn hc p)⟩
    obtain ⟨e, he, hm⟩ := List.mem_map.1 hm
    refine learns_not_made hl _ (coh_mergeIn hc p) (p.1 ++ p.2) ?_ e he hm
    show replaceAll p (seg (p.1 ++ p.2)) = _
    rw [seg_pair hc hpos, replaceAll, if_pos ⟨rfl, rfl⟩]
    rfl

/-- A subword that a merge makes stays in one piece where it stands alone. -/
theorem learns_made_seg {v v' : SplitVocab} {ms : List (Pair × Int)} (h : Learns v ms v') :
    ∀ (seg : Str → List Str), (∀ e ∈ v, Coh seg e.1) → ∀ e ∈ ms, seqAll (ms.map (·.1)) (seg (made e)) = [made e] := by
  induction h with
  | done v => intro _ _ e he; cases he
  | @step v v' p ms hpos hmax hl ih =>
    intro seg hc e he
    show seqAll (ms.map (·.1)) (replaceAll p (seg (made e))) = _
    rcases List.mem_cons.1 he with rfl | he
    · show seqAll _ (replaceAll p (seg (p.1 ++ p.2))) = [p.1 ++ p.2]
      rw [seg_pair hc hpos, replaceAll, if_pos ⟨rfl, rfl⟩]
      exact seqAll_single _ _
    · exact ih _ (coh_mergeIn hc p) e he

theorem mem_replaceAll_made {p : Pair} {x : Str} (s : List Str) (h : x ∈ replaceAll p s) : x ∈ s ∨ (x = p.1 ++ p.2 ∧ Adjacent p s) := by
  induction s using replaceAll.induct p with
  | case1 => cases h
  | case2 a => exact .inl h
  | case3 a b r hm ih =>
    rw [replaceAll, if_pos hm] at h
    rcases List.mem_cons.1 h with h | h
    · exact .inr ⟨by rw [h, hm.1, hm.2], [], r, by rw [hm.1, hm.2]; rfl⟩
    · rcases ih h with h | ⟨h1, l, t, h2⟩
      · exact .inl (by simp [h])
      · exact .inr ⟨h1, a :: b :: l, t, by rw [h2]; rfl⟩
  | case4 a b r hm ih =>
    rw [replaceAll, if_neg hm] at h
    rcases List.mem_cons.1 h with h | h
    · exact .inl (by simp [h])
    · rcases ih h with h | ⟨h1, l, t, h2⟩
      · exact .inl (List.mem_cons_of_mem _ h)
      · exact .inr ⟨h1, a :: l, t, by rw [h2]; rfl⟩

theorem mem_seqAll_made {x : Str} (ms : List Pair) (s : List Str) (h : x ∈ seqAll ms s) : x ∈ s ∨ ∃ p ∈ ms, x = p.1 ++ p.2 := by
  induction ms generalizing s with
  | nil => exact .inl h
  | cons p ms ih =>
    rcases ih (replaceAll p s) h with h | ⟨q, hq, h⟩
    · rcases mem_replaceAll_made s h with h | ⟨h, -⟩
      · exact .inl h
      · exact .inr ⟨p, List.mem_cons_self, h⟩
    · exact .inr ⟨q, List.mem_cons_of_mem _ hq, h⟩

/-- Both parts of a merge were there before it. -/
theorem learns_parts {v v' : SplitVocab} {ms : List (Pair × Int)} (h : Learns v ms v') :
    ∀ pre e post, ms = pre ++ e :: post → ∀ x, x = e.1.1 ∨ x = e.1.2 → (∃ s ∈ v, x ∈ s.1) ∨ ∃ q ∈ pre, x = made q := by
  induction h with
  | done v => intro pre e post he; simp at he
  | @step v v' p ms hpos hmax hl ih =>
    intro pre e post he x hx
    cases pre with
    | nil =>
      cases he
      obtain ⟨s, f, hm, ha⟩ := weightedCount_pos hpos
      rcases hx with rfl | rfl
      · exact .inl ⟨_, hm, ha.mem_left⟩
      · exact .inl ⟨_, hm, ha.mem_right⟩
    | cons q pre =>
      rw [List.cons_append] at he
      obtain ⟨rfl, he'⟩ := List.cons.inj he
      rcases ih pre e post he' x hx with ⟨s, hs, hxs⟩ | ⟨q, hq, h⟩
      · simp only [mergeIn, List.mem_map] at hs
        obtain ⟨s0, hs0, rfl⟩ := hs
        rcases mem_replaceAll_made s0.1 hxs with h | ⟨h, -⟩
        · exact .inl ⟨s0, hs0, h⟩
        · exact .inr ⟨_, List.mem_cons_self, h⟩
      · exact .inr ⟨q, List.mem_cons_of_mem _ hq, h⟩

theorem count_replaceAll_other {p : Pair} {x : Str} (hx : x ≠ p.1 ++ p.2) (s : List Str) : (replaceAll p s).count x ≤ s.count x := by
  induction s using replaceAll.induct p with
  | case1 => exact Nat.le_refl _
  | case2 a => exact Nat.le_refl _
  | case3 a b r hm ih =>
    rw [replaceAll, if_pos hm, List.count_cons, List.count_cons, List.count_cons]
    rw [if_neg (by rw [hm.1, hm.2]; simpa using fun e => hx e.symm)]
    omega
  | case4 a b r hm ih =>
    rw [replaceAll, if_neg hm, List.count_cons, List.count_cons (a := x) (b := a) (l := b :: r)]
    omega

theorem subwordCount_mergeIn_le {p : Pair} {x : Str} (v : SplitVocab) {c : Nat → List Str → Nat}
    (h : ∀ e ∈ v, e.2 * (replaceAll p e.1).count x ≤ c e.2 e.1) :
    subwordCount (mergeIn p v) x ≤ (v.map fun e => c e.2 e.1).sum := by
  induction v with
  | nil => exact Nat.le_refl _
  | cons e r ih =>
    have h1 := ih fun e he => h e (List.mem_cons_of_mem _ he)
    have h2 := h e List.mem_cons_self
    simp only [subwordCount, mergeIn, List.map_cons, List.sum_cons] at h1 ⊢
    omega

/-- A subword that is not made does not become more frequent. -/
theorem learns_count_le {v v' : SplitVocab} {ms : List (Pair × Int)} (h : Learns v ms v') {x : Str} (hx : ∀ e ∈ ms, made e ≠ x) :
    subwordCount v' x ≤ subwordCount v x := by
  induction h with
  | done v => exact Nat.le_refl _
  | @step v v' p ms hpos hmax hl ih =>
    refine Nat.le_trans (ih fun e he => hx e (List.mem_cons_of_mem _ he)) ?_
    exact subwordCount_mergeIn_le (c := fun n s => n * s.count x) v fun e he =>
      Nat.mul_le_mul_left _ (count_replaceAll_other (fun e => hx _ List.mem_cons_self e.symm) _)

/-- In the end a subword is at most as frequent as the pair that was merged. -/
theorem learns_made_count {v v' : SplitVocab} {ms : List (Pair × Int)} (h : Learns v ms v') :
    ∀ (seg : Str → List Str), (∀ e ∈ v, Coh seg e.1) → ∀ e ∈ ms, (subwordCount v' (made e) : Int) ≤ e.2 := by
  induction h with
  | done v => intro _ _ e he; cases he
  | @step v v' p ms hpos hmax hl ih =>
    intro seg hc e he
    rcases List.mem_cons.1 he with rfl | he
    · show (subwordCount v' (p.1 ++ p.2) : Int) ≤ (weightedCount v p : Int)
      have hp := seg_pair hc hpos
      have hnew : ∀ e ∈ v, p.1 ++ p.2 ∉ e.1 := by
        intro e he hx
        have := (hc e he).symbol hx
        rw [hp] at this
        have := congrArg List.length this
        simp at this
      have h1 : subwordCount (mergeIn p v) (p.1 ++ p.2) ≤ weightedCount v p :=
        subwordCount_mergeIn_le (c := fun n s => n * pairCount p s) v fun e he => Nat.mul_le_mul_left _ (count_replaceAll_le e.1 (hnew e he))
      have h2 : subwordCount v' (p.1 ++ p.2) ≤ subwordCount (mergeIn p v) (p.1 ++ p.2) := by
        refine learns_count_le hl (learns_not_made hl _ (coh_mergeIn hc p) _ ?_)
        show replaceAll p (seg (p.1 ++ p.2)) = _
        rw [hp, replaceAll, if_pos ⟨rfl, rfl⟩]
        rfl
      omega
    · exact ih _ (coh_mergeIn hc p) e he

end Verif
