import Verif.Model.Vocab
import Verif.Spec.Vocab
import Verif.Proofs.Files
/-!
# Lemmas about dictionaries of counts and groups
-/
namespace Verif
open Spec

theorem range_mul_mod (q n : Nat) :
    (List.range (q * n)).map (· % n) = (List.replicate q (List.range n)).flatten := by
  induction q with
  | zero => simp
  | succ q ih =>
    rw [Nat.succ_mul, List.range_add, List.map_append, ih, List.replicate_succ', List.flatten_append]
    congr 1
    simp only [List.map_map, List.flatten_cons, List.flatten_nil, List.append_nil]
    conv => rhs; rw [← List.map_id (List.range n)]
    refine List.map_congr_left fun a ha => ?_
    have := List.mem_range.mp ha
    simp only [Function.comp, id]
    rw [Nat.add_comm, Nat.add_mul_mod_self_right, Nat.mod_eq_of_lt this]

theorem chunkLabels_eq (t n : Nat) (hn : n ≠ 0) : chunkLabels t n = .ok ((List.range t).map (· % n)) := by
  unfold chunkLabels
  rw [if_neg hn]
  congr 1
  conv => rhs; rw [← Nat.div_add_mod t n, Nat.mul_comm n, List.range_add, List.map_append, range_mul_mod]
  congr 1
  rw [List.map_map]
  conv => lhs; rw [← List.map_id (List.range (t % n))]
  refine List.map_congr_left fun a ha => ?_
  have h1 := List.mem_range.mp ha
  have h2 := Nat.mod_lt t (Nat.pos_of_ne_zero hn)
  simp only [Function.comp, id]
  rw [Nat.add_comm, Nat.add_mul_mod_self_right, Nat.mod_eq_of_lt (by omega)]

theorem fillGroups_ok {α : Type} (l : List (α × Nat)) (gs : List (List α)) (h : ∀ e ∈ l, e.2 < gs.length) :
    ∃ gs', fillGroups gs l = .ok gs' ∧ gs'.length = gs.length ∧
      ∀ i, i < gs.length → gs'[i]? = gs[i]?.map (· ++ (l.filter fun e => e.2 = i).map (·.1)) := by
  induction l generalizing gs with
  | nil =>
    refine ⟨gs, rfl, rfl, fun i hi => ?_⟩
    simp
  | cons e r ih =>
    obtain ⟨x, k⟩ := e
    have hk : k < gs.length := h (x, k) (by simp)
    have hg : gs[k]? = some gs[k] := by simp [hk]
    obtain ⟨gs', h1, h2, h3⟩ := ih (gs.set k (gs[k] ++ [x])) (by
      intro e he; rw [List.length_set]; exact h e (by simp [he]))
    refine ⟨gs', ?_, by rw [h2, List.length_set], fun i hi => ?_⟩
    · rw [fillGroups, hg]; exact h1
    · rw [h3 i (by rwa [List.length_set]), List.getElem?_set]
      by_cases hki : k = i
      · subst hki
        simp [hk]
      · simp [hki]

theorem zip_labels {α : Type} (l : List α) (n : Nat) :
    l.zip ((List.range l.length).map (· % n)) = l.zipIdx.map fun e => (e.1, e.2 % n) := by
  apply List.ext_getElem
  · simp
  · intro i h1 h2
    simp

theorem groupify_spec {α : Type} (l : List α) (n : Nat) (hn : n ≠ 0) :
    groupify l n = .ok ((List.range (min n l.length)).map fun i => atRemainder l n i) := by
  have hmin : (if l.length ≥ n then n else l.length) = min n l.length := by split <;> omega
  unfold groupify
  cases l with
  | nil => simp
  | cons a r =>
    simp only [chunkLabels_eq _ _ hn, hmin, bind, Except.bind]
    rw [zip_labels]
    generalize hl : a :: r = l
    obtain ⟨gs, h1, h2, h3⟩ := fillGroups_ok (l.zipIdx.map fun e => (e.1, e.2 % n)) (List.replicate (min n l.length) []) (by
      intro e he
      obtain ⟨⟨x, j⟩, hx, rfl⟩ := List.mem_map.mp he
      have := List.mem_zipIdx hx
      have hm := Nat.mod_lt j (Nat.pos_of_ne_zero hn)
      have hle := Nat.mod_le j n
      simp only [List.length_replicate]
      omega)
    rw [h1]
    congr 1
    apply List.ext_getElem?
    intro i
    by_cases hi : i < min n l.length
    · rw [h3 i (by simpa using hi)]
      rw [List.getElem?_replicate, if_pos hi, List.getElem?_map, List.getElem?_range hi]
      simp only [Option.map_some, List.nil_append, atRemainder]
      congr 1
      rw [List.filter_map, List.map_map]
      rfl
    · rw [List.getElem?_eq_none (by rw [h2]; simp; omega), List.getElem?_eq_none (by simp; omega)]

/-! ### Merging dictionaries -/

theorem mergeDicts_wf (d1 d2 : Dict Str Nat) (h : d1.WF) : (mergeDicts d1 d2).1.WF := by
  induction d2 generalizing d1 with
  | nil => exact h
  | cons e r ih =>
    obtain ⟨k, v⟩ := e
    unfold mergeDicts
    split
    · exact ih _ (Dict.WF_set h k v)
    · exact ih _ (Dict.WF_set h k _)

theorem Dict.getD_eq_count {d : Dict Str Nat} (h : d.WF) (w : Str) : (d.get? w).getD 0 = countIn d w := by
  induction d with
  | nil => rfl
  | cons e r ih =>
    obtain ⟨k, v⟩ := e
    have hk : k ∉ Dict.keys r ∧ Dict.WF r := by simpa [Dict.WF, Dict.keys] using h
    unfold Dict.get? countIn
    by_cases hkw : k = w
    · subst hkw
      have : r.filter (fun e => e.1 = k) = [] := by
        rw [List.filter_eq_nil_iff]
        intro e he
        simp only [decide_eq_true_eq]
        rintro rfl
        exact hk.1 (List.mem_map.mpr ⟨e, he, rfl⟩)
      simp [this]
    · rw [if_neg hkw, ih hk.2]
      simp [countIn, hkw]

theorem mergeDicts_get (d1 d2 : Dict Str Nat) (h : d2.WF) (w : Str) :
    ((mergeDicts d1 d2).1.get? w).getD 0 = (d1.get? w).getD 0 + (d2.get? w).getD 0 := by
  induction d2 generalizing d1 with
  | nil => rfl
  | cons e r ih =>
    obtain ⟨k, v⟩ := e
    have hk : k ∉ Dict.keys r ∧ Dict.WF r := by simpa [Dict.WF, Dict.keys] using h
    unfold mergeDicts
    split
    · rename_i hn
      rw [ih _ hk.2, Dict.get?_set]
      by_cases hkw : k = w
      · subst hkw
        rw [Dict.get?_eq_none.mpr hk.1]
        simp [hn, Dict.get?]
      · simp [hkw, Dict.get?]
    · rename_i v1 hs
      rw [ih _ hk.2, Dict.get?_set]
      by_cases hkw : k = w
      · subst hkw
        rw [Dict.get?_eq_none.mpr hk.1]
        simp [hs, Dict.get?]
      · simp [hkw, Dict.get?]

theorem mergeDicts_keys (d1 d2 : Dict Str Nat) (h : d2.WF) :
    (mergeDicts d1 d2).1.keys = d1.keys ++ (mergeDicts d1 d2).2 ∧
      (mergeDicts d1 d2).2 = d2.keys.filter fun k => !d1.has k := by
  induction d2 generalizing d1 with
  | nil => simp [mergeDicts, Dict.keys]
  | cons e r ih =>
    obtain ⟨k, v⟩ := e
    have hk : k ∉ Dict.keys r ∧ Dict.WF r := by simpa [Dict.WF, Dict.keys] using h
    unfold mergeDicts
    split
    · rename_i hn
      obtain ⟨h1, h2⟩ := ih (d1.set k v) hk.2
      have hnk := Dict.get?_eq_none.mp hn
      constructor
      · simp only
        rw [h1, Dict.set_of_not_mem _ _ _ hnk]
        simp [Dict.keys]
      · simp only
        rw [h2]
        have : Dict.keys ((k, v) :: r) = k :: Dict.keys r := rfl
        rw [this, List.filter_cons, if_pos (by simp [Dict.has, hn])]
        congr 1
        refine List.filter_congr fun x hx => ?_
        have : k ≠ x := by rintro rfl; exact hk.1 hx
        simp [Dict.has, Dict.get?_set, this]
    · rename_i v1 hs
      obtain ⟨h1, h2⟩ := ih (d1.set k (v1 + v)) hk.2
      have hmem : k ∈ d1.keys := Dict.has_iff.mp (by simp [Dict.has, hs])
      constructor
      · rw [h1, Dict.set_of_mem_keys _ _ _ hmem]
      · rw [h2]
        have : Dict.keys ((k, v) :: r) = k :: Dict.keys r := rfl
        rw [this, List.filter_cons, if_neg (by simp [Dict.has, hs])]
        refine List.filter_congr fun x hx => ?_
        have : k ≠ x := by rintro rfl; exact hk.1 hx
        simp [Dict.has, Dict.get?_set, this]

/-! ### Limiting a vocabulary -/

theorem adjust_ok (l : List (Str × Nat)) (hs : l.Pairwise fun a b => b.2 ≤ a.2) (f n : Nat) (hn : n ≤ l.length)
    (hf : ∀ e ∈ l.take n, f ≤ e.2) (hd : ∀ e ∈ l.drop n, e.2 ≤ f) :
    ∃ k, PVocab.adjustThreshold l f n = .ok k ∧ k ≤ n ∧ l.take k = l.filter fun e => f < e.2 := by
  induction n with
  | zero =>
    refine ⟨0, rfl, by omega, ?_⟩
    simp only [List.drop_zero] at hd
    rw [List.take_zero, eq_comm, List.filter_eq_nil_iff]
    intro e he
    have := hd e he
    simp; omega
  | succ n ih =>
    have hl : n < l.length := by omega
    have hg : l[n]? = some l[n] := by simp [hl]
    have hmem : l[n] ∈ l.take (n + 1) := by
      rw [List.mem_iff_getElem?]
      exact ⟨n, by rw [List.getElem?_take, if_pos (by omega), hg]⟩
    unfold PVocab.adjustThreshold
    rw [hg]
    simp only
    split
    · rename_i he
      obtain ⟨k, h1, h2, h3⟩ := ih (by omega) (fun e he => hf e (by
          rw [show n = min n (n + 1) by omega, ← List.take_take] at he
          exact List.mem_of_mem_take he)) (fun e hx => by
          rw [List.drop_eq_getElem_cons hl] at hx
          rcases List.mem_cons.mp hx with rfl | hx
          · omega
          · exact hd e hx)
      exact ⟨k, h1, by omega, h3⟩
    · rename_i he
      refine ⟨n + 1, rfl, by omega, ?_⟩
      have hlt : f < l[n].2 := by have := hf _ hmem; omega
      conv => rhs; rw [← List.take_append_drop (n + 1) l, List.filter_append]
      have e2 : (l.drop (n + 1)).filter (fun e => decide (f < e.2)) = [] := by
        rw [List.filter_eq_nil_iff]
        intro e hx
        have := hd e hx
        simp; omega
      have e1 : (l.take (n + 1)).filter (fun e => decide (f < e.2)) = l.take (n + 1) := by
        rw [List.filter_eq_self]
        intro e hx
        rw [List.take_succ_eq_append_getElem hl] at hx
        simp only [decide_eq_true_eq]
        rcases List.mem_append.mp hx with hx | hx
        · have hp : (l.take n ++ l.drop n).Pairwise fun a b => b.2 ≤ a.2 := by rw [List.take_append_drop]; exact hs
          have := (List.pairwise_append.mp hp).2.2 e hx l[n] (by rw [List.drop_eq_getElem_cons hl]; exact List.mem_cons_self)
          omega
        · simp at hx; subst hx; exact hlt
      rw [e1, e2, List.append_nil]

end Verif
