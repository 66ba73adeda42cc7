import Verif.Props.EncodeDict
import Verif.Props.Made
/-!
# C96: splitting whole dictionaries with learnt merges
-/
namespace Verif.Props
open Verif Spec

theorem initialSymbols_nonempty (w : Str) : ∀ x ∈ initialSymbols w, x ≠ [] := by
  intro x hx
  unfold initialSymbols at hx
  rcases List.mem_append.1 hx with h | h
  · obtain ⟨c, -, rfl⟩ := List.mem_map.1 h
    split <;> simp
  · rw [List.mem_singleton.1 h]; simp

/-- Learnt merges have no empty parts. -/
theorem C96_parts (words : Dict Str Nat) (hw : words.WF) (hp : ∀ e ∈ words, 0 < e.2) (n : Nat) (v : SplitVocab) (ms : MergeList)
    (hl : doMerges (trainingVocab words) n = .ok (v, ms)) : PartsNonempty ms := by
  obtain ⟨l, v', h1, -⟩ := learn_result words hw hp n
  rw [hl] at h1
  obtain ⟨rfl, rfl⟩ := Prod.mk.inj (Except.ok.inj h1)
  have hstart : ∀ x ∈ startSymbols words, x ≠ [] := by
    intro x hx
    obtain ⟨e, -, h⟩ := List.mem_flatMap.1 hx
    exact initialSymbols_nonempty e.1 x h
  have key : ∀ (k : Nat) (pre post : List ((Str × Str) × Int)), pre.length = k → l = pre ++ post →
      ∀ e ∈ pre, e.1.1 ≠ [] ∧ e.1.2 ≠ [] := by
    intro k
    induction k with
    | zero =>
      intro pre post h0 _ e he
      rw [List.length_eq_zero_iff.1 h0] at he
      cases he
    | succ k ih =>
      intro pre post h0 h1 e he
      rcases List.eq_nil_or_concat pre with rfl | ⟨a, x, rfl⟩
      · cases he
      · have hk : a.length = k := by simpa using h0
        have h1' : l = a ++ x :: post := by simpa using h1
        have hih := ih a (x :: post) hk h1'
        have hx := C89_parts words hw hp (h1' ▸ hl)
        have hmade : ∀ y ∈ a.map made, y ≠ [] := by
          intro y hy
          obtain ⟨q, hq, rfl⟩ := List.mem_map.1 hy
          simp [made, (hih q hq).1]
        rcases List.mem_append.1 (by simpa using he : e ∈ a ++ [x]) with he | he
        · exact hih e he
        · rw [List.mem_singleton.1 he]
          exact ⟨hx.1.elim (hstart _) (hmade _), hx.2.elim (hstart _) (hmade _)⟩
  intro p k hpk
  have hm : p ∈ Dict.keys (ranked 0 l) := by
    unfold MergeList.priority? at hpk
    cases hg : Dict.get? (ranked 0 l) p with
    | none => rw [hg] at hpk; cases hpk
    | some x => exact List.mem_map.2 ⟨(p, x), Dict.get?_some_mem hg, rfl⟩
  rw [ranked_keys] at hm
  obtain ⟨e, he, rfl⟩ := List.mem_map.1 hm
  exact key _ l [] rfl (by simp) e he

theorem legal_escape (w : Str) : LegalWord (escape w true) := ⟨w, .inr rfl⟩

theorem escape_inj {v w : Str} (h : escape v true = escape w true) : v = w := by
  have h1 : doubleEsc v ++ [escChar] = doubleEsc w ++ [escChar] := h
  have h2 := List.append_cancel_right h1
  clear h h1
  induction v generalizing w with
  | nil =>
    cases w with
    | nil => rfl
    | cons c w => simp only [doubleEsc, List.flatMap_cons, List.flatMap_nil] at h2; split at h2 <;> simp at h2
  | cons c v ih =>
    cases w with
    | nil => simp only [doubleEsc, List.flatMap_cons, List.flatMap_nil] at h2; split at h2 <;> simp at h2
    | cons d w =>
      have e : ∀ (c : Char) (v : Str), doubleEsc (c :: v) = (if c = escChar then [escChar, escChar] else [c]) ++ doubleEsc v := by
        intro c v; simp [doubleEsc]
      rw [e, e] at h2
      by_cases hc : c = escChar <;> by_cases hd : d = escChar
      · rw [if_pos hc, if_pos hd] at h2
        rw [hc, hd, ih (List.append_cancel_left h2)]
      · rw [if_pos hc, if_neg hd] at h2
        simp only [List.cons_append, List.nil_append, List.cons.injEq] at h2
        exact absurd h2.1.symm hd
      · rw [if_neg hc, if_pos hd] at h2
        simp only [List.cons_append, List.nil_append, List.cons.injEq] at h2
        exact absurd h2.1 hc
      · rw [if_neg hc, if_neg hd] at h2
        simp only [List.cons_append, List.nil_append, List.cons.injEq] at h2
        rw [h2.1, ih h2.2]

/-- Splitting all words that merges were learnt from with these merges gives exactly the split words, with their frequencies and in
the order in which the learning run delivers them. -/
theorem C96_learnt (words : Dict Str Nat) (hw : words.WF) (hp : ∀ e ∈ words, 0 < e.2) (hs : ∀ e ∈ words, ' ' ∉ e.1) (n : Nat)
    (hn : n ≤ sysMaxsize) (v : SplitVocab) (ms : MergeList) (hl : doMerges (trainingVocab words) n = .ok (v, ms)) :
    encodeDict (words.map fun e => (escape e.1 true, (e.2 : Int))) ms
      = .ok (v.map fun e => (pyJoin [' '] e.1, (e.2 : Int))) := by
  have hpn := C96_parts words hw hp n v ms hl
  obtain ⟨split, v', ms', h1, h2, h3, -⟩ := C05_learnt_split_eq_encoded words hw hp n hn
  rw [hl] at h1
  obtain ⟨rfl, rfl⟩ := Prod.mk.inj (Except.ok.inj h1)
  have hwf : Dict.WF (words.map fun e => (escape e.1 true, (e.2 : Int))) := by
    have : Dict.keys (words.map fun e => (escape e.1 true, (e.2 : Int))) = words.keys.map fun w => escape w true := by
      simp [Dict.keys, Function.comp_def]
    unfold Dict.WF
    rw [this]
    exact List.Nodup.map_on (fun x _ y _ e => escape_inj e) hw
  have hleg : ∀ e ∈ (words.map fun e => (escape e.1 true, (e.2 : Int)) : Dict Str Int), LegalWord e.1 := by
    intro e he
    obtain ⟨a, -, rfl⟩ := List.mem_map.1 he
    exact legal_escape a.1
  obtain ⟨g1, -⟩ := encodeDict_eq hwf hleg hpn
  rw [g1, h2, List.map_map, List.map_map]
  congr 1
  apply List.map_congr_left
  intro e he
  obtain ⟨parts, k1, k2, -⟩ := encodeWord_item (legal_escape e.1) ms
  rw [h3 e.1 (hs e he)] at k1
  cases k1
  simp only [Function.comp, k2]

/-- Non-vacuity. -/
example : (do
    let (_, ms) ← doMerges (trainingVocab exWords) 1
    encodeDict (exWords.map fun e : Str × Nat => (escape e.1 true, (e.2 : Int))) ms)
      = .ok [("b i r d @".toList, 3), ("wo r d @".toList, 7), ("wo g @".toList, 13)] := by decide +kernel

end Verif.Props
