import Verif.Base.Str
/-!
# Lemmas about Python-like strings and dictionaries
-/
namespace Verif

theorem concat_eq_flatten (l : List Str) : concat l = l.flatten := by
  induction l with
  | nil => rfl
  | cons a t ih => simp [concat, ih]

theorem pySplit_ne_nil (sep : Char) (s : Str) : pySplit sep s ≠ [] := by
  induction s with
  | nil => simp [pySplit]
  | cons c cs ih =>
    simp only [pySplit]
    split
    · simp
    · split <;> simp

theorem pySplit_cons_ne {sep c : Char} (h : c ≠ sep) (s p : Str) (ps : List Str)
    (hs : pySplit sep s = p :: ps) : pySplit sep (c :: s) = (c :: p) :: ps := by
  simp [pySplit, h, hs]

/-- Splitting a text without the separator. -/
theorem pySplit_noSep {sep : Char} {s : Str} (h : sep ∉ s) : pySplit sep s = [s] := by
  induction s with
  | nil => rfl
  | cons c cs ih =>
    have hc : c ≠ sep := fun e => h (by simp [e])
    have hcs : sep ∉ cs := fun e => h (by simp [e])
    exact pySplit_cons_ne hc cs cs [] (ih hcs)

theorem pySplit_append_sep {sep : Char} {s : Str} (h : sep ∉ s) (t : Str) :
    pySplit sep (s ++ sep :: t) = s :: pySplit sep t := by
  induction s with
  | nil => simp [pySplit]
  | cons c cs ih =>
    have hc : c ≠ sep := fun e => h (by simp [e])
    have hcs : sep ∉ cs := fun e => h (by simp [e])
    exact pySplit_cons_ne hc _ cs _ (ih hcs)

/-- `sep.join` followed by `split(sep)` is the identity on non-empty lists of separator-free parts. -/
theorem pySplit_pyJoin {sep : Char} {l : List Str} (hne : l ≠ []) (h : ∀ p ∈ l, sep ∉ p) :
    pySplit sep (pyJoin [sep] l) = l := by
  induction l with
  | nil => exact absurd rfl hne
  | cons p t ih =>
    cases t with
    | nil => exact pySplit_noSep (h p (by simp))
    | cons q ps =>
      have h1 : sep ∉ p := h p (by simp)
      have : pyJoin [sep] (p :: q :: ps) = p ++ sep :: pyJoin [sep] (q :: ps) := by
        simp [pyJoin]
      rw [this, pySplit_append_sep h1, ih (by simp) (fun x hx => h x (by simp [hx]))]

/-- The parts returned by `split(sep)` contain no separator. -/
theorem pySplit_noSep_mem {sep : Char} {s p : Str} (h : p ∈ pySplit sep s) : sep ∉ p := by
  induction s generalizing p with
  | nil => simp [pySplit] at h; simp [h]
  | cons c cs ih =>
    simp only [pySplit] at h
    split at h
    · rcases List.mem_cons.1 h with rfl | h
      · simp
      · exact ih h
    · rename_i hc
      split at h
      · rename_i he; exact absurd he (pySplit_ne_nil _ _)
      · rename_i q qs he
        rcases List.mem_cons.1 h with rfl | h
        · have := ih (p := q) (by simp [he])
          simp [this, Ne.symm hc]
        · exact ih (by simp [he, h])

/-- `split(sep)` followed by `sep.join` is the identity. -/
theorem pyJoin_pySplit (sep : Char) (s : Str) : pyJoin [sep] (pySplit sep s) = s := by
  induction s with
  | nil => rfl
  | cons c cs ih =>
    have hne := pySplit_ne_nil sep cs
    cases hq : pySplit sep cs with
    | nil => exact absurd hq hne
    | cons q qs =>
      rw [hq] at ih
      simp only [pySplit, hq]
      split
      · rename_i h; subst h; simp [pyJoin, ih]
      · cases qs with
        | nil => simp [pyJoin] at ih ⊢; exact ih
        | cons r rs => simp [pyJoin] at ih ⊢; exact ih

namespace Dict
variable {α β : Type} [DecidableEq α]

theorem get?_set (d : Dict α β) (k k' : α) (v : β) :
    (d.set k v).get? k' = if k = k' then some v else d.get? k' := by
  induction d with
  | nil => simp [set, get?]
  | cons e r ih =>
    obtain ⟨a, b⟩ := e
    simp only [set]
    by_cases h : a = k
    · subst h; by_cases h2 : a = k' <;> simp [get?, h2]
    · by_cases h2 : a = k'
      · subst h2; simp [get?, h, Ne.symm h]
      · simp [get?, h, h2, ih]

theorem get?_eq_none {d : Dict α β} {k : α} : d.get? k = none ↔ k ∉ d.keys := by
  induction d with
  | nil => simp [get?, keys]
  | cons e r ih =>
    obtain ⟨a, b⟩ := e
    simp only [get?, keys, List.map_cons, List.mem_cons, not_or]
    by_cases h : a = k
    · simp [h]
    · simp only [h, if_false]; rw [ih]; simp [keys, Ne.symm h]

theorem has_iff {d : Dict α β} {k : α} : d.has k = true ↔ k ∈ d.keys := by
  unfold has
  rw [Option.isSome_iff_ne_none, ne_eq, get?_eq_none, Classical.not_not]

theorem get?_some_mem {d : Dict α β} {k : α} {v : β} (h : d.get? k = some v) : (k, v) ∈ d := by
  induction d with
  | nil => simp [get?] at h
  | cons e r ih =>
    obtain ⟨a, b⟩ := e
    simp only [get?] at h
    by_cases hk : a = k
    · simp [hk] at h; simp [h, hk]
    · simp [hk] at h; exact List.mem_cons_of_mem _ (ih h)

theorem mem_get? {d : Dict α β} (hd : d.WF) {k : α} {v : β} (h : (k, v) ∈ d) : d.get? k = some v := by
  induction d with
  | nil => simp at h
  | cons e r ih =>
    obtain ⟨a, b⟩ := e
    simp only [WF, keys, List.map_cons, List.nodup_cons] at hd
    rcases List.mem_cons.1 h with h | h
    · simp only [Prod.mk.injEq] at h; simp [get?, h.1, h.2]
    · have hne : a ≠ k := by
        rintro rfl
        exact hd.1 (List.mem_map.2 ⟨(a, v), h, rfl⟩)
      simp only [get?, hne, if_false]; exact ih hd.2 h

theorem set_of_mem_keys (d : Dict α β) (k : α) (v : β) (h : k ∈ d.keys) :
    (d.set k v).keys = d.keys := by
  induction d with
  | nil => simp [keys] at h
  | cons e r ih =>
    obtain ⟨a, b⟩ := e
    by_cases hk : a = k
    · simp [set, hk, keys]
    · have : k ∈ keys r := by
        simp only [keys, List.map_cons, List.mem_cons] at h
        rcases h with h | h
        · exact absurd h.symm hk
        · exact h
      have := ih this
      simp only [keys] at this
      simp [set, hk, keys, this]

theorem set_of_not_mem (d : Dict α β) (k : α) (v : β) (h : k ∉ d.keys) : d.set k v = d ++ [(k, v)] := by
  induction d with
  | nil => rfl
  | cons e r ih =>
    obtain ⟨a, b⟩ := e
    simp only [keys, List.map_cons, List.mem_cons, not_or] at h
    simp only [set, Ne.symm h.1, if_false, List.cons_append, List.cons.injEq, true_and]
    exact ih h.2

theorem WF_set {d : Dict α β} (hd : d.WF) (k : α) (v : β) : (d.set k v).WF := by
  by_cases h : k ∈ d.keys
  · simp only [WF] at *; rw [set_of_mem_keys d k v h]; exact hd
  · rw [set_of_not_mem d k v h]
    simp only [WF, keys, List.map_append, List.map_cons, List.map_nil] at *
    rw [List.nodup_append]
    refine ⟨hd, by simp, ?_⟩
    intro a ha b hb
    simp only [List.mem_singleton] at hb
    subst hb
    rintro rfl
    exact h ha

end Dict
end Verif
