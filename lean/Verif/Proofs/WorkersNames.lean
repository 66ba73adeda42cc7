import Verif.Proofs.Workers
/-!
# Names of the results
-/
namespace Verif.Pool
open Verif

theorem splitSlash_ne (s : Bytes) : splitSlash s ≠ [] := by
  cases s with
  | nil => simp [splitSlash]
  | cons c s =>
    unfold splitSlash
    split
    · simp
    · split <;> simp

theorem splitSlash_no {p : Bytes} (h : 47 ∉ p) : splitSlash p = [p] := by
  induction p with
  | nil => rfl
  | cons c p ih =>
    have hc : c ≠ 47 := fun e => h (by rw [e]; simp)
    rw [splitSlash, if_neg hc, ih (fun hm => h (List.mem_cons_of_mem _ hm))]

theorem splitSlash_cons {p : Bytes} (h : 47 ∉ p) (r : Bytes) : splitSlash (p ++ 47 :: r) = p :: splitSlash r := by
  induction p with
  | nil => simp [splitSlash]
  | cons c p ih =>
    have hc : c ≠ 47 := fun e => h (by rw [e]; simp)
    rw [List.cons_append, splitSlash, if_neg hc, ih (fun hm => h (List.mem_cons_of_mem _ hm))]

theorem splitSlash_join {ps : List Bytes} (hne : ps ≠ []) (h : ∀ p ∈ ps, 47 ∉ p) : splitSlash (joinSlash ps) = ps := by
  induction ps with
  | nil => exact absurd rfl hne
  | cons p ps ih =>
    cases ps with
    | nil => exact splitSlash_no (h p (by simp))
    | cons q r =>
      rw [joinSlash, splitSlash_cons (h p (by simp)), ih (by simp) (fun x hx => h x (List.mem_cons_of_mem _ hx))]

theorem joinSlash_snoc (ps : List Bytes) (hne : ps ≠ []) (n : Bytes) : joinSlash (ps ++ [n]) = joinSlash ps ++ 47 :: n := by
  induction ps with
  | nil => exact absurd rfl hne
  | cons p ps ih =>
    cases ps with
    | nil => rfl
    | cons q r =>
      rw [List.cons_append, List.cons_append, joinSlash, ← List.cons_append, ih (by simp), joinSlash, List.append_assoc]
      rfl

/-- The path of a file that was found, without the leading dot. -/
theorem normRel_found {dirs : List Bytes} {name f suf : Bytes} (h : FoundAt dirs name f) (hs : 47 ∉ suf) (hd : name ++ suf ≠ [46]) :
    normRel (f ++ suf) = joinSlash (dirs ++ [name ++ suf]) := by
  obtain ⟨h1, h2, h3⟩ := h
  have hn : 47 ∉ name ++ suf := by
    intro h
    rcases List.mem_append.mp h with h | h
    · exact h2.1.2 h
    · exact hs h
  have hn0 : name ++ suf ≠ [] := by intro h; exact h2.1.1 (List.append_eq_nil_iff.mp h).1
  have hfilter : ∀ l : List Bytes, (∀ d ∈ l, CleanName d) → l.filter (fun p => p ≠ [] ∧ p ≠ [46]) = l := by
    intro l hl
    rw [List.filter_eq_self]
    intro d hd
    have := hl d hd
    simp [this.1.1, this.2.1]
  unfold normRel
  by_cases hdirs : dirs = []
  · subst hdirs
    rw [if_pos rfl] at h3
    have e : splitSlash (f ++ suf) = [[46], name ++ suf] := by
      rw [h3, show (46 :: 47 :: name) ++ suf = [46] ++ 47 :: (name ++ suf) from rfl, splitSlash_cons (by decide), splitSlash_no hn]
    rw [e]
    simp [hn0, hd, joinSlash]
  · rw [if_neg hdirs] at h3
    have e : f ++ suf = joinSlash (dirs ++ [name ++ suf]) := by
      rw [h3, joinSlash_snoc _ hdirs, List.append_assoc]; rfl
    have hall : ∀ p ∈ dirs ++ [name ++ suf], 47 ∉ p := by
      intro p hp
      rcases List.mem_append.mp hp with hp | hp
      · exact (h1 p hp).1.2
      · simp at hp; subst hp; exact hn
    rw [e, splitSlash_join (by simp) hall, List.filter_append, hfilter dirs h1]
    have : List.filter (fun p => decide (p ≠ [] ∧ p ≠ [46])) [name ++ suf] = [name ++ suf] := by simp [hn0, hd]
    rw [this]
    split
    · next h => simp at h
    · rfl

/-- The path of a file that was found is determined by its directories and its name. -/
theorem found_inj {dirs dirs' : List Bytes} {name name' f f' : Bytes} (h : FoundAt dirs name f) (h' : FoundAt dirs' name' f')
    (he : joinSlash (dirs ++ [name]) = joinSlash (dirs' ++ [name'])) : f = f' := by
  have hall : ∀ {ds : List Bytes} {n g : Bytes}, FoundAt ds n g → ∀ p ∈ ds ++ [n], 47 ∉ p := by
    intro ds n g h p hp
    rcases List.mem_append.mp hp with hp | hp
    · exact (h.1 p hp).1.2
    · simp at hp; subst hp; exact h.2.1.1.2
  have e := congrArg splitSlash he
  rw [splitSlash_join (by simp) (hall h), splitSlash_join (by simp) (hall h')] at e
  obtain ⟨e1, e2⟩ := List.append_inj' e rfl
  simp at e2
  rw [h.2.2, h'.2.2, e1, e2]

theorem join_suffix (dirs : List Bytes) (name suf : Bytes) : joinSlash (dirs ++ [name ++ suf]) = joinSlash (dirs ++ [name]) ++ suf := by
  cases dirs with
  | nil => rfl
  | cons d ds => rw [joinSlash_snoc _ (by simp), joinSlash_snoc _ (by simp), List.append_assoc]; rfl

/-- The name of a parsed file. -/
theorem parseName_found {dirs : List Bytes} {name f : Bytes} (h : FoundAt dirs name f) :
    newName [] parsedExt (iterName [] f) = joinSlash (dirs ++ [name]) ++ parsedExt := by
  have e := normRel_found (suf := []) h (by simp) (by rw [List.append_nil]; exact h.2.1.2.1)
  unfold newName iterName
  simp only [List.length_nil, ne_eq, not_true, if_false]
  rw [e, List.append_nil]

theorem ext_no_dot {name suf : Bytes} (h : name ≠ []) (hl : 1 ≤ suf.length) : name ++ suf ≠ [46] := by
  intro e
  have := congrArg List.length e
  have : 0 < name.length := List.length_pos_iff.mpr h
  simp at *
  omega

theorem parsedPath_found {dirs : List Bytes} {name f : Bytes} (h : FoundAt dirs name f) :
    normRel (iterName parsedExt f) = joinSlash (dirs ++ [name]) ++ parsedExt := by
  unfold iterName
  rw [normRel_found h (by decide) (ext_no_dot h.2.1.1.1 (by decide)), join_suffix]

/-- The name of a preprocessed file. -/
theorem reprName_found {dirs : List Bytes} {name f : Bytes} (h : FoundAt dirs name f) :
    newName parsedExt prepExt (iterName parsedExt f) = joinSlash (dirs ++ [name]) ++ prepExt := by
  unfold newName
  simp only
  rw [if_pos (by decide), parsedPath_found h, List.length_append, Nat.add_sub_cancel, List.take_left]

theorem not_part {x : Bytes} : ¬ partExt <:+ x ++ parsedExt ∧ ¬ partExt <:+ x ++ prepExt := by
  constructor
  · intro h
    have h2 : [115, 101, 100] <:+ x ++ parsedExt := ⟨x ++ [46, 112, 97, 114], by rw [List.append_assoc]; rfl⟩
    have := List.suffix_of_suffix_length_le h2 h (by decide)
    revert this
    decide
  · intro h
    have h2 : prepExt <:+ x ++ prepExt := ⟨x, rfl⟩
    have := List.suffix_of_suffix_length_le h2 h (by decide)
    revert this
    decide

theorem nodup_map {α β : Type} {f : α → β} {l : List α} (h : l.Nodup) (hf : ∀ a ∈ l, ∀ b ∈ l, f a = f b → a = b) : (l.map f).Nodup := by
  induction l with
  | nil => exact .nil
  | cons a l ih =>
    rw [List.nodup_cons] at h
    rw [List.map_cons, List.nodup_cons]
    refine ⟨fun hm => ?_, ih h.2 fun x hx y hy => hf x (List.mem_cons_of_mem _ hx) y (List.mem_cons_of_mem _ hy)⟩
    obtain ⟨b, hb, e⟩ := List.mem_map.mp hm
    have := hf b (List.mem_cons_of_mem _ hb) a (by simp) e
    exact h.1 (this ▸ hb)

theorem parseJobs_good (source : Bytes → Res) {files : List Bytes} (h : GoodFiles files) : GoodJobs (parseJobs source files) := by
  obtain ⟨h1, h2⟩ := h
  refine ⟨?_, ?_⟩
  · unfold parseJobs
    rw [List.map_map]
    refine nodup_map h1 fun a ha b hb e => ?_
    obtain ⟨ds, n, fa⟩ := h2 a ha
    obtain ⟨ds', n', fb⟩ := h2 b hb
    simp only [Function.comp_def, parseName_found fa, parseName_found fb] at e
    exact found_inj fa fb (List.append_cancel_right e)
  · intro j hj
    obtain ⟨f, hf, rfl⟩ := List.mem_map.mp hj
    obtain ⟨ds, n, ff⟩ := h2 f hf
    simp only [parseName_found ff]
    exact not_part.1

theorem reprJobs_good (compute : Str → Res) (parsed : Disk) {files : List Bytes} (h : GoodFiles files) : GoodJobs (reprJobs compute parsed files) := by
  obtain ⟨h1, h2⟩ := h
  refine ⟨?_, ?_⟩
  · unfold reprJobs
    rw [List.map_map]
    refine nodup_map h1 fun a ha b hb e => ?_
    obtain ⟨ds, n, fa⟩ := h2 a ha
    obtain ⟨ds', n', fb⟩ := h2 b hb
    simp only [Function.comp_def, reprName_found fa, reprName_found fb] at e
    exact found_inj fa fb (List.append_cancel_right e)
  · intro j hj
    obtain ⟨f, hf, rfl⟩ := List.mem_map.mp hj
    obtain ⟨ds, n, ff⟩ := h2 f hf
    simp only [reprName_found ff]
    exact not_part.2

end Verif.Pool
