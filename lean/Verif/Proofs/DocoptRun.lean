import Verif.Proofs.DocoptArgv
/-!
# How usage patterns are matched
-/
namespace Verif.Props.Line

open Verif Verif.Docopt Verif.Spec.Line

/-- The value of an option, if it is given. -/
def optOf (n : Str) (is : List Item) : Option (Option Str) := (takeOpt n is).map (·.1)

/-- What is left without an option. -/
def dropOpt (n : Str) (is : List Item) : List Item := match takeOpt n is with
  | some p => p.2
  | none => is

theorem words_arg (v : Str) (is : List Item) : words (.arg v :: is) = v :: words is := rfl
theorem words_opt (n : Str) (v : Option Str) (is : List Item) : words (.opt n v :: is) = words is := rfl
theorem named_arg (v : Str) (is : List Item) : named (.arg v :: is) = named is := rfl
theorem named_opt (n : Str) (v : Option Str) (is : List Item) : named (.opt n v :: is) = n :: named is := rfl

theorem items_nil {is : List Item} : is = [] ↔ words is = [] ∧ named is = [] := by
  cases is with
  | nil => exact ⟨fun _ => ⟨rfl, rfl⟩, fun _ => rfl⟩
  | cons i r =>
    cases i with
    | arg v => exact ⟨fun h => (nomatch h), fun h => (nomatch h.1)⟩
    | opt n v => exact ⟨fun h => (nomatch h), fun h => (nomatch h.2)⟩

theorem optOf_nil (n : Str) : optOf n [] = none := rfl

theorem optOf_arg (n v : Str) (is : List Item) : optOf n (.arg v :: is) = optOf n is := by
  unfold optOf
  rw [takeOpt, Option.map_map]
  rfl

theorem optOf_same (n : Str) (v : Option Str) (is : List Item) : optOf n (.opt n v :: is) = some v := by
  unfold optOf
  rw [takeOpt, if_pos rfl]
  rfl

theorem optOf_other {n m : Str} (h : m ≠ n) (v : Option Str) (is : List Item) : optOf n (.opt m v :: is) = optOf n is := by
  unfold optOf
  rw [takeOpt, if_neg h, Option.map_map]
  rfl

theorem dropOpt_nil (n : Str) : dropOpt n [] = [] := rfl

theorem dropOpt_arg (n v : Str) (is : List Item) : dropOpt n (.arg v :: is) = .arg v :: dropOpt n is := by
  unfold dropOpt
  rw [takeOpt]
  cases takeOpt n is <;> rfl

theorem dropOpt_same (n : Str) (v : Option Str) (is : List Item) : dropOpt n (.opt n v :: is) = is := by
  unfold dropOpt
  rw [takeOpt, if_pos rfl]

theorem dropOpt_other {n m : Str} (h : m ≠ n) (v : Option Str) (is : List Item) : dropOpt n (.opt m v :: is) = .opt m v :: dropOpt n is := by
  unfold dropOpt
  rw [takeOpt, if_neg h]
  cases takeOpt n is <;> rfl

theorem optOf_none {n : Str} {is : List Item} : optOf n is = none ↔ n ∉ named is := by
  induction is with
  | nil => exact ⟨fun _ h => (nomatch h), fun _ => rfl⟩
  | cons i r ih =>
    cases i with
    | arg v => rw [optOf_arg, named_arg, ih]
    | opt m v =>
      by_cases h : m = n
      · subst h
        rw [optOf_same, named_opt]
        simp
      · rw [optOf_other h, named_opt, ih]
        simp [Ne.symm h]

theorem dropOpt_none {n : Str} {is : List Item} (h : n ∉ named is) : dropOpt n is = is := by
  have := optOf_none.mpr h
  unfold optOf at this
  unfold dropOpt
  rw [Option.map_eq_none_iff.mp this]

theorem words_drop (n : Str) (is : List Item) : words (dropOpt n is) = words is := by
  induction is with
  | nil => rfl
  | cons i r ih =>
    cases i with
    | arg v => rw [dropOpt_arg, words_arg, ih, words_arg]
    | opt m v =>
      by_cases h : m = n
      · subst h
        rw [dropOpt_same, words_opt]
      · rw [dropOpt_other h, words_opt, ih, words_opt]

theorem named_drop (n : Str) (is : List Item) : named (dropOpt n is) = (named is).erase n := by
  induction is with
  | nil => rfl
  | cons i r ih =>
    cases i with
    | arg v => rw [dropOpt_arg, named_arg, ih, named_arg]
    | opt m v =>
      by_cases h : m = n
      · subst h
        rw [dropOpt_same, named_opt, List.erase_cons_head]
      · rw [dropOpt_other h, named_opt, ih, named_opt, List.erase_cons_tail (by simpa using h)]

theorem optOf_drop {n m : Str} (h : m ≠ n) (is : List Item) : optOf m (dropOpt n is) = optOf m is := by
  induction is with
  | nil => rfl
  | cons i r ih =>
    cases i with
    | arg v => rw [dropOpt_arg, optOf_arg, ih, optOf_arg]
    | opt k v =>
      by_cases hk : k = n
      · subst hk
        rw [dropOpt_same, optOf_other (Ne.symm h)]
      · rw [dropOpt_other hk]
        by_cases hm : k = m
        · subst hm
          rw [optOf_same, optOf_same]
        · rw [optOf_other hm, optOf_other hm, ih]

theorem length_items (is : List Item) : is.length = (words is).length + (named is).length := by
  induction is with
  | nil => rfl
  | cons i r ih =>
    cases i with
    | arg v => rw [words_arg, named_arg, List.length_cons, List.length_cons, ih]; omega
    | opt m v => rw [words_opt, named_opt, List.length_cons, List.length_cons, ih]; omega

/-! ## Positional arguments -/

theorem takeArg_none {is : List Item} : takeArg is = none ↔ words is = [] := by
  induction is with
  | nil => exact ⟨fun _ => rfl, fun _ => rfl⟩
  | cons i r ih =>
    cases i with
    | arg v => exact ⟨fun h => (nomatch h), fun h => (nomatch h)⟩
    | opt n v => rw [takeArg, Option.map_eq_none_iff, ih, words_opt]

theorem takeArg_some {is : List Item} {p : Str × List Item} (h : takeArg is = some p) :
    words is = p.1 :: words p.2 ∧ named p.2 = named is ∧ ∀ n, optOf n p.2 = optOf n is := by
  induction is generalizing p with
  | nil => cases h
  | cons i r ih =>
    cases i with
    | arg v =>
      cases h
      exact ⟨rfl, rfl, fun n => (optOf_arg n v r).symm⟩
    | opt m v =>
      rw [takeArg] at h
      obtain ⟨q, hq, rfl⟩ := Option.map_eq_some_iff.mp h
      obtain ⟨h1, h2, h3⟩ := ih hq
      refine ⟨h1, by rw [named_opt, named_opt, h2], fun n => ?_⟩
      by_cases hn : m = n
      · subst hn
        rw [optOf_same, optOf_same]
      · rw [optOf_other hn, optOf_other hn, h3]

theorem takeArg_cons {is : List Item} {v : Str} {r : List Str} (h : words is = v :: r) :
    ∃ is', takeArg is = some (v, is') ∧ words is' = r ∧ named is' = named is ∧ ∀ n, optOf n is' = optOf n is := by
  cases ht : takeArg is with
  | none =>
    rw [takeArg_none.mp ht] at h
    cases h
  | some p =>
    obtain ⟨h1, h2, h3⟩ := takeArg_some ht
    rw [h] at h1
    injection h1 with e1 e2
    exact ⟨p.2, by rw [e1], e2.symm, h2, h3⟩

/-! ## Options -/

/-- What is left and what has been found. -/
abbrev St := List Item × Found

/-- An option is taken if it is given. -/
def step (s : St) (n : Str) : St := (dropOpt n s.1, s.2 ++ (optOf n s.1).toList.map (n, ·))

/-- Several options are taken. -/
def steps (ns : List Str) (s : St) : St := ns.foldl step s

theorem run_option (n : Str) (s : St) : (Usage.option n).run s = if n ∈ named s.1 then some (step s n) else none := by
  change (takeOpt n s.1).map _ = _
  by_cases h : n ∈ named s.1
  · rw [if_pos h]
    have : optOf n s.1 ≠ none := fun e => optOf_none.mp e h
    unfold step dropOpt
    unfold optOf at this ⊢
    cases ht : takeOpt n s.1 with
    | none => rw [ht] at this; exact absurd rfl this
    | some p => rfl
  · rw [if_neg h]
    have := optOf_none.mpr h
    unfold optOf at this
    rw [Option.map_eq_none_iff.mp this]
    rfl

theorem step_absent {n : Str} {s : St} (h : n ∉ named s.1) : step s n = s := by
  unfold step
  rw [dropOpt_none h, optOf_none.mpr h]
  simp

theorem run_optional (n : Str) (s : St) : (Usage.optional (.option n)).run s = some (step s n) := by
  change (match (Usage.option n).run s with
    | none => some s
    | some s' => some s') = _
  rw [run_option]
  by_cases h : n ∈ named s.1
  · rw [if_pos h]
  · rw [if_neg h, step_absent h]

theorem words_steps (ns : List Str) (s : St) : words (steps ns s).1 = words s.1 := by
  induction ns generalizing s with
  | nil => rfl
  | cons n r ih => exact (ih (step s n)).trans (words_drop n s.1)

/-- The names that are left. -/
def without (l : List Str) (ns : List Str) : List Str := ns.foldl (fun l n => l.erase n) l

theorem named_steps (ns : List Str) (s : St) : named (steps ns s).1 = without (named s.1) ns := by
  induction ns generalizing s with
  | nil => rfl
  | cons n r ih =>
    change named (steps r (step s n)).1 = without ((named s.1).erase n) r
    rw [ih]
    congr 1
    exact named_drop n s.1

theorem mem_without {l ns : List Str} {x : Str} (h : x ∉ ns) : x ∈ without l ns ↔ x ∈ l := by
  induction ns generalizing l with
  | nil => exact Iff.rfl
  | cons n r ih =>
    change x ∈ without (l.erase n) r ↔ _
    rw [ih (fun hr => h (List.mem_cons_of_mem _ hr)), List.mem_erase_of_ne (fun e => h (by rw [e]; exact List.mem_cons_self))]

theorem without_nil {l ns : List Str} (hn : ns.Nodup) : without l ns = [] ↔ l.Nodup ∧ ∀ x ∈ l, x ∈ ns := by
  induction ns generalizing l with
  | nil =>
    change l = [] ↔ _
    constructor
    · rintro rfl
      exact ⟨List.nodup_nil, fun _ h => h⟩
    · intro h
      cases l with
      | nil => rfl
      | cons a _ => exact absurd (h.2 a List.mem_cons_self) (by simp)
  | cons n r ih =>
    change without (l.erase n) r = [] ↔ _
    rw [ih hn.of_cons]
    have hnr : n ∉ r := (List.nodup_cons.mp hn).1
    constructor
    · rintro ⟨h1, h2⟩
      have h3 : n ∉ l.erase n := fun h => hnr (h2 n h)
      refine ⟨?_, fun x hx => ?_⟩
      · by_cases h : n ∈ l
        · exact (List.perm_cons_erase h).nodup_iff.mpr (List.nodup_cons.mpr ⟨h3, h1⟩)
        · rwa [List.erase_of_not_mem h] at h1
      · by_cases e : x = n
        · exact e ▸ List.mem_cons_self
        · exact List.mem_cons_of_mem _ (h2 x ((List.mem_erase_of_ne e).mpr hx))
    · rintro ⟨h1, h2⟩
      refine ⟨h1.erase n, fun x hx => ?_⟩
      obtain ⟨e, hx'⟩ := (h1.mem_erase_iff).mp hx
      rcases List.mem_cons.mp (h2 x hx') with h | h
      · exact absurd h e
      · exact h

/-- What is found. -/
def flat (ns : List Str) (is : List Item) : Found := ns.flatMap fun n => (optOf n is).toList.map (n, ·)

theorem optOf_steps {ns : List Str} {m : Str} (h : m ∉ ns) (s : St) : optOf m (steps ns s).1 = optOf m s.1 := by
  induction ns generalizing s with
  | nil => rfl
  | cons n r ih =>
    exact (ih (fun hr => h (List.mem_cons_of_mem _ hr)) (step s n)).trans (optOf_drop (fun e => h (by rw [e]; exact List.mem_cons_self)) s.1)

theorem flat_congr {ns : List Str} {is is' : List Item} (h : ∀ n ∈ ns, optOf n is = optOf n is') : flat ns is = flat ns is' := by
  induction ns with
  | nil => rfl
  | cons n r ih =>
    unfold flat at ih ⊢
    rw [List.flatMap_cons, List.flatMap_cons, h n List.mem_cons_self, ih fun m hm => h m (List.mem_cons_of_mem _ hm)]

theorem found_steps {ns : List Str} (hn : ns.Nodup) (s : St) : (steps ns s).2 = s.2 ++ flat ns s.1 := by
  induction ns generalizing s with
  | nil => exact (List.append_nil _).symm
  | cons n r ih =>
    obtain ⟨h1, h2⟩ := List.nodup_cons.mp hn
    change (steps r (step s n)).2 = _
    rw [ih h2]
    change s.2 ++ _ ++ flat r (dropOpt n s.1) = _
    rw [flat_congr (is' := s.1) fun m hm => optOf_drop (fun e => h1 (by rw [← e]; exact hm)) s.1, List.append_assoc]
    rfl

theorem find_flat (ns : List Str) (is : List Item) (m : Str) : (flat ns is).find? (·.1 = m) = if m ∈ ns then (optOf m is).map (m, ·) else none := by
  induction ns with
  | nil => rfl
  | cons n r ih =>
    change ((optOf n is).toList.map (n, ·) ++ flat r is).find? (·.1 = m) = _
    rw [List.find?_append, ih]
    by_cases h : n = m
    · subst h
      rw [if_pos List.mem_cons_self]
      cases ho : optOf n is with
      | none =>
        by_cases hr : n ∈ r
        · rw [if_pos hr]; rfl
        · rw [if_neg hr]; rfl
      | some v => simp
    · have h1 : ((optOf n is).toList.map (n, ·)).find? (fun x => decide (x.1 = m)) = none := by
        cases optOf n is with
        | none => rfl
        | some v => simp [h]
      rw [h1]
      by_cases hr : m ∈ r
      · rw [if_pos hr, if_pos (List.mem_cons_of_mem _ hr)]; rfl
      · rw [if_neg hr, if_neg (by simp [hr, Ne.symm h])]; rfl

theorem steps_append (a b : List Str) (s : St) : steps (a ++ b) s = steps b (steps a s) := List.foldl_append

/-! ## Usage patterns made of options -/

/-- No two options that exclude each other. -/
def Apart (ex : List (Str × Str)) (l : List Str) : Prop := ∀ p ∈ ex, p.1 ∈ l → p.2 ∉ l

/-- A usage pattern that takes the options `A`, without those that exclude each other. -/
structure Takes (u : Usage) (A : List Str) (ex : List (Str × Str)) : Prop where
  inA : ∀ p ∈ ex, p.1 ∈ A ∧ p.2 ∈ A
  run : ∀ s : St, ∃ ns, u.run s = some (steps ns s) ∧ ns.Nodup ∧ (∀ n ∈ ns, n ∈ A) ∧ Apart ex ns ∧
    (Apart ex (named s.1) → ∀ n ∈ named s.1, n ∈ A → n ∈ ns)

theorem takes_optional (n : Str) : Takes (.optional (.option n)) [n] [] where
  inA := fun _ h => nomatch h
  run := fun s => ⟨[n], run_optional n s, by simp, fun _ h => h, fun _ h => (nomatch h), fun _ _ _ h => h⟩

theorem takes_optional' {a : Usage} {A : List Str} {ex : List (Str × Str)} (h : Takes a A ex) : Takes (.optional a) A ex where
  inA := h.inA
  run := fun s => by
    obtain ⟨ns, h1, h2⟩ := h.run s
    refine ⟨ns, ?_, h2⟩
    change (match a.run s with
      | none => some s
      | some s' => some s') = _
    rw [h1]

theorem takes_seq {a b : Usage} {A B : List Str} {ex ey : List (Str × Str)} (ha : Takes a A ex) (hb : Takes b B ey) (hd : ∀ n ∈ A, n ∉ B) :
    Takes (.seq a b) (A ++ B) (ex ++ ey) where
  inA := fun p hp => by
    rcases List.mem_append.mp hp with h | h
    · exact ⟨List.mem_append_left _ (ha.inA p h).1, List.mem_append_left _ (ha.inA p h).2⟩
    · exact ⟨List.mem_append_right _ (hb.inA p h).1, List.mem_append_right _ (hb.inA p h).2⟩
  run := fun s => by
    obtain ⟨n1, a1, a2, a3, a4, a5⟩ := ha.run s
    obtain ⟨n2, b1, b2, b3, b4, b5⟩ := hb.run (steps n1 s)
    have same : ∀ n ∈ B, (n ∈ named (steps n1 s).1 ↔ n ∈ named s.1) := fun n hn => by
      rw [named_steps]
      exact mem_without fun h => hd n (a3 n h) hn
    refine ⟨n1 ++ n2, ?_, ?_, ?_, ?_, ?_⟩
    · change (a.run s).bind b.run = _
      rw [a1, steps_append]
      exact b1
    · rw [List.nodup_append]
      exact ⟨a2, b2, fun x hx y hy e => hd x (a3 x hx) (e ▸ b3 y hy)⟩
    · intro n hn
      rcases List.mem_append.mp hn with h | h
      · exact List.mem_append_left _ (a3 n h)
      · exact List.mem_append_right _ (b3 n h)
    · intro p hp h1 h2
      rcases List.mem_append.mp hp with h | h
      · have hA := ha.inA p h
        refine a4 p h ?_ ?_
        · rcases List.mem_append.mp h1 with h' | h'
          · exact h'
          · exact absurd (b3 _ h') (hd _ hA.1)
        · rcases List.mem_append.mp h2 with h' | h'
          · exact h'
          · exact absurd (b3 _ h') (hd _ hA.2)
      · have hB := hb.inA p h
        refine b4 p h ?_ ?_
        · rcases List.mem_append.mp h1 with h' | h'
          · exact absurd hB.1 (hd _ (a3 _ h'))
          · exact h'
        · rcases List.mem_append.mp h2 with h' | h'
          · exact absurd hB.2 (hd _ (a3 _ h'))
          · exact h'
    · intro hap n hn hAB
      rcases List.mem_append.mp hAB with h | h
      · exact List.mem_append_left _ (a5 (fun p hp => hap p (List.mem_append_left _ hp)) n hn h)
      · refine List.mem_append_right _ (b5 ?_ n ((same n h).mpr hn) h)
        intro p hp h1 h2
        have hB := hb.inA p hp
        exact hap p (List.mem_append_right _ hp) ((same _ hB.1).mp h1) ((same _ hB.2).mp h2)

theorem step_length {n : Str} {s : St} (h : n ∈ named s.1) : (step s n).1.length + 1 = s.1.length := by
  have h1 : ((named s.1).erase n).length + 1 = (named s.1).length := by
    have := (List.perm_cons_erase h).length_eq
    simp only [List.length_cons] at this
    omega
  rw [length_items, length_items s.1]
  change (words (dropOpt n s.1)).length + (named (dropOpt n s.1)).length + 1 = _
  rw [words_drop, named_drop]
  omega

theorem step_length_le (n : Str) (s : St) : (step s n).1.length ≤ s.1.length := by
  by_cases h : n ∈ named s.1
  · have := step_length h
    omega
  · rw [step_absent h]
    exact Nat.le_refl _

/-- `[a | b]` -/
theorem takes_either {a b : Str} (hab : a ≠ b) : Takes (.optional (.either (.option a) (.option b))) [a, b] [(a, b)] where
  inA := by simp
  run := fun s => by
    have e : (Usage.optional (.either (.option a) (.option b))).run s = some (if a ∈ named s.1 then step s a else step s b) := by
      change (match (match (Usage.option a).run s, (Usage.option b).run s with
        | some x, some y => if y.1.length < x.1.length then some y else some x
        | some x, none => some x
        | none, r => r) with
        | none => some s
        | some s' => some s') = _
      rw [run_option, run_option]
      by_cases ha : a ∈ named s.1
      · rw [if_pos ha, if_pos ha]
        by_cases hb : b ∈ named s.1
        · rw [if_pos hb]
          simp only
          rw [if_neg]
          have h1 := step_length ha
          have h2 := step_length hb
          omega
        · rw [if_neg hb]
      · rw [if_neg ha, if_neg ha]
        by_cases hb : b ∈ named s.1
        · rw [if_pos hb]
        · rw [if_neg hb, step_absent hb]
    by_cases ha : a ∈ named s.1
    · refine ⟨[a], by rw [e, if_pos ha]; rfl, by simp, by simp, ?_, ?_⟩
      · intro p hp _ h2
        rw [List.mem_singleton.mp hp] at h2
        exact hab (List.mem_singleton.mp h2).symm
      · intro hap n hn hA
        rcases List.mem_cons.mp hA with rfl | h
        · exact List.mem_cons_self
        · rw [List.mem_singleton.mp h] at hn
          exact absurd hn (hap (a, b) List.mem_cons_self ha)
    · refine ⟨[b], by rw [e, if_neg ha]; rfl, by simp, by simp, ?_, ?_⟩
      · intro p hp h1 _
        rw [List.mem_singleton.mp hp] at h1
        exact hab (List.mem_singleton.mp h1)
      · intro hap n hn hA
        rcases List.mem_cons.mp hA with rfl | h
        · exact absurd hn ha
        · exact h

/-- `( [a] | [b] [c] )` -/
theorem takes_group {a b c : Str} (hab : a ≠ b) (hac : a ≠ c) (hbc : b ≠ c) :
    Takes (.either (.optional (.option a)) (.seq (.optional (.option b)) (.optional (.option c)))) [a, b, c] [(a, b), (a, c)] where
  inA := by simp
  run := fun s => by
    have e : (Usage.either (.optional (.option a)) (.seq (.optional (.option b)) (.optional (.option c)))).run s =
        some (if (steps [b, c] s).1.length < (step s a).1.length then steps [b, c] s else step s a) := by
      change (match (Usage.optional (.option a)).run s, ((Usage.optional (.option b)).run s).bind (Usage.optional (.option c)).run with
        | some x, some y => if y.1.length < x.1.length then some y else some x
        | some x, none => some x
        | none, r => r) = _
      rw [run_optional, run_optional]
      change (match some (step s a), (Usage.optional (.option c)).run (step s b) with
        | some x, some y => if y.1.length < x.1.length then some y else some x
        | some x, none => some x
        | none, r => r) = _
      rw [run_optional]
      change (if (steps [b, c] s).1.length < (step s a).1.length then some (steps [b, c] s) else some (step s a)) = _
      split <;> rfl
    by_cases hl : (steps [b, c] s).1.length < (step s a).1.length
    · refine ⟨[b, c], by rw [e, if_pos hl], by simp [hbc], by simp, ?_, ?_⟩
      · intro p hp h1 _
        simp only [List.mem_cons, List.not_mem_nil, or_false] at hp h1
        rcases hp with rfl | rfl
        · exact h1.elim hab hac
        · exact h1.elim hab hac
      · intro hap n hn hA
        rcases List.mem_cons.mp hA with rfl | h
        · exfalso
          have nb := hap (n, b) (by simp) hn
          have nc := hap (n, c) (by simp) hn
          have : steps [b, c] s = s := by
            change step (step s b) c = s
            rw [step_absent nb, step_absent nc]
          rw [this] at hl
          have := step_length_le n s
          omega
        · exact h
    · refine ⟨[a], by rw [e, if_neg hl]; rfl, by simp, by simp, ?_, ?_⟩
      · intro p hp _ h2
        simp only [List.mem_cons, List.not_mem_nil, or_false] at hp h2
        rcases hp with rfl | rfl
        · exact hab h2.symm
        · exact hac h2.symm
      · intro hap n hn hA
        by_cases ha : a ∈ named s.1
        · have nb := hap (a, b) (by simp) ha
          have nc := hap (a, c) (by simp) ha
          simp only [List.mem_cons, List.not_mem_nil, or_false] at hA
          rcases hA with rfl | rfl | rfl
          · exact List.mem_cons_self
          · exact absurd hn nb
          · exact absurd hn nc
        · exfalso
          rw [step_absent ha] at hl
          have h1 := step_length_le b s
          have h2 := step_length_le c (step s b)
          have h3 : (steps [b, c] s).1.length = (step (step s b) c).1.length := rfl
          simp only [List.mem_cons, List.not_mem_nil, or_false] at hA
          rcases hA with rfl | rfl | rfl
          · exact ha hn
          · have := step_length hn
            omega
          · have hn' : n ∈ named (step s b).1 := by
              change n ∈ named (dropOpt b s.1)
              rw [named_drop]
              exact (List.mem_erase_of_ne (Ne.symm hbc)).mpr hn
            have := step_length hn'
            omega

/-! ## Everything is used -/

theorem takes_all {u : Usage} {A : List Str} {ex : List (Str × Str)} (h : Takes u A ex) {s : St} {c : Found} (hr : u.run s = some ([], c)) :
    words s.1 = [] ∧ (named s.1).Nodup ∧ (∀ n ∈ named s.1, n ∈ A) ∧ Apart ex (named s.1) ∧
    ∃ ns, (∀ n ∈ named s.1, n ∈ ns) ∧ (∀ n ∈ ns, n ∈ A) ∧ c = s.2 ++ flat ns s.1 := by
  obtain ⟨ns, h1, h2, h3, h4, _⟩ := h.run s
  rw [hr] at h1
  have h1' := Option.some.inj h1
  have e1 : (steps ns s).1 = [] := by rw [← h1']
  have e2 : (steps ns s).2 = c := by rw [← h1']
  rw [items_nil, words_steps, named_steps, without_nil h2] at e1
  refine ⟨e1.1, e1.2.1, fun n hn => h3 n (e1.2.2 n hn), fun p hp a b => h4 p hp (e1.2.2 _ a) (e1.2.2 _ b), ns, e1.2.2, h3, ?_⟩
  rw [← e2, found_steps h2]

theorem takes_accepts {u : Usage} {A : List Str} {ex : List (Str × Str)} (h : Takes u A ex) {s : St} (hw : words s.1 = [])
    (hn : (named s.1).Nodup) (hA : ∀ n ∈ named s.1, n ∈ A) (hap : Apart ex (named s.1)) : ∃ c, u.run s = some ([], c) := by
  obtain ⟨ns, h1, h2, h3, h4, h5⟩ := h.run s
  refine ⟨(steps ns s).2, ?_⟩
  have : (steps ns s).1 = [] := by
    rw [items_nil, words_steps, named_steps, without_nil h2]
    exact ⟨hw, hn, fun n hm => h5 hap n hm (hA n hm)⟩
  rw [h1, ← this]

end Verif.Props.Line
