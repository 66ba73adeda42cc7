import Verif.Props.Registry
import Verif.Proofs.IdPattern
/-!
# Properties of new identifiers (C40)
-/
namespace Verif.Props
open Verif Spec

/-! ## Lemmas -/

theorem allCodesLoop_keys (u : Ucd) (reg : Registry) : ∀ (acc : Dict Str Int) (id : Str), id ∈ (allCodesLoop u acc reg).keys ↔
    id ∈ acc.keys ∨ (id ≠ [] ∧ ∃ d ∈ reg, d.codesId u = some id ∧ getMaxMerges d.subdirs sysMaxsize ≠ none) := by
  induction reg with
  | nil => intro acc id; simp [allCodesLoop]
  | cons d reg ih =>
    intro acc id
    unfold allCodesLoop
    split
    · next c i m hc hm =>
      have hm0 : m ≠ 0 := by
        have := ((getMaxMerges_iff _ _ _).mp hm).2.1
        omega
      rw [if_neg hm0, ih, keys_set]
      constructor
      · rintro ((rfl | h) | ⟨h0, e, he, h1, h2⟩)
        · exact .inr ⟨by simp, d, List.mem_cons_self, hc, by rw [hm]; simp⟩
        · exact .inl h
        · exact .inr ⟨h0, e, List.mem_cons_of_mem _ he, h1, h2⟩
      · rintro (h | ⟨h0, e, he, h1, h2⟩)
        · exact .inl (.inr h)
        · rcases List.mem_cons.mp he with rfl | he
          · rw [hc] at h1; exact .inl (.inl (Option.some.inj h1).symm)
          · exact .inr ⟨h0, e, he, h1, h2⟩
    · next hno =>
      rw [ih]
      constructor
      · rintro (h | ⟨h0, e, he, h1, h2⟩)
        · exact .inl h
        · exact .inr ⟨h0, e, List.mem_cons_of_mem _ he, h1, h2⟩
      · rintro (h | ⟨h0, e, he, h1, h2⟩)
        · exact .inl h
        · rcases List.mem_cons.mp he with rfl | he
          · exfalso
            cases id with
            | nil => exact h0 rfl
            | cons c i =>
              cases hm : getMaxMerges e.subdirs sysMaxsize with
              | none => exact h2 hm
              | some m => exact hno c i m h1 hm
          · exact .inr ⟨h0, e, he, h1, h2⟩

theorem mem_allCodes (u : Ucd) (reg : Registry) (id : Str) : id ∈ (allCodes u reg).keys ↔
    id ≠ [] ∧ ∃ d ∈ reg, d.codesId u = some id ∧ ∃ k : Int, Learnt d k ∧ 0 < k ∧ k ≤ sysMaxsize := by
  unfold allCodes
  rw [allCodesLoop_keys]
  simp only [Dict.keys, List.map_nil, List.not_mem_nil, false_or]
  refine and_congr_right fun _ => ⟨?_, ?_⟩
  · rintro ⟨d, hd, h1, h2⟩
    refine ⟨d, hd, h1, ?_⟩
    cases hm : getMaxMerges d.subdirs sysMaxsize with
    | none => exact absurd hm h2
    | some m =>
      obtain ⟨a, b, c, _⟩ := (C39_max d _ m).mp hm
      exact ⟨m, a, b, c⟩
  · rintro ⟨d, hd, h1, k, hk, h2, h3⟩
    refine ⟨d, hd, h1, fun hn => ?_⟩
    have := (C39_none d sysMaxsize).2.mp hn k hk h3
    omega

/-! ## C40 -/

/-- The registry has an identifier for which merges have been learnt. -/
def HasId (u : Ucd) (reg : Registry) (id : Str) : Prop :=
  id ≠ [] ∧ ∃ d ∈ reg, d.codesId u = some id ∧ ∃ k : Int, Learnt d k ∧ 0 < k ∧ k ≤ sysMaxsize

/-- **C40** An identifier given by the user is used as it is. -/
theorem C40_given (u : Ucd) (reg : Registry) (path : Str) (b : BpeConfig) (id : Str) (h : id ≠ []) :
    createNewId u reg path b (some id) = .ok id := by
  cases id with
  | nil => exact absurd rfl h
  | cons c r => rfl

/-- **C40** The name of the dataset, with the suffix of the configuration, is used if it is not taken. -/
theorem C40_first (u : Ucd) (reg : Registry) (path : Str) (b : BpeConfig) (h : ¬ HasId u reg (idBase path b)) :
    createNewId u reg path b none = .ok (idBase path b) := by
  unfold createNewId
  simp only
  rw [if_pos]
  intro hm
  exact h ((mem_allCodes u reg _).mp hm)

/-- **C40, partial** If no character of the name has a meaning in patterns, the new identifier is different from all
identifiers for which merges have been learnt. -/
theorem C40_fresh_partial (u : Ucd) (reg : Registry) (path : Str) (b : BpeConfig) (hs : NoSpecial (idBase path b)) :
    ∃ id, createNewId u reg path b none = .ok id ∧ ¬ HasId u reg id ∧
      (id = idBase path b ∨ ∃ n, 1 ≤ n ∧ id = idBase path b ++ '_' :: natStr n) := by
  unfold createNewId
  simp only
  split
  · next h => exact ⟨_, rfl, fun hm => h ((mem_allCodes u reg _).mpr hm), .inl rfl⟩
  · obtain ⟨re, e, hre⟩ := idRe_self (base := idBase path b) fun c hc => (special_iff' c).mpr (hs c hc)
    rw [e]
    refine ⟨_, rfl, fun hm => ?_, .inr ⟨_, Nat.le_add_left 1 _, rfl⟩⟩
    have hm := (mem_allCodes u reg _).mpr hm
    have h1 := (foldl_max_ge (((allCodes u reg).keys).map (extractNumber re)) 0).2 _ (List.mem_map_of_mem hm)
    rw [extractNumber_numbered hre] at h1
    omega

/-- **C40** An empty identifier given by the user counts as none. -/
theorem C40_empty (u : Ucd) (reg : Registry) (path : Str) (b : BpeConfig) :
    createNewId u reg path b (some []) = createNewId u reg path b none := rfl

/-- **C40** If the name is taken, the new identifier is the name and a number: one more than the greatest number at the end of
an identifier whose beginning is described by the name read as a pattern. -/
theorem C40_number (u : Ucd) (reg : Registry) (path : Str) (b : BpeConfig) (ht : HasId u reg (idBase path b)) (id : Str)
    (h : createNewId u reg path b none = .ok id) :
    ∃ n, id = idBase path b ++ '_' :: natStr (n + 1) ∧
      (∀ x ds k, HasId u reg (x ++ '_' :: ds) → Reads (idBase path b) x → Numeral ds k → k ≤ n) ∧
      (n = 0 ∨ ∃ x ds, HasId u reg (x ++ '_' :: ds) ∧ Reads (idBase path b) x ∧ Numeral ds n) := by
  unfold createNewId at h
  simp only at h
  rw [if_neg (by simpa using (mem_allCodes u reg _).mpr ht)] at h
  split at h
  · cases h
  · next re hre =>
    obtain rfl := Except.ok.inj h
    refine ⟨_, rfl, ?_, ?_⟩
    · intro x ds k hx hr hk
      have h1 := (foldl_max_ge (((allCodes u reg).keys).map (extractNumber re)) 0).2 _ (List.mem_map_of_mem ((mem_allCodes u reg _).mpr hx))
      rw [extractNumber_of ((idRe_reads hre x).mpr hr) hk] at h1
      exact h1
    · generalize hm : List.foldl max 0 (((allCodes u reg).keys).map (extractNumber re)) = m
      rcases foldl_max_mem (((allCodes u reg).keys).map (extractNumber re)) 0 with h0 | h0
      · exact .inl (hm ▸ h0)
      · rw [hm] at h0
        obtain ⟨full, hf, he⟩ := List.mem_map.mp h0
        by_cases hz : m = 0
        · exact .inl hz
        · obtain ⟨x, ds, rfl, hx, hd⟩ := extractNumber_pos he hz
          exact .inr ⟨x, ds, (mem_allCodes u reg _).mp hf, (idRe_reads hre x).mp hx, hd⟩

/-- **C40** If no identifier is created, the name is taken and does not describe anything when it is read as a pattern. -/
theorem C40_error (u : Ucd) (reg : Registry) (path : Str) (b : BpeConfig) (given : Option Str) (e : PyErr)
    (h : createNewId u reg path b given = .error e) :
    e = .regexError ∧ (given = none ∨ given = some []) ∧ HasId u reg (idBase path b) ∧ ∀ x, ¬ Reads (idBase path b) x := by
  unfold createNewId at h
  split at h
  · cases h
  · next hg =>
    simp only at h
    split at h
    · cases h
    · next ht =>
      split at h
      · next hre =>
        refine ⟨(Except.error.inj h).symm, ?_, (mem_allCodes u reg _).mp (by simpa using ht), (idReLoop_none _).1 hre⟩
        cases given with
        | none => exact .inl rfl
        | some g => cases g with
          | nil => exact .inr rfl
          | cons c r => exact absurd rfl (hg c r)
      · cases h

/-- A registry with the identifiers `p` and `p_2`. -/
def takenReg : Registry := [⟨"p_1".toList, some "p".toList, ["5".toList]⟩, ⟨"p_3".toList, some "p_2".toList, ["7".toList]⟩]

/-- A configuration without a suffix. -/
def plainBpe : BpeConfig := ⟨"yes".toList, false, "code".toList, "yes".toList⟩

example : createNewId asciiUcd takenReg "/x/p".toList plainBpe none = .ok "p_3".toList := by decide +kernel
example : createNewId asciiUcd takenReg "/x/q".toList { plainBpe with unicode := "no".toList } none = .ok "q_nounicode".toList := by decide +kernel

/-- A registry with these identifiers. -/
def regOf (ids : List String) : Registry := ids.map fun i => ⟨i.toList, some i.toList, ["5".toList]⟩

example : createNewId asciiUcd (regOf ["a.b", "axb_4", "a\nb_9"]) "/x/a.b".toList plainBpe (some []) = .ok "a.b_5".toList := by decide +kernel
example : createNewId asciiUcd (regOf ["a+b", "aab_4", "b_7"]) "/x/a+b".toList plainBpe none = .ok "a+b_5".toList := by decide +kernel
example : createNewId asciiUcd (regOf ["a*b", "aab_4", "b_7"]) "/x/a*b".toList plainBpe none = .ok "a*b_8".toList := by decide +kernel
example : createNewId asciiUcd (regOf ["a?b", "aab_9", "b_007"]) "/x/a?b".toList plainBpe none = .ok "a?b_8".toList := by decide +kernel
example : Reads ['a', '+', '.', '?'] ['a', 'a'] := .plus (ds := ['a', 'a']) (by decide) (by simp) (by simp [Fits]) (.opt (ds := []) (by decide) (by simp) (by simp) .nil)
example : Numeral "007".toList 7 := ⟨2, by decide⟩
example : NoSpecial (idBase "/x/p".toList plainBpe) := by unfold NoSpecial; decide

/-- **C40, the missing part is false** The name is read as a pattern: `a+b` does not stand for itself, so `a+b_1` is given out a
second time. -/
theorem C40_special_violated :
    let reg : Registry := [⟨"a+b_1".toList, some "a+b".toList, ["5".toList]⟩, ⟨"a+b_2".toList, some "a+b_1".toList, ["5".toList]⟩]
    HasId asciiUcd reg "a+b_1".toList ∧ createNewId asciiUcd reg "/x/a+b".toList plainBpe none = .ok "a+b_1".toList := by
  refine ⟨(mem_allCodes _ _ _).mp ?_, ?_⟩ <;> decide +kernel

/-- **C40, the missing part is false** Some names are not even valid patterns: no identifier is created. -/
theorem C40_invalid_violated :
    createNewId asciiUcd [⟨"+_1".toList, some "+".toList, ["5".toList]⟩] "/x/+".toList plainBpe none = .error .regexError := by
  decide +kernel

/-- **C40, the missing part is false** An identifier that has been assigned, but for which no merges have been learnt yet, for
instance because of a crash, is given out again. -/
theorem C40_unlearnt_violated :
    let reg : Registry := [⟨"p_1".toList, some "p".toList, []⟩]
    (∃ d ∈ reg, d.codesId asciiUcd = some "p".toList) ∧ createNewId asciiUcd reg "/y/p".toList plainBpe none = .ok "p".toList := by
  decide +kernel

/-- **C40, the missing part is false** White space at the ends of a name is not stored, so ` p` and `p` become the same. -/
theorem C40_space_violated :
    let reg : Registry := [⟨"p_1".toList, some "p".toList, ["5".toList]⟩]
    ∃ reg', prepareLearning asciiUcd reg "/y/ p".toList plainBpe none " p_1".toList = .ok reg' ∧
      (reg'.map fun d => d.codesId asciiUcd) = [some "p".toList, some "p".toList] :=
  ⟨[⟨"p_1".toList, some "p".toList, ["5".toList]⟩, ⟨" p_1".toList, some " p".toList, []⟩], by decide +kernel, by decide +kernel⟩

/-- **C40, the missing part is false** An identifier given by the user is not checked. -/
theorem C40_given_violated : ∃ reg', prepareLearning asciiUcd takenReg "/y/q".toList plainBpe (some "p".toList) "q_1".toList = .ok reg' ∧
      (reg'.map fun d => d.codesId asciiUcd) = [some "p".toList, some "p_2".toList, some "p".toList] :=
  ⟨takenReg ++ [⟨"q_1".toList, some "p".toList, []⟩], by decide +kernel, by decide +kernel⟩

/-! ## Histories -/

theorem dropWhile_head_false {p : Char → Bool} {s : Str} (h : ∀ c ∈ s.head?, p c = false) : s.dropWhile p = s := by
  cases s with
  | nil => rfl
  | cons c s => rw [List.dropWhile_cons, h c rfl]; rfl

theorem strip_storable {u : Ucd} {s : Str} (h : Storable u s) : strip u (univNl s) = s := by
  obtain ⟨_, h1, h2, h3⟩ := h
  unfold strip
  rw [univNl_id h1, dropWhile_head_false h2, dropWhile_head_false (by rw [List.head?_reverse]; exact h3), List.reverse_reverse]

theorem storable_numbered {u : Ucd} (hu : u.Laws) {s : Str} (h : Storable u s) (n : Nat) : Storable u (s ++ '_' :: natStr n) := by
  obtain ⟨h0, h1, h2, h3⟩ := h
  refine ⟨by simp, ?_, ?_, ?_⟩
  · intro hm
    rcases List.mem_append.mp hm with h | h
    · exact h1 h
    · rcases List.mem_cons.mp h with h | h
      · revert h; decide
      · exact natStr_no (by decide) h
  · intro c hc
    cases s with
    | nil => exact absurd rfl h0
    | cons x s => exact h2 c (by simpa using hc)
  · intro c hc
    have hd : c ∈ natStr n := by
      have e : s ++ '_' :: natStr n = (s ++ ['_']) ++ natStr n := by simp
      rw [e, List.getLast?_append, List.getLast?_eq_some_getLast (natStr_ne_nil n)] at hc
      simp only [Option.some_or, Option.mem_def, Option.some.injEq] at hc
      exact hc ▸ List.getLast_mem _
    have := natStr_digits n c hd
    rw [hu.space_ascii c (by unfold isAscii; simp; omega)]
    have hne : c ≠ ' ' := by rintro rfl; simp at this
    simp [hne]
    omega

/-- In such histories every directory has an identifier of its own, and merges. -/
structure RegOk (u : Ucd) (reg : Registry) : Prop where
  names : (reg.map (·.name)).Nodup
  ids : ∀ d ∈ reg, ∃ id, d.idFile = some id ∧ Storable u id
  learnt : ∀ d ∈ reg, ∃ n : Nat, 1 ≤ n ∧ n ≤ sysMaxsize ∧ natStr n ∈ d.subdirs
  distinct : (reg.map (·.idFile)).Nodup

theorem codesId_of {u : Ucd} {d : BpeDir} {id : Str} (h : d.idFile = some id) (hs : Storable u id) : d.codesId u = some id := by
  unfold BpeDir.codesId
  rw [h]
  simp [strip_storable hs]

theorem find_name {reg : Registry} {n : Str} {e : BpeDir} (h : reg.find? (fun d => decide (d.name = n)) = some e) : e ∈ reg ∧ e.name = n :=
  ⟨List.mem_of_find?_eq_some h, by simpa using List.find?_some h⟩

theorem saveMerges_map {α : Type} (f : BpeDir → α) (hf : ∀ d l, f { d with subdirs := l } = f d) (reg : Registry) (d : Str) (n : Nat) :
    (saveMerges reg d n).map f = reg.map f := by
  unfold saveMerges
  rw [List.map_map]
  apply List.map_congr_left
  intro e _
  simp only [Function.comp_def]
  split
  · exact hf _ _
  · rfl

theorem regOk_save {u : Ucd} {reg : Registry} (hn : (reg.map (·.name)).Nodup) (hi : ∀ d ∈ reg, ∃ id, d.idFile = some id ∧ Storable u id)
    (hd : (reg.map (·.idFile)).Nodup) (d : Str) (n : Nat)
    (hl : ∀ e ∈ reg, (1 ≤ n ∧ n ≤ sysMaxsize ∧ e.name = d) ∨ ∃ n : Nat, 1 ≤ n ∧ n ≤ sysMaxsize ∧ natStr n ∈ e.subdirs) : RegOk u (saveMerges reg d n) := by
  refine ⟨by rw [saveMerges_map _ (fun _ _ => rfl)]; exact hn, ?_, ?_, by rw [saveMerges_map _ (fun _ _ => rfl)]; exact hd⟩
  · intro e he
    obtain ⟨e', he', rfl⟩ := List.mem_map.mp he
    obtain ⟨id, h, h'⟩ := hi e' he'
    refine ⟨id, ?_, h'⟩
    split <;> exact h
  · intro e he
    obtain ⟨e', he', rfl⟩ := List.mem_map.mp he
    rcases hl e' he' with ⟨h1, h2, hd⟩ | ⟨k, k1, k2, k3⟩
    · by_cases hm : natStr n ∈ e'.subdirs
      · exact ⟨n, h1, h2, by split <;> simp [hm]⟩
      · exact ⟨n, h1, h2, by rw [if_pos ⟨hd, hm⟩]; simp⟩
    · exact ⟨k, k1, k2, by split <;> simp [k3]⟩

/-- The identifier that is made is not in use. -/
theorem canName_fresh {u : Ucd} (hu : u.Laws) {reg : Registry} {path : Str} {b : BpeConfig} {given : Option Str} (d : Str)
    (hl : ∀ d ∈ reg, ∃ n : Nat, 1 ≤ n ∧ n ≤ sysMaxsize ∧ natStr n ∈ d.subdirs) (h : CanName u reg path b given) :
    ∃ id, createNewId u (reg ++ [⟨d, none, []⟩]) path b given = .ok id ∧ Storable u id ∧ ∀ x ∈ reg, x.idFile ≠ some id := by
  cases h with
  | @given id hs hf =>
    refine ⟨id, C40_given _ _ _ _ _ hs.1, hs, fun x hx hxi => hf x hx (codesId_of hxi hs)⟩
  | made hs hn =>
    obtain ⟨id, hc, hfresh, hform⟩ := C40_fresh_partial u (reg ++ [⟨d, none, []⟩]) path b hn
    have hst : Storable u id := by
      rcases hform with rfl | ⟨k, _, rfl⟩
      · exact hs
      · exact storable_numbered hu hs k
    refine ⟨id, hc, hst, fun x hx hxi => ?_⟩
    refine hfresh ⟨hst.1, x, List.mem_append_left _ hx, codesId_of hxi hst, ?_⟩
    obtain ⟨k, k1, k2, k3⟩ := hl x hx
    exact ⟨k, ⟨natStr k, k3, pyInt_natStr k⟩, by omega, by omega⟩

/-- The registry of a history without crashes and identifiers that are in use already. -/
theorem history_ok {u : Ucd} (hu : u.Laws) {reg : Registry} (h : LearnHistory u reg) : RegOk u reg := by
  induction h with
  | nil => exact ⟨.nil, by simp, by simp, .nil⟩
  | reorder _ hp ih =>
    obtain ⟨i1, i2, i3, i4⟩ := ih
    exact ⟨(hp.map _).nodup_iff.mpr i1, fun d hd => i2 d (hp.mem_iff.mp hd), fun d hd => i3 d (hp.mem_iff.mp hd),
      (hp.map _).nodup_iff.mpr i4⟩
  | @learn reg reg' _ path b given d n hn hreg ih =>
    obtain ⟨i1, i2, i3, i4⟩ := ih
    unfold prepareLearning at hreg
    simp only at hreg
    by_cases hd : d ∈ reg.map (·.name)
    · -- the directory is there, and it has an identifier
      have e : ensureDir reg d = reg := by unfold ensureDir; rw [if_pos hd]
      rw [e] at hreg
      cases hf : reg.find? (fun x => decide (x.name = d)) with
      | none => rw [hf] at hreg; cases hreg
      | some x =>
        rw [hf] at hreg
        simp only at hreg
        obtain ⟨hx, _⟩ := find_name hf
        obtain ⟨id, hx1, hx2⟩ := i2 x hx
        rw [codesId_of hx1 hx2] at hreg
        cases id with
        | nil => exact absurd rfl hx2.1
        | cons c r =>
          simp only at hreg
          obtain rfl := Except.ok.inj hreg
          exact regOk_save i1 i2 i4 d n fun e he => .inr (i3 e he)
    · -- a new directory
      have e : ensureDir reg d = reg ++ [⟨d, none, []⟩] := by unfold ensureDir; rw [if_neg hd]
      rw [e] at hreg
      have hfind : List.find? (fun x : BpeDir => decide (x.name = d)) (reg ++ [⟨d, none, []⟩]) = some ⟨d, none, []⟩ := by
        rw [List.find?_append]
        have : reg.find? (fun x => decide (x.name = d)) = none := by
          rw [List.find?_eq_none]
          intro x hx
          simp
          intro hxd
          exact hd (hxd ▸ List.mem_map_of_mem hx)
        rw [this]
        simp
      rw [hfind] at hreg
      simp only [BpeDir.codesId, Option.map_none, assignId] at hreg
      obtain ⟨hn1, hn2, hcan⟩ := hn hd
      obtain ⟨id, hc, hst, hnew⟩ := canName_fresh hu d i3 hcan
      rw [hc] at hreg
      simp only [bind, Except.bind] at hreg
      obtain rfl := Except.ok.inj hreg
      have hmap : List.map (fun e : BpeDir => if e.name = d then { e with idFile := some id } else e) (reg ++ [⟨d, none, []⟩]) =
          reg ++ [⟨d, some id, []⟩] := by
        rw [List.map_append]
        congr 1
        · conv => rhs; rw [← List.map_id reg]
          apply List.map_congr_left
          intro x hx
          rw [if_neg]
          · rfl
          · intro hxd; exact hd (hxd ▸ List.mem_map_of_mem hx)
        · simp
      rw [hmap]
      refine regOk_save ?_ ?_ ?_ d n ?_
      · rw [List.map_append, List.nodup_append]
        refine ⟨i1, by simp, ?_⟩
        rintro a ha b hb rfl
        simp at hb
        subst hb
        exact hd ha
      · intro x hx
        rcases List.mem_append.mp hx with hx | hx
        · exact i2 x hx
        · simp at hx; subst hx; exact ⟨id, rfl, hst⟩
      · rw [List.map_append, List.nodup_append]
        refine ⟨i4, by simp, ?_⟩
        rintro a ha b hb rfl
        simp at hb
        subst hb
        obtain ⟨x, hx, hxi⟩ := List.mem_map.mp ha
        exact hnew x hx hxi
      · intro x hx
        rcases List.mem_append.mp hx with hx | hx
        · exact .inr (i3 x hx)
        · simp at hx; subst hx; exact .inl ⟨hn1, hn2, rfl⟩

/-- **C40** After learning merges for any number of datasets, without crashes and without giving an identifier that is in use, all
directories have identifiers and these are all different; so each of them leads to its own directory. -/
theorem C40_history_partial {u : Ucd} (hu : u.Laws) {reg : Registry} (h : LearnHistory u reg) :
    (reg.map (·.codesId u)).Nodup ∧ ∀ d ∈ reg, ∃ id, d.codesId u = some id ∧ getDatasetBpeDir u (some reg) id = .ok d := by
  obtain ⟨_, i2, _, i4⟩ := history_ok hu h
  have e : reg.map (·.codesId u) = reg.map (·.idFile) := by
    apply List.map_congr_left
    intro d hd
    obtain ⟨id, h1, h2⟩ := i2 d hd
    rw [codesId_of h1 h2, h1]
  have hnd : (reg.map (·.codesId u)).Nodup := by rw [e]; exact i4
  refine ⟨hnd, fun d hd => ?_⟩
  obtain ⟨id, h1, h2⟩ := i2 d hd
  have hc := codesId_of h1 h2
  refine ⟨id, hc, (C39_dir u reg id d).mpr ⟨h2.1, hc, ?_⟩⟩
  obtain ⟨a, b, rfl⟩ := List.append_of_mem hd
  refine ⟨a, b, rfl, fun x hx hxi => ?_⟩
  rw [List.map_append, List.nodup_append] at hnd
  exact hnd.2.2 (x.codesId u) (List.mem_map_of_mem hx) (d.codesId u) (by simp) (hxi.trans hc.symm)

/-- Two datasets with the same name, and one with an identifier given by the user; listed in another order. -/
example : LearnHistory asciiUcd [⟨"q_1".toList, some "mine".toList, ["9".toList]⟩, ⟨"p_1".toList, some "p".toList, ["5".toList]⟩,
    ⟨"p_2".toList, some "p_1".toList, ["7".toList]⟩] := by
  have h1 : LearnHistory asciiUcd (saveMerges [⟨"p_1".toList, some "p".toList, []⟩] "p_1".toList 5) :=
    .learn .nil "/x/p".toList plainBpe none "p_1".toList 5
      (fun _ => ⟨by decide, by decide, .made (by unfold Storable; decide) (by unfold NoSpecial; decide)⟩) (by decide +kernel)
  have h2 : LearnHistory asciiUcd (saveMerges [⟨"p_1".toList, some "p".toList, ["5".toList]⟩, ⟨"p_2".toList, some "p_1".toList, []⟩] "p_2".toList 7) :=
    .learn h1 "/y/p".toList plainBpe none "p_2".toList 7
      (fun _ => ⟨by decide, by decide, .made (by unfold Storable; decide) (by unfold NoSpecial; decide)⟩) (by decide +kernel)
  have h3 : LearnHistory asciiUcd (saveMerges [⟨"p_1".toList, some "p".toList, ["5".toList]⟩, ⟨"p_2".toList, some "p_1".toList, ["7".toList]⟩,
      ⟨"q_1".toList, some "mine".toList, []⟩] "q_1".toList 9) :=
    .learn h2 "/y/q".toList plainBpe (some "mine".toList) "q_1".toList 9
      (fun _ => ⟨by decide, by decide, .given (by unfold Storable; decide) (by decide +kernel)⟩) (by decide +kernel)
  exact .reorder h3 (by decide +kernel)

end Verif.Props
