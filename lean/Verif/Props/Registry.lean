import Verif.Proofs.Registry
import Verif.Proofs.PrepConfig
import Verif.Spec.Registry
/-!
# Properties of the registry of learnt merges and of the names of directories (C39, C40, C42, C43)
-/
namespace Verif.Props
open Verif Spec

/-! ## C39: identifiers with numbers of merges -/

/-- **C39** An identifier with a number of merges is taken apart, whatever characters the identifier has except new lines. -/
theorem C39_parse (id : Str) (n : Nat) (hn : 1 ≤ n) (hid : '\n' ∉ id) : parseMergeListId (id ++ '-' :: natStr n) = .ok (id, n) := by
  unfold parseMergeListId
  have hdig : '\n' ∉ natStr n := natStr_no (by decide)
  have hlast : (id ++ '-' :: natStr n).getLast? ≠ some '\n' := by
    intro h
    have h1 : (id ++ '-' :: natStr n) = (id ++ ['-']) ++ natStr n := by simp
    have h2 := List.getLast?_eq_some_getLast (natStr_ne_nil n)
    rw [h1, List.getLast?_append, h2] at h
    simp only [Option.some_or, Option.some.injEq] at h
    exact hdig (h ▸ List.getLast_mem _)
  simp only
  rw [if_neg hlast, rsplitOnce_append _ _ (natStr_no (by decide))]
  simp only
  rw [if_neg hid]
  obtain ⟨d, r, e, h1, h2⟩ := natStr_first hn
  have hall := natStr_all_digits n
  have hv := digitsVal_natStr n
  rw [e] at hall hv ⊢
  simp only
  rw [if_pos ⟨h1, h2, by simp at hall ⊢; exact hall.2⟩, hv]

example : parseMergeListId "python-no-case-5-1000".toList = .ok ("python-no-case-5".toList, 1000) := by decide

/-- **C39** Everything that is accepted is an identifier, a dash and a number of merges, possibly with a new line at the end. -/
theorem C39_parse_sound (s id : Str) (n : Nat) (h : parseMergeListId s = .ok (id, n)) :
    1 ≤ n ∧ '\n' ∉ id ∧ (s = id ++ '-' :: natStr n ∨ s = id ++ '-' :: natStr n ++ ['\n']) := by
  unfold parseMergeListId at h
  simp only at h
  split at h
  · cases h
  · next a ds hr =>
    split at h
    · cases h
    · next hnl =>
      split at h
      · cases h
      · next d r =>
        split at h
        · next hd =>
          simp only [Except.ok.injEq, Prod.mk.injEq] at h
          obtain ⟨rfl, rfl⟩ := h
          obtain ⟨e1, e2⟩ := natStr_digitsVal ⟨hd.1, hd.2.1⟩ r hd.2.2
          refine ⟨e2, hnl, ?_⟩
          obtain ⟨e3, _⟩ := rsplitOnce_some hr
          rw [e1]
          split at e3
          · next hl =>
            right
            rw [← e3]
            obtain ⟨hne, hl⟩ := List.getLast?_eq_some_iff.mp hl
            rw [hl]
            simp
          · exact .inl e3
        · cases h

theorem parse_error {s : Str} {e : PyErr} (hp : parseMergeListId s = .error e) : e = .invalidBpeCodesId := by
  unfold parseMergeListId at hp
  simp only at hp
  split at hp
  · cases hp; rfl
  · split at hp
    · cases hp; rfl
    · split at hp
      · cases hp; rfl
      · split at hp
        · cases hp
        · cases hp; rfl

/-- **C39** Everything else is rejected with the documented exception. -/
theorem C39_parse_rejects (s : Str) (h : ¬ ∃ (id : Str) (n : Nat), 1 ≤ n ∧ '\n' ∉ id ∧ (s = id ++ '-' :: natStr n ∨ s = id ++ '-' :: natStr n ++ ['\n'])) :
    parseMergeListId s = .error .invalidBpeCodesId := by
  cases hp : parseMergeListId s with
  | ok p => exact absurd ⟨p.1, p.2, C39_parse_sound s p.1 p.2 hp⟩ h
  | error e => rw [parse_error hp]

example : parseMergeListId "python_1000".toList = .error .invalidBpeCodesId := by decide
example : parseMergeListId "python-".toList = .error .invalidBpeCodesId := by decide
example : parseMergeListId "python-05".toList = .error .invalidBpeCodesId := by decide
example : parseMergeListId "python-5x".toList = .error .invalidBpeCodesId := by decide

theorem mem_nums {d : BpeDir} {k : Int} : k ∈ nums d.subdirs ↔ Learnt d k := by
  unfold nums Learnt
  rw [List.mem_filterMap]
  constructor
  · rintro ⟨s, hs, h⟩
    cases e : pyInt s with
    | ok n => rw [e] at h; simp at h; subst h; exact ⟨s, hs, e⟩
    | error x => rw [e] at h; cases h
  · rintro ⟨s, hs, h⟩
    exact ⟨s, hs, by rw [h]⟩

/-- **C39** The smallest learnt number of merges that is at least `lim`. -/
theorem C39_min (d : BpeDir) (lim m : Int) :
    getMinMerges d.subdirs lim = some m ↔ Learnt d m ∧ lim ≤ m ∧ m < sysMaxsize ∧ ∀ k, Learnt d k → lim ≤ k → m ≤ k := by
  rw [getMinMerges_iff]
  simp only [mem_nums]

/-- **C39** The largest learnt number of merges that is at most `lim`. -/
theorem C39_max (d : BpeDir) (lim m : Int) :
    getMaxMerges d.subdirs lim = some m ↔ Learnt d m ∧ 0 < m ∧ m ≤ lim ∧ ∀ k, Learnt d k → k ≤ lim → k ≤ m := by
  rw [getMaxMerges_iff]
  simp only [mem_nums]

/-- **C39** Nothing is found only if there is nothing to find. -/
theorem C39_none (d : BpeDir) (lim : Int) :
    (getMinMerges d.subdirs lim = none ↔ ∀ k, Learnt d k → lim ≤ k → sysMaxsize ≤ k) ∧
    (getMaxMerges d.subdirs lim = none ↔ ∀ k, Learnt d k → k ≤ lim → k ≤ 0) := by
  unfold getMinMerges getMaxMerges extreme
  rw [extremeLoop_eq, extremeLoop_eq]
  obtain ⟨r, e1, e2, e3, e4⟩ := minLoop lim (nums d.subdirs) sysMaxsize
  obtain ⟨r', f1, f2, f3, f4⟩ := maxLoop lim (nums d.subdirs) 0
  simp only [mem_nums] at e3 e4 f3 f4
  simp only at e1 f1 ⊢
  rw [e1, f1]
  constructor
  · split
    · next h =>
      simp only [reduceCtorEq, false_iff]
      intro h'
      rcases e3 with e | ⟨e, e'⟩
      · exact h e
      · have := h' r e e'; omega
    · next h =>
      simp at h
      simp only [true_iff]
      intro k hk hl
      rw [← h]
      exact e4 k hk hl
  · split
    · next h =>
      simp only [reduceCtorEq, false_iff]
      intro h'
      rcases f3 with e | ⟨e, e'⟩
      · exact h e
      · have := h' r' e e'; omega
    · next h =>
      simp at h
      simp only [true_iff]
      intro k hk hl
      rw [← h]
      exact f4 k hk hl

/-- Merges learnt for two datasets. -/
def demoReg : Registry :=
  [⟨"p_1".toList, some "p".toList, ["100".toList, "part_vocab".toList, "5000".toList, "1000".toList]⟩, ⟨"q_1".toList, some "q-7\n".toList, ["10".toList]⟩]

example : getMinMerges ["100".toList, "part_vocab".toList, "5000".toList, "1000".toList] 101 = some 1000 := by decide
example : getMaxMerges ["100".toList, "part_vocab".toList, "5000".toList, "1000".toList] 4999 = some 1000 := by decide

/-- **C39** The directory for an identifier is the first one with that identifier. -/
theorem C39_dir (u : Ucd) (reg : Registry) (id : Str) (d : BpeDir) :
    getDatasetBpeDir u (some reg) id = .ok d ↔
      id ≠ [] ∧ d.codesId u = some id ∧ ∃ a b, reg = a ++ d :: b ∧ ∀ e ∈ a, e.codesId u ≠ some id := by
  unfold getDatasetBpeDir
  have key : ∀ e : BpeDir, e.hasId u id = true ↔ id ≠ [] ∧ e.codesId u = some id := by
    intro e
    unfold BpeDir.hasId
    cases e.codesId u with
    | none => simp
    | some i =>
      simp only [ne_eq, Bool.and_eq_true, decide_eq_true_eq, Bool.not_eq_true', decide_eq_false_iff_not, Option.some.injEq, decide_not]
      constructor
      · rintro ⟨h, rfl⟩; exact ⟨h, rfl⟩
      · rintro ⟨h, rfl⟩; exact ⟨h, rfl⟩
  simp only
  split
  · next e h =>
    rw [List.find?_eq_some_iff_append] at h
    obtain ⟨h1, a, b, h2, h3⟩ := h
    rw [key] at h1
    have h3' : ∀ x ∈ a, x.codesId u ≠ some id := by
      intro x hx hc
      have := h3 x hx
      rw [Bool.not_eq_true', ← Bool.not_eq_true] at this
      exact this ((key x).mpr ⟨h1.1, hc⟩)
    constructor
    · intro hd
      obtain rfl := Except.ok.inj hd
      exact ⟨h1.1, h1.2, a, b, h2, h3'⟩
    · rintro ⟨_, hc, a', b', h2', h3''⟩
      rw [h2] at h2'
      congr 1
      rcases List.append_eq_append_iff.mp h2' with ⟨t, ht, ht'⟩ | ⟨t, ht, ht'⟩
      · cases t with
        | nil => simp at ht'; exact ht'.1
        | cons x t =>
          simp at ht'
          exact absurd h1.2 (h3'' e (by rw [ht]; simp [ht'.1]))
      · cases t with
        | nil => simp at ht'; exact ht'.1.symm
        | cons x t =>
          simp at ht'
          exact absurd hc (h3' d (by rw [ht]; simp [ht'.1]))
  · next h =>
    rw [List.find?_eq_none] at h
    constructor
    · intro hd; cases hd
    · rintro ⟨h0, hc, a, b, rfl, _⟩
      exact absurd ((key d).mpr ⟨h0, hc⟩) (h d (by simp))

/-- **C39** Without a directory for the identifier, and without any directories, the documented exception is raised. -/
theorem C39_dir_rejects (u : Ucd) (reg : Option Registry) (id : Str) (h : ∀ d, getDatasetBpeDir u reg id ≠ .ok d) :
    getDatasetBpeDir u reg id = .error .invalidBpeCodesId := by
  cases hg : getDatasetBpeDir u reg id with
  | ok d => exact absurd hg (h d)
  | error e =>
    unfold getDatasetBpeDir at hg
    cases reg with
    | none => simp at hg; rw [hg]
    | some r =>
      simp only at hg
      split at hg
      · cases hg
      · cases hg; rfl

example : getDatasetBpeDir asciiUcd (some demoReg) "q-7".toList = .ok ⟨"q_1".toList, some "q-7\n".toList, ["10".toList]⟩ := by decide
example : getDatasetBpeDir asciiUcd none "q".toList = .error .invalidBpeCodesId := C39_dir_rejects _ _ _ (by intro d h; cases h)

/-- **C39** A request `id-n` is served from the smallest learnt number of merges that is at least `n`. -/
theorem C39_from_id (u : Ucd) (reg : Registry) (id : Str) (n : Nat) (hn : 1 ≤ n) (hid : '\n' ∉ id) (d : BpeDir)
    (hd : getDatasetBpeDir u (some reg) id = .ok d) (c : CustomBpeConfig) :
    CustomBpeConfig.fromId u (some reg) (id ++ '-' :: natStr n) = .ok c ↔
      ∃ m : Nat, c = ⟨id, n, d, natStr m, true⟩ ∧ Learnt d m ∧ n ≤ m ∧ m < sysMaxsize ∧ ∀ k : Int, Learnt d k → n ≤ k → m ≤ k := by
  have hp := C39_parse id n hn hid
  have e : CustomBpeConfig.fromId u (some reg) (id ++ '-' :: natStr n) = CustomBpeConfig.create u (some reg) id n := by
    unfold CustomBpeConfig.fromId
    rw [hp]
    rfl
  rw [e]
  unfold CustomBpeConfig.create
  rw [hd]
  simp only [bind, Except.bind]
  have hc : (!((n : Int) == 0)) = true := by simp; omega
  cases hm : getMinMerges d.subdirs n with
  | none =>
    constructor
    · intro h; cases h
    · rintro ⟨m, _, h1, h2, h3, h4⟩
      have := (C39_none d n).1.mp hm m h1 (by omega)
      omega
  | some m =>
    obtain ⟨h1, h2, h3, h4⟩ := (C39_min d n m).mp hm
    have hm0 : m ≠ 0 := by omega
    simp only [if_neg hm0, hc, Bool.true_or]
    obtain ⟨k, rfl⟩ : ∃ k : Nat, m = k := ⟨m.toNat, by omega⟩
    constructor
    · intro h
      cases h
      exact ⟨k, rfl, h1, by omega, by omega, h4⟩
    · rintro ⟨m', rfl, g1, g2, g3, g4⟩
      have : k = m' := by
        have a1 := h4 m' g1 (by omega)
        have a2 := g4 k h1 h2
        omega
      subst this
      rfl

example : CustomBpeConfig.fromId asciiUcd (some demoReg) "p-101".toList =
    .ok ⟨"p".toList, 101, ⟨"p_1".toList, some "p".toList, ["100".toList, "part_vocab".toList, "5000".toList, "1000".toList]⟩, "1000".toList, true⟩ := by decide

/-- **C39** A request that cannot be served is rejected with the documented exception. -/
theorem C39_from_id_rejects (u : Ucd) (reg : Option Registry) (s : Str) (h : ∀ c, CustomBpeConfig.fromId u reg s ≠ .ok c) :
    CustomBpeConfig.fromId u reg s = .error .invalidBpeCodesId := by
  cases hf : CustomBpeConfig.fromId u reg s with
  | ok c => exact absurd hf (h c)
  | error e =>
    unfold CustomBpeConfig.fromId at hf
    cases hp : parseMergeListId s with
    | error e' =>
      have := parse_error hp
      rw [hp] at hf
      cases hf
      rw [this]
    | ok p =>
      rw [hp] at hf
      simp only [bind, Except.bind, CustomBpeConfig.create] at hf
      cases hd : getDatasetBpeDir u reg p.1 with
      | error e' =>
        have := C39_dir_rejects u reg p.1 (by rw [hd]; intro d h; cases h)
        rw [hd] at this hf
        cases hf
        rw [Except.error.inj this]
      | ok d =>
        rw [hd] at hf
        simp only at hf
        split at hf
        · cases hf; rfl
        · split at hf
          · cases hf; rfl
          · cases hf

example : CustomBpeConfig.fromId asciiUcd (some demoReg) "p-5001".toList = .error .invalidBpeCodesId := by decide
example : CustomBpeConfig.fromId asciiUcd (some demoReg) "r-1".toList = .error .invalidBpeCodesId := by decide

/-- **C39** The directory of a vocabulary is found exactly if that number of merges has been learnt. -/
theorem C39_bpe_dir (u : Ucd) (reg : Registry) (id : Str) (n : Nat) (d : BpeDir) (hd : getDatasetBpeDir u (some reg) id = .ok d) :
    (natStr n ∈ d.subdirs → getBpeDir u (some reg) id n = .ok (d, natStr n)) ∧
    (natStr n ∉ d.subdirs → getBpeDir u (some reg) id n = .error .invalidBpeCodesId) := by
  unfold getBpeDir
  rw [hd]
  have e : intStr (n : Int) = natStr n := rfl
  simp only [bind, Except.bind, e]
  constructor
  · intro h; rw [if_pos h]
  · intro h; rw [if_neg h]

example : getBpeDir asciiUcd (some demoReg) "q-7".toList 10 = .ok (⟨"q_1".toList, some "q-7\n".toList, ["10".toList]⟩, "10".toList) := by decide

/-- The cache of a merge list is never used for a request by identifier. -/
theorem C39_cache_unused (u : Ucd) (reg : Option Registry) (s : Str) (c : CustomBpeConfig) (h : CustomBpeConfig.fromId u reg s = .ok c) :
    c.canUseCacheFile = false := by
  unfold CustomBpeConfig.fromId at h
  cases hp : parseMergeListId s with
  | error e => rw [hp] at h; cases h
  | ok p =>
    rw [hp] at h
    have hn := (C39_parse_sound s p.1 p.2 hp).1
    simp only [bind, Except.bind, CustomBpeConfig.create] at h
    cases hd : getDatasetBpeDir u reg p.1 with
    | error e => rw [hd] at h; cases h
    | ok d =>
      rw [hd] at h
      simp only at h
      split at h
      · cases h
      · split at h
        · cases h
        · cases h
          unfold CustomBpeConfig.canUseCacheFile
          have : ((p.2 : Int) == 0) = false := by simp; omega
          simp [this]

end Verif.Props
