import Verif.Proofs.LearnDisk
/-!
# C59: histories of learning runs
-/
namespace Verif.Props
open Verif Spec Dict

section
variable {all : Dict Str Nat} {nonBpe : List Str}

theorem supported_ok {b : BpeConfig} (h : Supported b) : checkSupported b = .ok () := by
  obtain ⟨h1, h2, h3⟩ := h
  unfold checkSupported
  rw [if_neg h1, h2, if_neg (by simp), if_neg h3]

/-- **C59** Learning with other settings is refused, whatever is on the disk. -/
theorem C59_unsupported (b : BpeConfig) (h : ¬ Supported b) (d : LearnDisk) (n : Int) :
    learnOnDisk b d n = .error .notSupported := by
  have : checkSupported b = .error .notSupported := by
    unfold checkSupported
    by_cases h1 : b.unicode = "bytes".toList
    · rw [if_pos h1]
    · rw [if_neg h1]
      by_cases h2 : b.wordEnd = true
      · rw [if_pos h2]
      · rw [if_neg h2]
        by_cases h3 : b.case = "prefix".toList
        · rw [if_pos h3]
        · exact absurd ⟨h1, by simpa using h2, h3⟩ h
  rw [learnOnDisk, this]
  rfl

/-- All about a run that does not continue a directory left by a killed run. -/
theorem run_full {b : BpeConfig} (hb : Supported b) {d0 d : LearnDisk} (hr : Ready all nonBpe d0) {ks : List Str}
    (h : History b d0 ks d) (n : Int) (hn : ∀ name, dirWithMost d.dirs n = some name → name ∉ ks) :
    ∃ r m ms1 v1 ms2 v,
      ((dirWithMost d.dirs n = none ∧ ms1 = []) ∨
        ∃ m ∈ d.dirs, dirWithMost d.dirs n = some m.name ∧ Holds (datasetWords all nonBpe) m ms1 v1) ∧
      (∀ x, r = some x → x = m) ∧
      learnOnDisk b d n = .ok r ∧ m ∈ (d.save r).dirs ∧ m.name = natStr (ms1 ++ ms2).length ∧
      Learns (trainingVocab (datasetWords all nonBpe).learnt) (ms1 ++ ms2) v ∧
      (ms1 ++ ms2).length ≤ n.toNat ∧ ((ms1 ++ ms2).length < n.toNat → ∀ q, weightedCount v q = 0) ∧
      (m.name ∉ ks → ∃ v', Holds (datasetWords all nonBpe) m (ms1 ++ ms2) v') := by
  have inv := history_inv (supported_ok hb) hr h
  obtain ⟨ms1, v1, ms2, v2, h1, h2, h3, h4, h5⟩ := run_spec (supported_ok hb) hr.distinct hr.positive hr.words hr.kept inv n hn
  have hlv : Learns (trainingVocab (datasetWords all nonBpe).learnt) (ms1 ++ ms2) v2 := by rw [learnt_eq]; exact h3
  split at h2
  · next hmem =>
    obtain ⟨m, hm, hmn⟩ := List.mem_map.1 hmem
    refine ⟨none, m, ms1, v1, ms2, v2, h1, by simp, h2, hm, hmn, hlv, h4, h5, ?_⟩
    intro hk
    rcases inv.dirs m hm with h' | ⟨k, hk', h' | ⟨ms, v, hh⟩⟩
    · exact absurd (by rw [hmn, pyInt_natStr]) (h' _)
    · exact absurd h' hk
    · have hlen : ms.length = (ms1 ++ ms2).length := natStr_inj (hh.name.symm.trans hmn)
      rcases most_spec inv n with ⟨g1, g2⟩ | ⟨x, hx, k, g1, g2, g3, g4, g5⟩
      · rcases Nat.eq_zero_or_pos (ms1 ++ ms2).length with h0 | h0
        · rw [h0] at hlen
          have e1 := List.eq_nil_of_length_eq_zero hlen
          have e2 := List.eq_nil_of_length_eq_zero h0
          exact ⟨v, by rw [e2]; rw [e1] at hh; exact hh⟩
        · have := g2 m hm _ hmn (by omega)
          omega
      · rcases h1 with ⟨h1, _⟩ | ⟨y, hy, h1, hh1⟩
        · rw [g1] at h1; cases h1
        · rw [g1] at h1
          simp only [Option.some.injEq] at h1
          have hxy : x = y := by
            have a1 := dir_find inv.nodup hx
            have a2 := dir_find inv.nodup hy
            rw [h1, a2] at a1
            exact (Option.some.inj a1).symm
          subst hxy
          have hkl : ms1.length = k := natStr_inj (hh1.name.symm.trans g2)
          have hle := g5 m hm _ hmn (by rw [List.length_append] at h4 ⊢; omega)
          have h2' : ms2 = [] := by
            apply List.eq_nil_of_length_eq_zero
            rw [List.length_append] at hle
            omega
          subst h2'
          rw [List.append_nil] at *
          have hxm : x = m := by
            have a1 := dir_find inv.nodup hx
            have a2 := dir_find inv.nodup hm
            rw [hmn, hkl, ← g2, a1] at a2
            exact Option.some.inj a2
          subst hxm
          exact ⟨v1, hh1⟩
  · refine ⟨_, resultsDir ((datasetWords all nonBpe).splits v2) (ranked 0 (ms1 ++ ms2)), ms1, v1, ms2, v2, h1, by intro x hx; cases hx; rfl, h2, ?_, ?_, hlv, h4, h5, ?_⟩
    · simp [LearnDisk.save]
    · simp [resultsDir, ranked_length]
    · intro _
      exact ⟨v2, holds_results hr.distinct hr.positive hr.words h3⟩

/-- **C59** After any history of runs of which some were killed while saving: a run that does not continue a directory left by
a killed run (nor one that goes back to such a directory) succeeds.  Its result is a directory with at most the number of merges asked
for; if there are fewer, no pair of neighbours is left.  Unless the directory of this name was left by a killed run, it holds exactly
the result of learning. -/
theorem C59_kill_partial {b : BpeConfig} (hb : Supported b) {d0 d : LearnDisk} (hr : Ready all nonBpe d0) {ks : List Str}
    (h : History b d0 ks d) (n : Int) (hn : ∀ name, dirWithMost d.dirs n = some name → name ∉ ks) :
    ∃ r m ms v, learnOnDisk b d n = .ok r ∧ m ∈ (d.save r).dirs ∧ m.name = natStr ms.length ∧
      Learns (trainingVocab (datasetWords all nonBpe).learnt) ms v ∧
      ms.length ≤ n.toNat ∧ (ms.length < n.toNat → ∀ q, weightedCount v q = 0) ∧
      (m.name ∉ ks → ∃ v', Holds (datasetWords all nonBpe) m ms v') := by
  obtain ⟨r, m, ms1, v1, ms2, v, _, _, h2⟩ := run_full hb hr h n hn
  exact ⟨r, m, _, v, h2⟩

/-- **C59** As long as no run is killed while it saves: whatever was learnt before, every directory named by a number holds exactly
a result of learning that many merges, and a run with any number of merges succeeds and leaves such a directory, with the number of
merges asked for unless no pair of neighbours is left earlier. -/
theorem C59_history_partial {b : BpeConfig} (hb : Supported b) {d0 d : LearnDisk} (hr : Ready all nonBpe d0) (h : History b d0 [] d) :
    (∀ m ∈ d.dirs, ∀ k, pyInt m.name = .ok k →
      ∃ ms v, Holds (datasetWords all nonBpe) m ms v ∧ k = ms.length) ∧
    ∀ n, ∃ r m ms v, learnOnDisk b d n = .ok r ∧ m ∈ (d.save r).dirs ∧ Holds (datasetWords all nonBpe) m ms v ∧
      ms.length ≤ n.toNat ∧ (ms.length < n.toNat → ∀ q, weightedCount v q = 0) := by
  have inv := history_inv (supported_ok hb) hr h
  constructor
  · intro m hm k hk
    rcases inv.dirs m hm with h' | ⟨k', hk', h' | ⟨ms, v, hh⟩⟩
    · exact absurd hk (h' k)
    · cases h'
    · refine ⟨ms, v, hh, ?_⟩
      rw [hh.name, pyInt_natStr] at hk
      cases hk
      rfl
  · intro n
    obtain ⟨r, m, ms, v, h1, h2, h3, h4, h5, h6, h7⟩ := C59_kill_partial hb hr h n (by simp)
    obtain ⟨v', hv'⟩ := h7 (by simp)
    refine ⟨r, m, ms, v', h1, h2, hv', h5, ?_⟩
    have e : v' = v := (learns_seq hv'.learnt).trans (learns_seq h4).symm
    rw [e]
    exact h6

/-- **C59** A run continues what is there: its merges begin with those of the directory with most merges among those with at most the
number asked for. -/
theorem C59_extends {b : BpeConfig} (hb : Supported b) {d0 d : LearnDisk} (hr : Ready all nonBpe d0) (h : History b d0 [] d) (n : Int)
    (r : Option MergesDir) (hl : learnOnDisk b d n = .ok r) :
    ∃ m ∈ (d.save r).dirs, ∃ ms v, Holds (datasetWords all nonBpe) m ms v ∧ ms.length ≤ n.toNat ∧ (∀ x, r = some x → x = m) ∧
      ∀ m' ∈ d.dirs, ∀ ms' v', Holds (datasetWords all nonBpe) m' ms' v' → (ms'.length : Int) ≤ n →
        (∀ m'' ∈ d.dirs, ∀ ms'' v'', Holds (datasetWords all nonBpe) m'' ms'' v'' → (ms''.length : Int) ≤ n → ms''.length ≤ ms'.length) →
        ms' <+: ms := by
  have inv := history_inv (supported_ok hb) hr h
  obtain ⟨r', m, ms1, v1, ms2, v2, h1, g0, g1, g2, g3, g4, g5, _, g6⟩ := run_full hb hr h n (by simp)
  rw [hl] at g1
  cases g1
  obtain ⟨v, hv⟩ := g6 (by simp)
  refine ⟨m, g2, ms1 ++ ms2, v, hv, g5, g0, ?_⟩
  intro m' hm' ms' v' hh' hle hmax
  rcases most_spec inv n with ⟨e1, e2⟩ | ⟨x, hx, k, e1, e2, e3, e4, e5⟩
  · have := e2 m' hm' _ hh'.name hle
    rw [List.eq_nil_of_length_eq_zero this]
    simp
  · rcases h1 with ⟨h1, _⟩ | ⟨y, hy, h1, hh1⟩
    · rw [e1] at h1; cases h1
    · rw [e1] at h1
      simp only [Option.some.injEq] at h1
      have hkl : ms1.length = k := natStr_inj ((hh1.name.symm.trans h1.symm).trans e2)
      have l1 := e5 m' hm' _ hh'.name hle
      have l2 := hmax y hy ms1 v1 hh1 (by omega)
      have hxm : y = m' := by
        have a1 := dir_find inv.nodup hy
        have a2 := dir_find inv.nodup hm'
        rw [hh'.name, show ms'.length = ms1.length by omega, ← hh1.name, a1] at a2
        exact Option.some.inj a2
      subst hxm
      rw [holds_unique hh' hh1]
      exact List.prefix_append _ _

theorem exists_max {P : Nat → Prop} {B : Nat} (hB : ∀ k, P k → k ≤ B) {j : Nat} (hj : P j) : ∃ k, P k ∧ ∀ i, P i → i ≤ k := by
  induction B with
  | zero => exact ⟨j, hj, fun i hi => by have := hB i hi; omega⟩
  | succ B ih =>
    by_cases h : P (B + 1)
    · exact ⟨B + 1, h, hB⟩
    · refine ih ?_
      intro k hk
      have := hB k hk
      rcases Nat.lt_or_ge B k with h' | h'
      · exact absurd (by rw [show B + 1 = k by omega]; exact hk) h
      · exact h'

/-- All lists of merges on the disk begin alike. -/
def Nested (ws : Words) (d : LearnDisk) : Prop :=
  ∀ m ∈ d.dirs, ∀ m' ∈ d.dirs, ∀ ms v ms' v', Holds ws m ms v → Holds ws m' ms' v' → ms <+: ms' ∨ ms' <+: ms

/-- **C59** If the numbers of merges asked for never decrease, the lists of merges of all directories begin alike: each is the beginning
of each longer one. -/
theorem C59_ascending_partial {b : BpeConfig} (hb : Supported b) {d0 d : LearnDisk} (hr : Ready all nonBpe d0) (ns : List Int)
    (hns : ns.Pairwise (· ≤ ·)) (h : Runs b d0 ns d) :
    ∀ m ∈ d.dirs, ∀ m' ∈ d.dirs, ∀ ms v ms' v', Holds (datasetWords all nonBpe) m ms v →
      Holds (datasetWords all nonBpe) m' ms' v' → ms.length ≤ ms'.length → ms <+: ms' := by
  suffices H : ∀ (ns : List Int) (d d' : LearnDisk), ns.Pairwise (· ≤ ·) → History b d0 [] d → Nested (datasetWords all nonBpe) d →
      (∀ n ∈ ns, ∀ m ∈ d.dirs, ∀ ms v, Holds (datasetWords all nonBpe) m ms v → ms.length ≤ n.toNat) → Runs b d ns d' →
      Nested (datasetWords all nonBpe) d' by
    have hd := H ns d0 d hns History.start (by intro m hm; rw [hr.dirs] at hm; cases hm)
      (by intro n _ m hm; rw [hr.dirs] at hm; cases hm) h
    intro m hm m' hm' ms v ms' v' h1 h2 hl
    rcases hd m hm m' hm' ms v ms' v' h1 h2 with g | g
    · exact g
    · rw [g.eq_of_length_le hl]
      exact List.prefix_refl _
  intro ns
  induction ns with
  | nil =>
    intro d d' _ _ hn _ hr'
    cases hr'
    exact hn
  | cons n ns ih =>
    intro d d' hp hh hn hle hr'
    cases hr' with
    | @cons _ _ r _ _ hl hr' =>
    obtain ⟨m, hm, ms, v, hv, hlen, hnew, hext⟩ := C59_extends hb hr hh n r hl
    have hh' : History b d0 [] (d.save r) := by
      have := History.run hh hl
      have e : taint [] d n r = [] := by unfold taint; split <;> simp
      rw [e] at this
      exact this
    have hpre : ∀ x ∈ d.dirs, ∀ xs xv, Holds (datasetWords all nonBpe) x xs xv → xs <+: ms := by
      intro x hx xs xv hxs
      rcases Int.lt_or_le n 0 with hneg | hpos
      · have := hle n (by simp) x hx xs xv hxs
        rw [List.eq_nil_of_length_eq_zero (by omega : xs.length = 0)]
        simp
      · obtain ⟨k, ⟨y, hy, ys, yv, hys, rfl⟩, hmax⟩ := exists_max
          (P := fun k => ∃ y ∈ d.dirs, ∃ ys yv, Holds (datasetWords all nonBpe) y ys yv ∧ ys.length = k) (B := n.toNat)
          (by rintro k ⟨y, hy, ys, yv, hys, rfl⟩; exact hle n (by simp) y hy ys yv hys) ⟨x, hx, xs, xv, hxs, rfl⟩
        have hyn := hle n (by simp) y hy ys yv hys
        have h1 := hext y hy ys yv hys (by omega) (fun z hz zs zv hzs _ => hmax _ ⟨z, hz, zs, zv, hzs, rfl⟩)
        have h2 : xs <+: ys := by
          rcases hn x hx y hy xs xv ys yv hxs hys with g | g
          · exact g
          · rw [g.eq_of_length_le (hmax _ ⟨x, hx, xs, xv, hxs, rfl⟩)]
            exact List.prefix_refl _
        exact h2.trans h1
    have hdirs : ∀ x ∈ (d.save r).dirs, x ∈ d.dirs ∨ x = m := by
      intro x hx
      cases r with
      | none => exact Or.inl hx
      | some y =>
        rcases List.mem_append.1 hx with h' | h'
        · exact Or.inl h'
        · exact Or.inr ((List.mem_singleton.1 h').trans (hnew y rfl))
    have hpre' : ∀ x ∈ (d.save r).dirs, ∀ xs xv, Holds (datasetWords all nonBpe) x xs xv → xs <+: ms := by
      intro x hx xs xv hxs
      rcases hdirs x hx with h' | rfl
      · exact hpre x h' xs xv hxs
      · rw [holds_unique hxs hv]
        exact List.prefix_refl _
    refine ih (d.save r) d' (List.pairwise_cons.1 hp).2 hh' ?_ ?_ hr'
    · intro x hx y hy xs xv ys yv hxs hys
      exact List.prefix_or_prefix_of_prefix (hpre' x hx xs xv hxs) (hpre' y hy ys yv hys)
    · intro k hk x hx xs xv hxs
      have h1 := (hpre' x hx xs xv hxs).length_le
      have h2 := (List.pairwise_cons.1 hp).1 k hk
      omega

/-- **C59** The identifier of the dataset with `n` merges stands for the first `n` merges of the directory with the fewest merges among
those with at least `n`; it is refused if there is no such directory. -/
theorem C59_load {b : BpeConfig} (hb : Supported b) {d0 d : LearnDisk} (hr : Ready all nonBpe d0) (h : History b d0 [] d) (n : Nat)
    (hn : 1 ≤ n) :
    (∃ m ∈ d.dirs, ∃ ms v, Holds (datasetWords all nonBpe) m ms v ∧ n ≤ ms.length ∧
      (∀ m' ∈ d.dirs, ∀ ms' v', Holds (datasetWords all nonBpe) m' ms' v' → n ≤ ms'.length → ms.length ≤ ms'.length) ∧
      d.load n = .ok (ranked 0 (ms.take n))) ∨
    (d.load n = .error .invalidBpeCodesId ∧
      ∀ m ∈ d.dirs, ∀ ms v, Holds (datasetWords all nonBpe) m ms v → n ≤ ms.length → sysMaxsize ≤ ms.length) := by
  have inv := history_inv (supported_ok hb) hr h
  unfold LearnDisk.load
  cases hg : getMinMerges (d.dirs.map (·.name)) n with
  | none =>
    refine Or.inr ⟨rfl, ?_⟩
    intro m hm ms v hh hle
    have := ((C39_none ⟨[], none, d.dirs.map (·.name)⟩ n).1.1 hg) ms.length (learnt_dir hm hh.name) (by omega)
    omega
  | some x =>
    obtain ⟨h1, h2, h3, h4⟩ := (C39_min ⟨[], none, d.dirs.map (·.name)⟩ n x).1 hg
    obtain ⟨m, hm, k, rfl, hk⟩ := dir_learnt inv h1
    rcases inv.dirs m hm with h' | ⟨k', hk', h' | ⟨ms, v, hh⟩⟩
    · exact absurd (by rw [hk, pyInt_natStr]) (h' k)
    · cases h'
    · have hl : ms.length = k := natStr_inj (hh.name.symm.trans hk)
      refine Or.inl ⟨m, hm, ms, v, hh, by omega, ?_, ?_⟩
      · intro m' hm' ms' v' hh' hle
        have := h4 ms'.length (learnt_dir hm' hh'.name) (by omega)
        omega
      · simp only
        rw [if_neg (by omega), show intStr (k : Int) = m.name from hk.symm, file_name inv.nodup hm]
        obtain ⟨t, t1, _, t3⟩ := hh.merges
        simp only [t1, openText, bind, Except.bind]
        exact t3 n hn

/-- **C59** If a run is killed while it saves, before the last of its four files is created, every later run that would continue its
directory fails. -/
theorem C59_kill_blocks (b : BpeConfig) (d : LearnDisk) (n : Int) (m : MergesDir) (h : learnOnDisk b d n = .ok (some m))
    (i : Nat) (j : Option Nat) (hi : i < 3 ∨ i = 3 ∧ j = none) (n' : Int)
    (hn : dirWithMost (d.save (some (m.cut i j))).dirs n' = some m.name) :
    ∃ e, learnOnDisk b (d.save (some (m.cut i j))) n' = .error e := by
  obtain ⟨hm, -⟩ := result_name h
  have hs : (d.save (some (m.cut i j))).file m.name (·.splits) = none := by
    have hf : (d.save (some (m.cut i j))).dirs.find? (·.name = m.name) = some (m.cut i j) := by
      simp only [LearnDisk.save]
      rw [List.find?_append, List.find?_eq_none.2]
      · simp [MergesDir.cut]
      · intro x hx
        simp only [decide_eq_true_eq]
        intro e
        exact hm (e ▸ List.mem_map.2 ⟨x, hx, rfl⟩)
    rw [LearnDisk.file, hf]
    simp only [Option.bind_some, MergesDir.cut, cutFile]
    rcases hi with hi | ⟨rfl, rfl⟩
    · rw [if_neg (by omega), if_neg (by omega)]
    · rfl
  have hpv : ∃ e, prepareVocabs (d.save (some (m.cut i j))) (some m.name) = .error e := by
    simp only [prepareVocabs, hs, openText, bind, Except.bind]
    repeat' split
    all_goals exact ⟨_, rfl⟩
  obtain ⟨e, hpv⟩ := hpv
  rw [learnOnDisk]
  simp only [bind, Except.bind, hn, hpv]
  repeat' split
  all_goals exact ⟨_, rfl⟩

end

/-! ## Examples and what does not hold -/

/-- The settings of `learn-bpe` without options. -/
def plainSettings : BpeConfig := ⟨"yes".toList, false, "code".toList, "yes".toList⟩

example : Supported plainSettings := by unfold Supported; decide +kernel

/-- A dataset with the single word `abc`. -/
def abcDisk : LearnDisk := ⟨[], some "abc\t1\n".toList, some []⟩

theorem abc_ready : Ready [("abc".toList, 1)] [] abcDisk :=
  ⟨rfl, ⟨_, rfl, by decide +kernel⟩, ⟨_, rfl, by decide +kernel⟩, by decide, by decide, by decide, by simp⟩

/-- The directory with three merges. -/
def abc3 : MergesDir :=
  ⟨"3".toList, some "abc@\t1\n".toList, some "abc@\tabc@\n".toList, some "a b 1\nc @ 1\nab c@ 1\n".toList, some "abc@\t1\n".toList⟩
/-- The directory with one merge. -/
def abc1 : MergesDir :=
  ⟨"1".toList, some "ab\t1\nc\t1\n@\t1\n".toList, some "abc@\tab c @\n".toList, some "a b 1\n".toList, some "ab c @\t1\n".toList⟩
/-- The directory with two merges that continues it. -/
def abc2 : MergesDir :=
  ⟨"2".toList, some "abc\t1\n@\t1\n".toList, some "abc@\tabc @\n".toList, some "a b 1\nab c 1\n".toList, some "abc @\t1\n".toList⟩

set_option synthInstance.maxSize 1000 in
theorem abc_run3 : learnOnDisk plainSettings abcDisk 3 = .ok (some abc3) := by decide +kernel
set_option synthInstance.maxSize 1000 in
theorem abc_run1 : learnOnDisk plainSettings (abcDisk.save (some abc3)) 1 = .ok (some abc1) := by decide +kernel
set_option synthInstance.maxSize 1000 in
theorem abc_run2 : learnOnDisk plainSettings ((abcDisk.save (some abc3)).save (some abc1)) 2 = .ok (some abc2) := by decide +kernel

/-- The hypotheses of the theorems above are met by a history of three runs. -/
example : History plainSettings abcDisk [] (((abcDisk.save (some abc3)).save (some abc1)).save (some abc2)) :=
  History.run (History.run (History.run History.start abc_run3) abc_run1) abc_run2

/-- After a killed run with three merges, a run with one merge does not continue what it left. -/
example : History plainSettings abcDisk [abc3.name] (abcDisk.save (some (abc3.cut 1 (some 2)))) ∧
    dirWithMost (abcDisk.save (some (abc3.cut 1 (some 2)))).dirs 1 = none ∧
    dirWithMost (abcDisk.save (some (abc3.cut 1 (some 2)))).dirs 3 = some abc3.name :=
  ⟨History.kill 1 (some 2) History.start abc_run3, by decide +kernel, by decide +kernel⟩

/-- Ascending runs. -/
example : Runs plainSettings abcDisk [3, 3] (abcDisk.save (some abc3)) ∧ [(3 : Int), 3].Pairwise (· ≤ ·) :=
  ⟨Runs.cons abc_run3 (Runs.cons (r := none) (by decide +kernel) (Runs.nil _)), by decide⟩

/-- **C59** fails for runs with decreasing numbers: ties between equally frequent pairs are broken by the history of the queue, so a run
that continues need not repeat what a longer run has done.  The merges meant by the same identifier (here with two merges) change when
more is learnt from the same data. -/
theorem C59_nested_violated :
    ∃ d1 d2, Ready [("abc".toList, 1)] [] abcDisk ∧ Runs plainSettings abcDisk [3] d1 ∧ Runs plainSettings d1 [1, 2] d2 ∧
      d1.load 2 = .ok [(("a".toList, "b".toList), (some 1, 0)), (("c".toList, "@".toList), (some 1, 1))] ∧
      d2.load 2 = .ok [(("a".toList, "b".toList), (some 1, 0)), (("ab".toList, "c".toList), (some 1, 1))] := by
  refine ⟨abcDisk.save (some abc3), ((abcDisk.save (some abc3)).save (some abc1)).save (some abc2), abc_ready,
    Runs.cons abc_run3 (Runs.nil _), Runs.cons abc_run1 (Runs.cons abc_run2 (Runs.nil _)), ?_, ?_⟩
  · decide +kernel
  · decide +kernel

/-- **C59** fails for runs that are killed while they save: here the first file is complete and two characters of the second are
written.  All later runs with as many merges or more fail, and so does any use of these merges. -/
theorem C59_kill_violated :
    ∃ m d, Ready [("abc".toList, 1)] [] abcDisk ∧ learnOnDisk plainSettings abcDisk 3 = .ok (some m) ∧
      d = abcDisk.save (some (m.cut 1 (some 2))) ∧
      (∀ n : Int, 3 ≤ n → learnOnDisk plainSettings d n = .error .fileNotFound) ∧ d.load 3 = .error .fileNotFound := by
  refine ⟨abc3, _, abc_ready, abc_run3, rfl, ?_, ?_⟩
  · intro n hn
    have hd : dirWithMost (abcDisk.save (some (abc3.cut 1 (some 2)))).dirs n = some ['3'] := by
      have hg : getMaxMerges ((abcDisk.save (some (abc3.cut 1 (some 2)))).dirs.map (·.name)) n = some 3 := by
        have e : (abcDisk.save (some (abc3.cut 1 (some 2)))).dirs.map (·.name) = [['3']] := rfl
        have e3 : pyInt ['3'] = .ok 3 := by decide +kernel
        rw [e, (C39_max ⟨[], none, [['3']]⟩ n 3)]
        refine ⟨⟨['3'], by simp, e3⟩, by omega, hn, ?_⟩
        rintro k ⟨s, hs, hk⟩ _
        rw [List.mem_singleton.1 hs, e3] at hk
        cases hk
        omega
      rw [dirWithMost, hg]
      rfl
    rw [learnOnDisk, supported_ok (by unfold Supported; decide +kernel), hd]
    rfl
  · decide +kernel

/-- A dataset with two words. -/
def twoDisk : LearnDisk := ⟨[], some "ab\t2\ncd\t1\n".toList, some []⟩

theorem two_ready : Ready [("ab".toList, 2), ("cd".toList, 1)] [] twoDisk :=
  ⟨rfl, ⟨_, rfl, by decide +kernel⟩, ⟨_, rfl, by decide +kernel⟩, by decide, by decide, by decide, by simp⟩

/-- The directory with one merge. -/
def two1 : MergesDir :=
  ⟨"1".toList, some "@\t3\nab\t2\nc\t1\nd\t1\n".toList, some "ab@\tab @\ncd@\tc d @\n".toList, some "a b 2\n".toList,
   some "ab @\t2\nc d @\t1\n".toList⟩
/-- What is learnt from it if the last line of its last file is missing. -/
def two2 : MergesDir :=
  ⟨"2".toList, some "ab@\t2\n".toList, some "ab@\tab@\n".toList, some "a b 2\nab @ 2\n".toList, some "ab@\t2\n".toList⟩

set_option synthInstance.maxSize 1000 in
theorem two_run1 : learnOnDisk plainSettings twoDisk 1 = .ok (some two1) := by decide +kernel
set_option synthInstance.maxSize 1000 in
theorem two_run4 : learnOnDisk plainSettings (twoDisk.save (some (two1.cut 3 (some 7)))) 4 = .ok (some two2) := by decide +kernel

/-- **C59** fails silently for runs that are killed while they write the last file: here one of its two lines is written.  A later run
succeeds although it does not know all words; what it saves is not a result of learning from the dataset. -/
theorem C59_kill_silent_violated :
    ∃ m m', Ready [("ab".toList, 2), ("cd".toList, 1)] [] twoDisk ∧ learnOnDisk plainSettings twoDisk 1 = .ok (some m) ∧
      learnOnDisk plainSettings (twoDisk.save (some (m.cut 3 (some 7)))) 4 = .ok (some m') ∧
      ¬ ∃ ms v, Holds (datasetWords [("ab".toList, 2), ("cd".toList, 1)] []) m' ms v := by
  refine ⟨two1, two2, two_ready, two_run1, two_run4, ?_⟩
  rintro ⟨ms, v, h⟩
  obtain ⟨t, h1, h2⟩ := h.splits
  cases h1
  have e : loadVocabDict "ab@\t2\n".toList = .ok [("ab@".toList, 2)] := by decide +kernel
  rw [e] at h2
  have hv := learns_seq h.learnt
  have hl := congrArg List.length (Except.ok.inj h2)
  rw [List.length_map, Words.splits, hv] at hl
  revert hl
  simp only [mergeSeq, trainingVocab, List.length_append, List.length_map]
  decide

end Verif.Props
