import Verif.Props.Cli
import Verif.Proofs.FileSelect
/-!
# The command `learn-bpe` (C61)
-/
namespace Verif.Props
open Verif Spec

theorem config_facts : ∀ nu by_ we le : Bool,
    let b : BpeConfig := ⟨"yes".toList, we, if le then "java".toList else "code".toList,
      if nu then "no".toList else if by_ then "bytes".toList else "yes".toList⟩
    (b.toPrepConfig.enOnly = ['U'] ↔ nu = true) ∧ (checkSupported b = .ok () ↔ (by_ = false ∨ nu = true) ∧ we = false) := by
  decide +kernel

/-- **C61** The options of `learn-bpe` say what is learnt; all combinations give a configuration. -/
theorem C61_learn_config (a : LearnArgs) : ∃ b, cliBpeConfig a = .ok b ∧ b.case = "yes".toList ∧ b.wordEnd = a.wordEnd ∧
    (b.base = if a.legacy then "java".toList else "code".toList) ∧
    (b.unicode = if a.noUnicode then "no".toList else if a.bytes then "bytes".toList else "yes".toList) ∧
    (b.toPrepConfig.enOnly = ['U'] ↔ a.noUnicode = true) ∧
    (checkSupported b = .ok () ↔ (a.bytes = false ∨ a.noUnicode = true) ∧ a.wordEnd = false) := by
  refine ⟨⟨"yes".toList, a.wordEnd, if a.legacy then "java".toList else "code".toList,
    if a.noUnicode then "no".toList else if a.bytes then "bytes".toList else "yes".toList⟩, ?_, rfl, rfl, rfl, rfl,
    config_facts a.noUnicode a.bytes a.wordEnd a.legacy⟩
  obtain ⟨n, p, e, i, nu, by_, we, le⟩ := a
  cases nu <;> cases by_ <;> cases le <;> rfl

/-- The extensions are `java` only. -/
theorem only_java (ext : Option Str) : (normalizeExtensions ext = none ∨ normalizeExtensions ext = some ["java".toList]) ↔
    ∀ s, ext = some s → s ≠ [] → ∀ e ∈ pySplit '|' s, e = "java".toList := by
  match ext with
  | none => simp [normalizeExtensions]
  | some [] => simp [normalizeExtensions]
  | some (c :: s) =>
    simp only [normalizeExtensions, reduceCtorEq, false_or, Option.some.injEq]
    constructor
    · rintro h _ rfl _ e he
      have : e ∈ sortStr (dedup (pySplit '|' (c :: s))) := (sortStr_perm _).mem_iff.mpr ((mem_dedup _ _).mpr he)
      rw [h] at this
      exact List.mem_singleton.mp this
    · intro h
      have h := h _ rfl (by simp)
      have hall : ∀ e ∈ sortStr (dedup (pySplit '|' (c :: s))), e = "java".toList := fun e he =>
        h e ((mem_dedup _ _).mp ((sortStr_perm _).mem_iff.mp he))
      have hnd : (sortStr (dedup (pySplit '|' (c :: s)))).Nodup := (sortStr_perm _).nodup_iff.mpr (nodup_dedup _)
      have hne : sortStr (dedup (pySplit '|' (c :: s))) ≠ [] := by
        intro he
        obtain ⟨x, hx⟩ := List.exists_mem_of_ne_nil _ (pySplit_ne_nil '|' (c :: s))
        have : x ∈ sortStr (dedup (pySplit '|' (c :: s))) := (sortStr_perm _).mem_iff.mpr ((mem_dedup _ _).mpr hx)
        rw [he] at this; cases this
      generalize sortStr (dedup (pySplit '|' (c :: s))) = l at hall hnd hne
      match l with
      | [] => exact absurd rfl hne
      | [x] => rw [hall x (by simp)]
      | x :: y :: r =>
        have e1 := hall x (by simp)
        have e2 := hall y (by simp)
        rw [e1, e2] at hnd
        simp at hnd

theorem learnExtensions_none (a : LearnArgs) : learnExtensions a = none ↔
    a.legacy = true ∧ ∃ s, a.ext = some s ∧ s ≠ [] ∧ ∃ e ∈ pySplit '|' s, e ≠ "java".toList := by
  have hj := only_java a.ext
  have hneg : (∃ s, a.ext = some s ∧ s ≠ [] ∧ ∃ e ∈ pySplit '|' s, e ≠ "java".toList) ↔
      ¬ (normalizeExtensions a.ext = none ∨ normalizeExtensions a.ext = some ["java".toList]) := by
    rw [hj]; simp
  rw [hneg]
  unfold learnExtensions
  cases hl : a.legacy with
  | false => simp
  | true =>
    have hne : normalizeExtensions a.ext ≠ some [] := by
      match h : a.ext with
      | none => simp [normalizeExtensions]
      | some [] => simp [normalizeExtensions]
      | some (c :: s) =>
        simp only [normalizeExtensions, ne_eq, Option.some.injEq]
        intro he
        obtain ⟨x, hx⟩ := List.exists_mem_of_ne_nil _ (pySplit_ne_nil '|' (c :: s))
        have : x ∈ sortStr (dedup (pySplit '|' (c :: s))) := (sortStr_perm _).mem_iff.mpr ((mem_dedup _ _).mpr hx)
        rw [he] at this; cases this
    simp only [if_true]
    match h : normalizeExtensions a.ext with
    | none => simp
    | some [] => exact absurd h hne
    | some (e :: es) =>
      by_cases hx : e :: es = ["java".toList]
      · simp [hx]
      · constructor
        · intro _
          exact ⟨trivial, by simpa using hx⟩
        · intro _
          exact if_pos hx

theorem learnExtensions_java {a : LearnArgs} (hl : a.legacy = true) {ext : Option Str} (h : learnExtensions a = some ext) :
    ext = some "java".toList := by
  unfold learnExtensions at h
  rw [if_pos hl] at h
  split at h
  · injection h with h; exact h.symm
  · injection h with h; exact h.symm
  · split at h
    · cases h
    · injection h with h; exact h.symm

variable {u : Ucd} {h : Host} {learner : Str → Option (List Str) → PrepConfig → Str → Int → Except PyErr Nat}

/-- **C61** A number of merges that is not a number, extensions other than `java` together with `--legacy`, and a path that does not exist
are noticed before anything is changed. -/
theorem C61_learn_rejected_partial {a : LearnArgs} {reg : Registry}
    (hr : (∀ n, pyInt a.nMerges ≠ .ok n) ∨
      (a.legacy = true ∧ ∃ s, a.ext = some s ∧ s ≠ [] ∧ ∃ e ∈ pySplit '|' s, e ≠ "java".toList) ∨
      h.pathExists (abspath h.cwd a.path) = false) :
    (handleLearn u h learner a reg).2 = reg ∧ (handleLearn u h learner a reg).1 ≠ .done := by
  obtain ⟨b, hb, -⟩ := C61_learn_config a
  unfold handleLearn
  simp only [hb]
  cases hn : pyInt a.nMerges with
  | error e => exact ⟨rfl, by simp⟩
  | ok n =>
    simp only
    cases hx : learnExtensions a with
    | none => exact ⟨rfl, by simp⟩
    | some ext =>
      simp only
      rcases hr with hr | hr | hr
      · exact absurd hn (hr n)
      · rw [(learnExtensions_none a).mpr hr] at hx; cases hx
      · rw [if_pos hr]; exact ⟨rfl, by simp⟩

/-- **C61** With `--legacy`, exactly the `java` files are used, and nothing else is different: the option does the same as `-e java`. -/
theorem C61_legacy (a : LearnArgs) (reg : Registry) (hl : a.legacy = true)
    (hx : ∀ s, a.ext = some s → s ≠ [] → ∀ e ∈ pySplit '|' s, e = "java".toList) :
    handleLearn u h learner a reg = handleLearn u h learner { a with legacy := false, ext := some "java".toList } reg := by
  have h1 : learnExtensions a = some (some "java".toList) := by
    cases he : learnExtensions a with
    | none =>
      obtain ⟨-, s, h1, h2, e, h3, h4⟩ := (learnExtensions_none a).mp he
      exact absurd (hx s h1 h2 e h3) h4
    | some ext => rw [learnExtensions_java hl he]
  have h2 : learnExtensions { a with legacy := false, ext := some "java".toList } = some (some "java".toList) := rfl
  have h3 : ∃ un, cliBpeConfig a = .ok ⟨"yes".toList, a.wordEnd, "java".toList, un⟩ ∧
      cliBpeConfig { a with legacy := false, ext := some "java".toList } = .ok ⟨"yes".toList, a.wordEnd, "code".toList, un⟩ := by
    obtain ⟨n, p, e, i, nu, by_, we, le⟩ := a
    cases hl
    cases nu <;> cases by_ <;> cases we <;> exact ⟨_, rfl, rfl⟩
  obtain ⟨un, h3, h4⟩ := h3
  unfold handleLearn
  simp only [h1, h2, h3, h4]
  rfl

/-- **C61** How the path is written makes no difference. -/
theorem C61_same_place (a : LearnArgs) (p : Str) (reg : Registry) (hc : h.cwd.head? = some '/') (hc2 : ¬ TwoSlashes h.cwd)
    (h1 : ¬ TwoSlashes a.path) (h2 : ¬ TwoSlashes p) (hp : place h.cwd p = place h.cwd a.path) :
    handleLearn u h learner { a with path := p } reg = handleLearn u h learner a reg := by
  have : abspath h.cwd p = abspath h.cwd a.path := by rw [C61_path hc hc2 h1, C61_path hc hc2 h2, hp]
  unfold handleLearn
  simp only [this]
  rfl

/-! ## What is left in the directory of merges -/

theorem names_ensure (reg : Registry) (d : Str) (hn : (reg.map (·.name)).Nodup) : ((ensureDir reg d).map (·.name)).Nodup := by
  unfold ensureDir
  split
  · exact hn
  · next hd =>
    rw [List.map_append]
    refine List.nodup_append.mpr ⟨hn, by simp, ?_⟩
    intro x hx y hy
    simp only [List.map_cons, List.map_nil, List.mem_singleton] at hy
    subst hy
    rintro rfl
    exact hd hx

theorem mem_ensure {reg : Registry} {d : Str} {e : BpeDir} (he : e ∈ reg) : e ∈ ensureDir reg d := by
  unfold ensureDir
  split
  · exact he
  · exact List.mem_append_left _ he

theorem ensure_mem {reg : Registry} {d : Str} {e : BpeDir} (he : e ∈ ensureDir reg d) : e ∈ reg ∨ (e = ⟨d, none, []⟩ ∧ d ∉ reg.map (·.name)) := by
  unfold ensureDir at he
  split at he
  · exact .inl he
  · next h =>
    rcases List.mem_append.mp he with he | he
    · exact .inl he
    · exact .inr ⟨List.mem_singleton.mp he, h⟩

theorem name_inj {reg : Registry} (hn : (reg.map (·.name)).Nodup) {e e' : BpeDir} (h1 : e ∈ reg) (h2 : e' ∈ reg)
    (h : e.name = e'.name) : e = e' := by
  induction reg with
  | nil => cases h1
  | cons x r ih =>
    simp only [List.map_cons, List.nodup_cons] at hn
    rcases List.mem_cons.mp h1 with h3 | h3
    · rcases List.mem_cons.mp h2 with h4 | h4
      · rw [h3, h4]
      · exact absurd (List.mem_map.mpr ⟨e', h4, by rw [← h3, h]⟩) hn.1
    · rcases List.mem_cons.mp h2 with h4 | h4
      · exact absurd (List.mem_map.mpr ⟨e, h3, by rw [← h4, h]⟩) hn.1
      · exact ih hn.2 h3 h4

/-- An id has been assigned. -/
def HasSome (u : Ucd) (e : BpeDir) : Prop := ∃ c r, e.codesId u = some (c :: r)

/-- What `prepareLearning` does to the registry. -/
theorem prepare_ok {u : Ucd} {reg reg' : Registry} {path d : Str} {b : BpeConfig} {given : Option Str}
    (h : prepareLearning u reg path b given d = .ok reg') :
    (∀ e ∈ reg, e.name ≠ d → e ∈ reg') ∧
    ∃ e ∈ ensureDir reg d, e.name = d ∧
      ((HasSome u e ∧ e ∈ reg') ∨
       (¬ HasSome u e ∧ ∃ id, createNewId u (ensureDir reg d) path b given = .ok id ∧ { e with idFile := some id } ∈ reg')) := by
  unfold prepareLearning at h
  simp only at h
  split at h
  · cases h
  · next e he =>
    obtain ⟨hm, hd⟩ := find_name he
    split at h
    · next c r hc =>
      injection h with h
      subst h
      exact ⟨fun e he _ => mem_ensure he, e, hm, hd, .inl ⟨⟨_, _, hc⟩, hm⟩⟩
    · next hc =>
      unfold assignId at h
      cases hi : createNewId u (ensureDir reg d) path b given with
      | error x => rw [hi] at h; cases h
      | ok id =>
        rw [hi] at h
        injection h with h
        subst h
        refine ⟨?_, e, hm, hd, .inr ⟨?_, id, rfl, ?_⟩⟩
        · intro e0 h0 hne
          exact List.mem_map.mpr ⟨e0, mem_ensure h0, if_neg hne⟩
        · rintro ⟨c, r, hcr⟩; exact hc c r hcr
        · exact List.mem_map.mpr ⟨e, hm, if_pos hd⟩

theorem save_mem {reg : Registry} {d : Str} {k : Nat} {e : BpeDir} (he : e ∈ reg) :
    (e.name ≠ d → e ∈ saveMerges reg d k) ∧
    (e.name = d → ∃ e' ∈ saveMerges reg d k, e'.name = e.name ∧ e'.idFile = e.idFile ∧ natStr k ∈ e'.subdirs ∧
      ∀ s ∈ e.subdirs, s ∈ e'.subdirs) := by
  unfold saveMerges
  constructor
  · intro hne
    exact List.mem_map.mpr ⟨e, he, if_neg fun h => hne h.1⟩
  · intro hd
    by_cases hk : natStr k ∈ e.subdirs
    · exact ⟨e, List.mem_map.mpr ⟨e, he, if_neg fun h => h.2 hk⟩, rfl, rfl, hk, fun _ h => h⟩
    · exact ⟨_, List.mem_map.mpr ⟨e, he, if_pos ⟨hd, hk⟩⟩, rfl, rfl, by simp, fun _ h => List.mem_append_left _ h⟩

/-- **C61** Whatever happens to a command `learn-bpe`: the directories of other datasets stay as they are, and in the directory of the
dataset itself the id, if there is one, and everything that was learnt before stay. -/
theorem C61_learn_keeps {a : LearnArgs} {reg : Registry} {b : BpeConfig} {ext : Option Str} (hn : (reg.map (·.name)).Nodup)
    (hb : cliBpeConfig a = .ok b) (hx : learnExtensions a = some ext) (e : BpeDir) (he : e ∈ reg) :
    (e.name ≠ learnDir h (abspath h.cwd a.path) ext b → e ∈ (handleLearn u h learner a reg).2) ∧
    (e.name = learnDir h (abspath h.cwd a.path) ext b → ∃ e' ∈ (handleLearn u h learner a reg).2,
      e'.name = e.name ∧ (HasSome u e → e'.idFile = e.idFile) ∧ ∀ s ∈ e.subdirs, s ∈ e'.subdirs) := by
  unfold handleLearn
  simp only [hb, hx]
  cases pyInt a.nMerges with
  | error x => exact ⟨fun _ => he, fun _ => ⟨e, he, rfl, fun _ => rfl, fun _ h => h⟩⟩
  | ok n =>
    simp only
    split
    · exact ⟨fun _ => he, fun _ => ⟨e, he, rfl, fun _ => rfl, fun _ h => h⟩⟩
    · generalize learnDir h (abspath h.cwd a.path) ext b = d
      cases hp : prepareLearning u reg (abspath h.cwd a.path) b a.id d with
      | error x => exact ⟨fun _ => mem_ensure he, fun _ => ⟨e, mem_ensure he, rfl, fun _ => rfl, fun _ h => h⟩⟩
      | ok reg' =>
        obtain ⟨h1, e1, hm, hd, h2⟩ := prepare_ok hp
        have key : e.name = d → ∃ e' ∈ reg', e'.name = e.name ∧ (HasSome u e → e'.idFile = e.idFile) ∧ e'.subdirs = e.subdirs := by
          intro hed
          obtain rfl : e = e1 := name_inj (names_ensure reg d hn) (mem_ensure he) hm (hed.trans hd.symm)
          rcases h2 with ⟨hs, h2⟩ | ⟨hs, id, -, h2⟩
          · exact ⟨e, h2, rfl, fun _ => rfl, rfl⟩
          · exact ⟨_, h2, rfl, fun h => absurd h hs, rfl⟩
        have key' : (e.name ≠ d → e ∈ reg') ∧ (e.name = d → ∃ e' ∈ reg', e'.name = e.name ∧ (HasSome u e → e'.idFile = e.idFile) ∧
            ∀ s ∈ e.subdirs, s ∈ e'.subdirs) := by
          refine ⟨h1 e he, fun hed => ?_⟩
          obtain ⟨e', k1, k2, k3, k4⟩ := key hed
          exact ⟨e', k1, k2, k3, by rw [k4]; exact fun _ h => h⟩
        simp only
        cases checkSupported b with
        | error x => exact key'
        | ok _ =>
          simp only
          cases learner (abspath h.cwd a.path) (normalizeExtensions ext) b.toPrepConfig d n with
          | error x => exact key'
          | ok k =>
            refine ⟨fun hne => (save_mem (h1 e he hne)).1 hne, fun hed => ?_⟩
            obtain ⟨e', k1, k2, k3, k4⟩ := key hed
            obtain ⟨e2, j1, j2, j3, j4, j5⟩ := (save_mem (k := k) k1).2 (k2.trans hed)
            exact ⟨e2, j1, j2.trans k2, fun hs => j3.trans (k3 hs), fun s hs => j5 s (k4 ▸ hs)⟩

/-- **C61** A command `learn-bpe` that succeeds has learnt the number of merges asked for from the files with the extensions asked for, and
the merges are in the directory of the dataset under the id that the dataset already has, or else under the given one. -/
theorem C61_learn_done {a : LearnArgs} {reg reg' : Registry} (hn : (reg.map (·.name)).Nodup)
    (ho : handleLearn u h learner a reg = (.done, reg')) :
    ∃ b ext n k e, cliBpeConfig a = .ok b ∧ (ext = if a.legacy then some "java".toList else a.ext) ∧ pyInt a.nMerges = .ok n ∧
      h.pathExists (abspath h.cwd a.path) = true ∧ a.wordEnd = false ∧ (a.bytes = false ∨ a.noUnicode = true) ∧
      learner (abspath h.cwd a.path) (normalizeExtensions ext) b.toPrepConfig (learnDir h (abspath h.cwd a.path) ext b) n = .ok k ∧
      e ∈ reg' ∧ e.name = learnDir h (abspath h.cwd a.path) ext b ∧ natStr k ∈ e.subdirs ∧
      (∀ e0 ∈ reg, e0.name = e.name → HasSome u e0 → e.idFile = e0.idFile) ∧
      ((∀ e0 ∈ reg, e0.name = e.name → ¬ HasSome u e0) →
        (∀ id, a.id = some id → id ≠ [] → e.idFile = some id) ∧
        (a.id = none ∨ a.id = some [] → ∃ id, createNewId u (ensureDir reg e.name) (abspath h.cwd a.path) b none = .ok id ∧ e.idFile = some id)) := by
  obtain ⟨b, hb, -, -, -, -, -, hsup⟩ := C61_learn_config a
  unfold handleLearn at ho
  simp only [hb] at ho
  cases hi : pyInt a.nMerges with
  | error x => rw [hi] at ho; cases ho
  | ok n =>
    rw [hi] at ho
    simp only at ho
    cases hx : learnExtensions a with
    | none => rw [hx] at ho; cases ho
    | some ext =>
      rw [hx] at ho
      simp only at ho
      split at ho
      · cases ho
      · next hpe =>
        have hext : ext = if a.legacy then some "java".toList else a.ext := by
          cases hl : a.legacy with
          | true => exact learnExtensions_java hl hx
          | false =>
            unfold learnExtensions at hx
            rw [if_neg (by simp [hl])] at hx
            injection hx with hx; exact hx.symm
        cases hp : prepareLearning u reg (abspath h.cwd a.path) b a.id (learnDir h (abspath h.cwd a.path) ext b) with
        | error x => rw [hp] at ho; cases ho
        | ok r1 =>
          rw [hp] at ho
          simp only at ho
          cases hs : checkSupported b with
          | error x => rw [hs] at ho; cases ho
          | ok _ =>
            rw [hs] at ho
            simp only at ho
            cases hk : learner (abspath h.cwd a.path) (normalizeExtensions ext) b.toPrepConfig (learnDir h (abspath h.cwd a.path) ext b) n with
            | error x => rw [hk] at ho; cases ho
            | ok k =>
              rw [hk] at ho
              injection ho with _ ho
              subst ho
              obtain ⟨-, e1, hm, hd, h2⟩ := prepare_ok hp
              have hu := hsup.mp hs
              have huniq : ∀ e0 ∈ reg, e0.name = learnDir h (abspath h.cwd a.path) ext b → e0 = e1 := fun e0 h0 hn0 =>
                name_inj (names_ensure reg _ hn) (mem_ensure h0) hm (hn0.trans hd.symm)
              rcases h2 with ⟨hs1, h2⟩ | ⟨hs1, id, hid, h2⟩
              · obtain ⟨e, j1, j2, j3, j4, -⟩ := (save_mem (k := k) h2).2 hd
                refine ⟨b, ext, n, k, e, hb, hext, rfl, by simpa using hpe, hu.2, hu.1, hk, j1, j2.trans hd, j4, ?_, ?_⟩
                · intro e0 h0 hn0 _
                  rw [j3, huniq e0 h0 (hn0.trans (j2.trans hd))]
                · intro hno
                  rcases ensure_mem hm with hmr | ⟨rfl, -⟩
                  · exact absurd hs1 (hno e1 hmr j2.symm)
                  · obtain ⟨c, r, hc⟩ := hs1; cases hc
              · obtain ⟨e, j1, j2, j3, j4, -⟩ := (save_mem (k := k) h2).2 hd
                refine ⟨b, ext, n, k, e, hb, hext, rfl, by simpa using hpe, hu.2, hu.1, hk, j1, j2.trans hd, j4, ?_, ?_⟩
                · intro e0 h0 hn0 hs0
                  rw [huniq e0 h0 (hn0.trans (j2.trans hd))] at hs0
                  exact absurd hs0 hs1
                · intro _
                  have hname : e.name = learnDir h (abspath h.cwd a.path) ext b := j2.trans hd
                  constructor
                  · intro i hai hne
                    rw [hai, C40_given _ _ _ _ _ hne] at hid
                    injection hid with hid
                    rw [j3, hid]
                  · intro hai
                    refine ⟨id, ?_, j3⟩
                    rw [hname, ← hid]
                    rcases hai with hai | hai <;> rw [hai] <;> rfl

/-- **C61** `--bytes` (without `--no-unicode`) and `--word-end` are not implemented.  This is found out only after the directory has been made
and the id has been written. -/
theorem C61_learn_unsupported {a : LearnArgs} {reg reg' : Registry} {b : BpeConfig} {ext : Option Str} {n : Int}
    (hs : a.wordEnd = true ∨ (a.bytes = true ∧ a.noUnicode = false)) (hb : cliBpeConfig a = .ok b) (hx : learnExtensions a = some ext)
    (hi : pyInt a.nMerges = .ok n) (hp : h.pathExists (abspath h.cwd a.path) = true)
    (hr : prepareLearning u reg (abspath h.cwd a.path) b a.id (learnDir h (abspath h.cwd a.path) ext b) = .ok reg') :
    handleLearn u h learner a reg = (.raised .notSupported, reg') := by
  obtain ⟨b', hb', -, -, -, -, -, hsup⟩ := C61_learn_config a
  obtain rfl : b = b' := by rw [hb] at hb'; injection hb'
  have hns : checkSupported b = .error .notSupported := by
    have hno : checkSupported b ≠ .ok () := by
      intro h
      obtain ⟨h1, h2⟩ := hsup.mp h
      rcases hs with hs | ⟨hs, hs'⟩
      · rw [hs] at h2; cases h2
      · rcases h1 with h1 | h1
        · rw [hs] at h1; cases h1
        · rw [hs'] at h1; cases h1
    unfold checkSupported at hno ⊢
    split
    · rfl
    · split
      · rfl
      · split
        · rfl
        · rename_i h1 h2 h3
          rw [if_neg h1, if_neg h2, if_neg h3] at hno
          exact absurd rfl hno
  unfold handleLearn
  simp only [hb, hx, hi, hp, hr, hns]
  rfl

/-- A computer on which every path exists. -/
def fullHost : Host := ⟨fun _ => true, fun _ => "T".toList, "/".toList⟩

/-- `learn-bpe 5 -p /p --id x --bytes`. -/
def bytesArgs : LearnArgs := ⟨"5".toList, "/p".toList, none, some "x".toList, false, true, false, false⟩

/-- `learn-bpe 5 -p /p --id x`. -/
def plainArgs : LearnArgs := { bytesArgs with bytes := false }

/-- A learner that learns as many merges as it is asked for. -/
def easyLearner : Str → Option (List Str) → PrepConfig → Str → Int → Except PyErr Nat := fun _ _ _ _ n => .ok n.toNat

/-- **C61, the missing part is false** A command that is rejected because of `--bytes` leaves the id behind: when the command is repeated
without this option and succeeds, its merges cannot be used under the id.  Without the first command they can. -/
theorem C61_unsupported_violated :
    let r1 := handleLearn asciiUcd fullHost easyLearner bytesArgs []
    let r2 := handleLearn asciiUcd fullHost easyLearner plainArgs r1.2
    let r3 := handleLearn asciiUcd fullHost easyLearner plainArgs []
    r1.1 = .raised .notSupported ∧ r1.2 = [⟨"p_T_-_bytes".toList, some "x".toList, []⟩] ∧ r2.1 = .done ∧ r3.1 = .done ∧
      CustomBpeConfig.fromId asciiUcd (some r2.2) "x-5".toList = .error .invalidBpeCodesId ∧
      (CustomBpeConfig.fromId asciiUcd (some r3.2) "x-5".toList).toOption.isSome = true := by
  decide +kernel

/-- The hypotheses of the theorems above are met: learning twice with different ids, the second of which is ignored. -/
example : let r1 := handleLearn asciiUcd fullHost easyLearner plainArgs []
    let r2 := handleLearn asciiUcd fullHost easyLearner { plainArgs with id := some "y".toList, nMerges := "7".toList } r1.2
    r2 = (.done, [⟨"p_T".toList, some "x".toList, ["5".toList, "7".toList]⟩]) := by
  decide +kernel

example : (handleLearn asciiUcd fullHost easyLearner { plainArgs with legacy := true, ext := some "java|c".toList } []).1 = .message ∧
    handleLearn asciiUcd fullHost easyLearner { plainArgs with legacy := true, path := "q/../p".toList } [] =
      (.done, [⟨"p_T_java".toList, some "x".toList, ["5".toList]⟩]) := by
  decide +kernel

/-! ## The hypotheses of the theorems about splitting are met -/

/-- A lexer for one text. -/
def oneLexer : Str → Option Str → List (TokType × Str) := fun t _ => [(["Name"], t)]

/-- What a command does, without the parts that are functions. -/
def tokensOf : SplitOutcome → Option (List Str)
  | .printed ts => some ts
  | _ => none

/-- The directory with the results. -/
def resultsOf (h : Host) : SplitOutcome → Option Str
  | .preprocessed p => some (p.results h)
  | _ => none

example : tokensOf (handleSplitting demoEnv ⟨none, fun _ => none⟩ bareHost oneLexer
    ⟨commandLine (.basic {} false false false true), some "fooBar".toList, none, none, none, false⟩) =
      some ["<w>".toList, "foo".toList, "<Cap>".toList, "bar".toList, "</w>".toList] := by decide +kernel

example : resultsOf fullHost (handleSplitting demoEnv ⟨none, fun _ => none⟩ fullHost oneLexer
    ⟨commandLine (.basic {} false false false true), none, some "/x/p".toList, some "/out".toList, some "java|c".toList, false⟩) =
      some "/out/p_T_c_java_-_uc11sl_-_prep".toList := by decide +kernel

end Verif.Props
