import Verif.Proofs.VocabLoader
/-!
# What is loaded for an identifier (C69)
-/
namespace Verif.Props
open Verif Spec

theorem codes_find {cs : List CodesDir} (h : (cs.map (·.name)).Nodup) {c : CodesDir} (hm : c ∈ cs) :
    cs.find? (fun x => decide (x.name = c.name)) = some c := by
  cases hf : cs.find? (fun x => decide (x.name = c.name)) with
  | none =>
    have := List.find?_eq_none.mp hf c hm
    simp at this
  | some x => rw [codes_inj h (List.mem_of_find?_eq_some hf) hm (by simpa using List.find?_some hf)]

theorem delTokens_eq (ts : List Str) : ∀ d : Dict Str Int, delTokens d ts = d.filter fun e => e.1 ∉ ts := by
  induction ts with
  | nil => intro d; simp [delTokens]
  | cons t ts ih =>
    intro d
    unfold delTokens
    have h1 : (if t ∈ d.map (·.1) then d.filter (·.1 ≠ t) else d) = d.filter (·.1 ≠ t) := by
      split
      · rfl
      · next h =>
        refine (List.filter_eq_self.mpr fun e he => ?_).symm
        simp only [ne_eq, decide_not, Bool.not_eq_eq_eq_not, Bool.not_true, decide_eq_false_iff_not]
        rintro rfl
        exact h (List.mem_map_of_mem he)
    rw [h1, ih, List.filter_filter]
    apply List.filter_congr
    intro e _
    simp only [List.mem_cons, not_or]
    rw [Bool.eq_iff_iff]
    simp
    exact And.comm

section
variable {u : Ucd} {words : Str → List (Str × Nat) × List Str} {h : UserDir}

/-- The identifier of a directory leads to it. -/
theorem user_dir (hu : u.Laws) (hh : UserHistory u words h) {c : CodesDir} (hc : c ∈ h.dirs) :
    (h.dirs.map (·.name)).Nodup ∧ h.codes = some h.dirs ∧ ∃ id, c.entry.codesId u = some id ∧ getDatasetBpeDir u h.registry id = .ok c.entry := by
  have inv := user_inv hu hh
  have hs : h.codes = some h.dirs := by
    unfold UserDir.dirs at hc ⊢
    cases hcs : h.codes with
    | none => rw [hcs] at hc; cases hc
    | some cs => rfl
  obtain ⟨id, h1, h2⟩ := (C40_history_partial hu inv.registry).2 c.entry (List.mem_map_of_mem hc)
  refine ⟨?_, hs, id, h1, ?_⟩
  · have := (history_ok hu inv.registry).names
    rw [List.map_map] at this
    exact this
  · unfold UserDir.registry
    rw [hs]
    exact h2

/-- The vocabulary directory of a dataset. -/
theorem user_vocab (hu : u.Laws) (hh : UserHistory u words h) {c : CodesDir} (hc : c ∈ h.dirs) {dn : Str} {b : BpeConfig}
    (hb : IsBpeConfig b) (hp : PlainDataset dn) (hn : c.name = bpeDirName dn (some b)) :
    ∃ b' v, Supported b' ∧ v ∈ h.vocabs ∧ v.name = baseBpeVocabDirName dn b ∧ getBaseVocabDirName c.name = .ok v.name ∧
      h.vocabs.find? (fun x => decide (x.name = v.name)) = some v ∧
      Ready (words v.name).1 (words v.name).2 ⟨[], v.vocab, v.nonbpe⟩ ∧
      History b' ⟨[], v.vocab, v.nonbpe⟩ [] ⟨c.subs, v.vocab, v.nonbpe⟩ := by
  have inv := user_inv hu hh
  obtain ⟨dn1, b1, v, h1, h2, h3, h4, h5, h6, h7⟩ := inv.dirs c hc
  have c1 := C43_base_dir_partial hb hp.1 hp.2
  have c2 := C43_base_dir_partial h2 h1.1 h1.2
  rw [← hn] at c1
  rw [← h4] at c2
  rw [c1] at c2
  have e := Except.ok.inj c2
  exact ⟨b1, v, h3, h5, h6.trans e.symm, by rw [c1, h6, e], vocabs_find inv.names h5, inv.ready v h5, h7⟩

/-- **C69** After learning merges for any datasets, each dataset has an identifier of its own, with which the words of this dataset are
loaded: all of them, those that are not split, and those that were learnt from, with their frequencies. -/
theorem C69_words (hu : u.Laws) (hh : UserHistory u words h) {c : CodesDir} (hc : c ∈ h.dirs) {dn : Str} {b : BpeConfig}
    (hb : IsBpeConfig b) (hp : PlainDataset dn) (hn : c.name = bpeDirName dn (some b)) (all : List (Str × Nat)) (nonBpe : List Str)
    (hw : words (baseBpeVocabDirName dn b) = (all, nonBpe)) :
    ∃ id, c.entry.codesId u = some id ∧ (∀ c' ∈ h.dirs, c'.entry.codesId u = some id → c' = c) ∧
      h.loadAll u id = .ok (all.map fun e => (e.1, (e.2 : Int))) ∧ h.loadNonbpe u id = .ok nonBpe ∧
      h.loadBase u id = .ok ((datasetWords all nonBpe).learnt.map fun e => (e.1, (e.2 : Int))) := by
  obtain ⟨hnd, hs, id, hi, hd⟩ := user_dir hu hh hc
  obtain ⟨b', v, -, hv, hvn, hg, hf, hr, -⟩ := user_vocab hu hh hc hb hp hn
  rw [hvn, hw] at hr
  have hbase : h.baseVocabDir u id = .ok v.name := by
    unfold UserDir.baseVocabDir
    rw [hd]
    exact hg
  have hall : h.loadAll u id = .ok (all.map fun e => (e.1, (e.2 : Int))) := by
    obtain ⟨t, ht, hl⟩ := hr.vocab
    unfold UserDir.loadAll UserDir.vocabFile
    rw [hbase]
    simp only [bind, Except.bind, hf, Option.bind_some]
    rw [show v.vocab = some t from ht]
    exact hl
  have hnon : h.loadNonbpe u id = .ok nonBpe := by
    obtain ⟨t, ht, hl⟩ := hr.nonbpe
    unfold UserDir.loadNonbpe UserDir.vocabFile
    rw [hbase]
    simp only [bind, Except.bind, hf, Option.bind_some]
    rw [show v.nonbpe = some t from ht]
    exact hl
  refine ⟨id, hi, ?_, hall, hnon, ?_⟩
  · intro c' hc' hi'
    have h1 := (C40_history_partial hu (user_inv hu hh).registry).1
    rw [List.map_map] at h1
    have hinj : ∀ (l : List CodesDir), (l.map ((fun x : BpeDir => x.codesId u) ∘ fun x => x.entry)).Nodup → ∀ a ∈ l, ∀ b ∈ l,
        a.entry.codesId u = b.entry.codesId u → a = b := by
      intro l
      induction l with
      | nil => intro _ a ha; cases ha
      | cons x l ih =>
        intro hnd a ha b hb e
        rw [List.map_cons, List.nodup_cons] at hnd
        rcases List.mem_cons.mp ha with k1 | k1 <;> rcases List.mem_cons.mp hb with k2 | k2
        · rw [k1, k2]
        · exact absurd (List.mem_map.mpr ⟨b, k2, by rw [← k1]; exact e.symm⟩) hnd.1
        · exact absurd (List.mem_map.mpr ⟨a, k1, by rw [← k2]; exact e⟩) hnd.1
        · exact ih hnd.2 a k1 b k2 e
    exact hinj _ h1 c' hc' c hc (hi'.trans hi.symm)
  · unfold UserDir.loadBase
    rw [hall, hnon]
    simp only [bind, Except.bind, delTokens_eq, datasetWords]
    rw [List.filter_map]
    rfl

/-- **C69** With the identifier of a dataset and a number of merges, the subwords of a result of learning exactly that many merges from
the words of this dataset are loaded, with the numbers of their occurrences; the number is refused if it has not been learnt. -/
theorem C69_bpe (hu : u.Laws) (hh : UserHistory u words h) {c : CodesDir} (hc : c ∈ h.dirs) {dn : Str} {b : BpeConfig}
    (hb : IsBpeConfig b) (hp : PlainDataset dn) (hn : c.name = bpeDirName dn (some b)) (all : List (Str × Nat)) (nonBpe : List Str)
    (hw : words (baseBpeVocabDirName dn b) = (all, nonBpe)) (id : Str) (hi : c.entry.codesId u = some id) (n : Int) :
    ((∀ m ∈ c.subs, m.name ≠ intStr n) ∧ h.loadBpe u id n = .error .invalidBpeCodesId) ∨
    ∃ m ∈ c.subs, ∃ ms v l, Spec.Holds (datasetWords all nonBpe) m ms v ∧ n = ms.length ∧ h.loadBpe u id n = .ok l ∧
      (l.map (·.1)).Nodup ∧ ∀ s x, (s, x) ∈ l ↔
        x = (occurrences ((datasetWords all nonBpe).splits v) s : Int) ∧ 0 < occurrences ((datasetWords all nonBpe).splits v) s := by
  obtain ⟨hnd, hs, id', hi', hd⟩ := user_dir hu hh hc
  obtain rfl : id' = id := Option.some.inj (hi'.symm.trans hi)
  obtain ⟨b', v, hsup, hv, hvn, hg, hf, hr, hist⟩ := user_vocab hu hh hc hb hp hn
  rw [hvn, hw] at hr
  have inv := history_inv (supported_ok hsup) hr hist
  unfold UserDir.loadBpe getBpeDir
  rw [hd]
  simp only [bind, Except.bind]
  by_cases hm : intStr n ∈ c.entry.subdirs
  · right
    rw [if_pos hm]
    obtain ⟨m, hm, hmn⟩ := List.mem_map.mp hm
    obtain ⟨ms, w, hh', hk⟩ := (C59_history_partial hsup hr hist).1 m hm n (by rw [hmn, pyInt_intStr])
    obtain ⟨t, l, h1, h2, h3, -, h5⟩ := hh'.vocab
    refine ⟨m, hm, ms, w, l, hh', hk, ?_, h3, h5⟩
    unfold UserDir.mergesFile
    rw [hs]
    simp only
    rw [show c.entry.name = c.name from rfl, codes_find hnd hc]
    simp only [Option.bind_some]
    rw [← hmn, dir_find inv.nodup hm]
    simp only [Option.bind_some, h1, openText]
    exact h2
  · left
    rw [if_neg hm]
    exact ⟨fun m hm' e => hm (List.mem_map.mpr ⟨m, hm', e⟩), rfl⟩

/-- **C69** With the identifier of a dataset and a number of merges, the first so many merges of a result of learning from the words of
this dataset are loaded: of the directory with the fewest merges among those with at least that many.  The number is refused if there is
no such directory. -/
theorem C69_merges (hu : u.Laws) (hh : UserHistory u words h) {c : CodesDir} (hc : c ∈ h.dirs) {dn : Str} {b : BpeConfig}
    (hb : IsBpeConfig b) (hp : PlainDataset dn) (hn : c.name = bpeDirName dn (some b)) (all : List (Str × Nat)) (nonBpe : List Str)
    (hw : words (baseBpeVocabDirName dn b) = (all, nonBpe)) (id : Str) (hi : c.entry.codesId u = some id) (n : Nat) (h0 : 1 ≤ n) :
    (∃ m ∈ c.subs, ∃ ms v, Spec.Holds (datasetWords all nonBpe) m ms v ∧ n ≤ ms.length ∧
      (∀ m' ∈ c.subs, ∀ ms' v', Spec.Holds (datasetWords all nonBpe) m' ms' v' → n ≤ ms'.length → ms.length ≤ ms'.length) ∧
      h.loadMerges u id n = .ok (ranked 0 (ms.take n))) ∨
    (h.loadMerges u id n = .error .invalidBpeCodesId ∧
      ∀ m ∈ c.subs, ∀ ms v, Spec.Holds (datasetWords all nonBpe) m ms v → n ≤ ms.length → sysMaxsize ≤ ms.length) := by
  obtain ⟨hnd, hs, id', hi', hd⟩ := user_dir hu hh hc
  obtain rfl : id' = id := Option.some.inj (hi'.symm.trans hi)
  obtain ⟨b', v, hsup, hv, hvn, hg, hf, hr, hist⟩ := user_vocab hu hh hc hb hp hn
  rw [hvn, hw] at hr
  have key : h.loadMerges u id' n = LearnDisk.load ⟨c.subs, v.vocab, v.nonbpe⟩ n := by
    unfold UserDir.loadMerges CustomBpeConfig.create LearnDisk.load
    rw [hd]
    simp only [bind, Except.bind]
    rw [show c.entry.subdirs = c.subs.map (·.name) from rfl]
    cases getMinMerges (c.subs.map (·.name)) (n : Int) with
    | none => rfl
    | some m =>
      simp only
      by_cases hm : m = 0
      · rw [if_pos hm, if_pos hm]
      · rw [if_neg hm, if_neg hm]
        simp only [UserDir.mergesFile, hs, LearnDisk.file]
        rw [show c.entry.name = c.name from rfl, codes_find hnd hc]
        rfl
  rw [key]
  exact C59_load hsup hr hist n h0

/-- **C69** Nothing is loaded with an identifier that no dataset has. -/
theorem C69_unknown (u : Ucd) (h : UserDir) (id : Str) (hi : ∀ c ∈ h.dirs, c.entry.codesId u ≠ some id) (n : Int) (k : Nat) :
    h.loadAll u id = .error .invalidBpeCodesId ∧ h.loadNonbpe u id = .error .invalidBpeCodesId ∧
    h.loadBase u id = .error .invalidBpeCodesId ∧ h.loadBpe u id n = .error .invalidBpeCodesId ∧
    h.loadMerges u id k = .error .invalidBpeCodesId := by
  have hd : getDatasetBpeDir u h.registry id = .error .invalidBpeCodesId := by
    refine C39_dir_rejects u _ id fun d hd => ?_
    unfold UserDir.registry at hd
    unfold UserDir.dirs at hi
    cases hc : h.codes with
    | none => rw [hc] at hd; cases hd
    | some cs =>
      rw [hc] at hd hi
      obtain ⟨-, h1, a, b, h2, -⟩ := (C39_dir u _ id d).mp hd
      have h2' : cs.map CodesDir.entry = a ++ d :: b := h2
      have hm : d ∈ cs.map CodesDir.entry := by rw [h2']; simp
      obtain ⟨c, hcm, rfl⟩ := List.mem_map.mp hm
      exact hi c hcm h1
  have hb : h.baseVocabDir u id = .error .invalidBpeCodesId := by unfold UserDir.baseVocabDir; rw [hd]; rfl
  have ha : h.loadAll u id = .error .invalidBpeCodesId := by unfold UserDir.loadAll; rw [hb]; rfl
  refine ⟨ha, by unfold UserDir.loadNonbpe; rw [hb]; rfl, by unfold UserDir.loadBase; rw [ha]; rfl,
    by unfold UserDir.loadBpe getBpeDir; rw [hd]; rfl, by unfold UserDir.loadMerges CustomBpeConfig.create; rw [hd]; rfl⟩

/-- **C69** Learning goes on: for a dataset with a vocabulary, merges can be learnt in any such state, and they are in the directory of
this dataset, the number asked for unless no pair of neighbours is left earlier. -/
theorem C69_progress (hu : u.Laws) (hh : UserHistory u words h) (path : Str) {dn : Str} {b : BpeConfig} (given : Option Str) (n : Int)
    (hb : IsBpeConfig b) (hs : Supported b) (hp : PlainDataset dn) (hv : baseBpeVocabDirName dn b ∈ h.vocabs.map (·.name))
    (hc : bpeDirName dn (some b) ∉ h.dirs.map (·.name) → CanName u (h.dirs.map (·.entry)) path b given) (all : List (Str × Nat))
    (nonBpe : List Str) (hw : words (baseBpeVocabDirName dn b) = (all, nonBpe)) :
    ∃ h' c m ms v, h.learn u path dn b given n = .ok h' ∧ c ∈ h'.dirs ∧ c.name = bpeDirName dn (some b) ∧ m ∈ c.subs ∧
      Spec.Holds (datasetWords all nonBpe) m ms v ∧ ms.length ≤ n.toNat ∧ (ms.length < n.toNat → ∀ q, weightedCount v q = 0) := by
  have inv := user_inv hu hh
  have hok := history_ok hu inv.registry
  have hnm : (h.dirs.map (·.entry)).map (·.name) = h.dirs.map (·.name) := by rw [List.map_map]; rfl
  have hnd : (h.dirs.map (·.name)).Nodup := hnm ▸ hok.names
  generalize hd : bpeDirName dn (some b) = d at *
  have hin : d ∈ (ensureCodes h.dirs d).map (·.name) := by
    unfold ensureCodes
    split
    · next hm => exact hm
    · simp
  obtain ⟨e, he, hed⟩ := List.mem_map.mp hin
  have hf : (ensureCodes h.dirs d).find? (fun x => decide (x.name = d)) = some e := by
    have := codes_find (ensureCodes_nodup d hnd) he
    rw [hed] at this
    exact this
  obtain ⟨v, hvm, hvn⟩ := List.mem_map.mp hv
  have hready := inv.ready v hvm
  rw [hvn, hw] at hready
  have hdisk : h.disk e.subs (baseBpeVocabDirName dn b) = ⟨e.subs, v.vocab, v.nonbpe⟩ := by
    unfold UserDir.disk UserDir.vocabFile
    rw [← hvn, vocabs_find inv.names hvm]
    rfl
  -- the identifier and the disk
  have hid : (∃ idFile, (match e.entry.codesId u with
      | some (_ :: _) => Except.ok e.idFile
      | _ => (createNewId u ((ensureCodes h.dirs d).map CodesDir.entry) path b given).bind fun id => .ok (some id)) = .ok idFile) ∧
      ∃ b', Supported b' ∧ History b' ⟨[], v.vocab, v.nonbpe⟩ [] ⟨e.subs, v.vocab, v.nonbpe⟩ := by
    rcases mem_ensureCodes he with he' | ⟨he', hnew⟩
    · constructor
      · obtain ⟨id, i1, i2⟩ := hok.ids e.entry (List.mem_map_of_mem he')
        rw [codesId_of i1 i2]
        cases id with
        | nil => exact absurd rfl i2.1
        | cons x r => exact ⟨_, rfl⟩
      · obtain ⟨b', v', h1, h2, h3, h4, h5, h6, h7⟩ := user_vocab hu hh he' hb hp (hed.trans hd.symm)
        have : v' = v := by
          have f := vocabs_find inv.names hvm
          rw [hvn, ← h3, h5] at f
          exact Option.some.inj f
        subst this
        exact ⟨b', h1, h7⟩
    · subst he'
      refine ⟨?_, b, hs, .start⟩
      obtain ⟨id, i1, -⟩ := canName_fresh hu d hok.learnt (hc hnew)
      refine ⟨some id, ?_⟩
      have e1 : (ensureCodes h.dirs d).map CodesDir.entry = h.dirs.map (·.entry) ++ [⟨d, none, []⟩] := by
        unfold ensureCodes
        rw [if_neg hnew, List.map_append]
        rfl
      rw [e1, i1]
      rfl
  obtain ⟨⟨idFile, hid⟩, b', hs', hist⟩ := hid
  obtain ⟨r, m, ms, w, l1, l2, l3, l4, l5⟩ := (C59_history_partial hs' hready hist).2 n
  rw [learnOnDisk_supported hs' hs] at l1
  refine ⟨{ h with codes := some ((ensureCodes h.dirs d).map fun x => if x.name = d then ⟨x.name, idFile, (LearnDisk.save ⟨e.subs, v.vocab, v.nonbpe⟩ r).dirs⟩ else x) },
    ⟨e.name, idFile, (LearnDisk.save ⟨e.subs, v.vocab, v.nonbpe⟩ r).dirs⟩, m, ms, w, ?_, ?_, hed, l2, l3, l4, l5⟩
  · unfold UserDir.learn
    simp only [hd, hf]
    simp only [bind, Except.bind, hdisk, l1] at hid ⊢
    split at hid
    · next hcd => rw [hcd]; cases hid; rfl
    · next hcd =>
      split
      · next h1 => exact absurd h1 (hcd _ _)
      · cases hcr : createNewId u ((ensureCodes h.dirs d).map CodesDir.entry) path b given with
        | error x => rw [hcr] at hid; cases hid
        | ok id => rw [hcr] at hid; cases hid; rfl
  · exact List.mem_map.mpr ⟨e, he, if_pos hed⟩

end

/-- The entry of a directory in the list of identifiers. -/
def codesEntry (u : Ucd) (d : BpeDir) : Option (Str × Int) :=
  match d.codesId u, getMaxMerges d.subdirs sysMaxsize with
  | some id, some m => some (id, m)
  | _, _ => none

theorem allCodesLoop_distinct (u : Ucd) (reg : Registry) : ∀ acc : Dict Str Int, (∀ d ∈ reg, d.codesId u ≠ some []) →
    (reg.map (·.codesId u)).Nodup → (∀ d ∈ reg, ∀ id, d.codesId u = some id → id ∉ acc.keys) →
    allCodesLoop u acc reg = acc ++ reg.filterMap (codesEntry u) := by
  induction reg with
  | nil => intro acc _ _ _; simp [allCodesLoop]
  | cons d reg ih =>
    intro acc h1 h2 h3
    rw [List.map_cons, List.nodup_cons] at h2
    have next := fun acc' => ih acc' (fun x hx => h1 x (List.mem_cons_of_mem _ hx)) h2.2
    unfold allCodesLoop
    split
    · next c i m hc hm =>
      have hm0 : m ≠ 0 := by
        have := ((getMaxMerges_iff _ _ _).mp hm).2.1
        omega
      have hnew := h3 d List.mem_cons_self _ hc
      rw [if_neg hm0, Dict.set_of_not_mem _ _ _ hnew, next, List.filterMap_cons]
      · have : codesEntry u d = some (c :: i, m) := by unfold codesEntry; rw [hc, hm]
        rw [this]
        simp
      · intro x hx id hi hk
        unfold Dict.keys at hk
        rw [List.map_append, List.mem_append] at hk
        rcases hk with hk | hk
        · exact h3 x (List.mem_cons_of_mem _ hx) id hi hk
        · simp at hk
          subst hk
          exact h2.1 (List.mem_map.mpr ⟨x, hx, hi.trans hc.symm⟩)
    · next hno =>
      rw [next _ fun x hx => h3 x (List.mem_cons_of_mem _ hx), List.filterMap_cons]
      have : codesEntry u d = none := by
        unfold codesEntry
        cases hc : d.codesId u with
        | none => rfl
        | some id =>
          cases hm : getMaxMerges d.subdirs sysMaxsize with
          | none => rfl
          | some m =>
            cases id with
            | nil => exact absurd hc (h1 d List.mem_cons_self)
            | cons c i => exact absurd hm (hno c i m hc)
      rw [this]

/-- **C69** The list of identifiers, which is shown when an unknown one is used, has one line for each dataset for which merges have
been learnt: its identifier and the greatest number of merges. -/
theorem C69_available {u : Ucd} (hu : u.Laws) {reg : Registry} (h : LearnHistory u reg) :
    ∃ l : List (Str × Int), formatAvailable u reg = (l.map fun e => e.1 ++ "-[1..".toList ++ intStr e.2 ++ "]\n".toList).flatten ∧
      (l.map (·.1)).Nodup ∧ l.length = reg.length ∧ ∀ id m, (id, m) ∈ l ↔ ∃ d ∈ reg, d.codesId u = some id ∧ Learnt d m ∧ 0 < m ∧ m ≤ sysMaxsize ∧
        ∀ k, Learnt d k → k ≤ sysMaxsize → k ≤ m := by
  have hok := history_ok hu h
  obtain ⟨hnd, -⟩ := C40_history_partial hu h
  have hne : ∀ d ∈ reg, d.codesId u ≠ some [] := by
    intro d hd e
    obtain ⟨id, i1, i2⟩ := hok.ids d hd
    rw [codesId_of i1 i2] at e
    exact i2.1 (Option.some.inj e)
  have he : allCodes u reg = reg.filterMap (codesEntry u) := by
    unfold allCodes
    rw [allCodesLoop_distinct u reg [] hne hnd (by simp [Dict.keys])]
    rfl
  have hsome : ∀ d ∈ reg, ∃ id m, codesEntry u d = some (id, m) ∧ d.codesId u = some id := by
    intro d hd
    obtain ⟨id, i1, i2⟩ := hok.ids d hd
    obtain ⟨k, k1, k2, k3⟩ := hok.learnt d hd
    cases hm : getMaxMerges d.subdirs sysMaxsize with
    | none =>
      have := ((C39_none d sysMaxsize).2.1 hm) k ⟨natStr k, k3, pyInt_natStr k⟩ (by omega)
      omega
    | some m => exact ⟨id, m, by unfold codesEntry; rw [codesId_of i1 i2, hm], codesId_of i1 i2⟩
  refine ⟨reg.filterMap (codesEntry u), ?_, ?_, ?_, ?_⟩
  · unfold formatAvailable
    rw [he, concat_eq_flatten]
  · clear he hok h hne
    induction reg with
    | nil => exact .nil
    | cons d reg ih =>
      rw [List.map_cons, List.nodup_cons] at hnd
      obtain ⟨id, m, h1, h2⟩ := hsome d List.mem_cons_self
      rw [List.filterMap_cons, h1]
      simp only [List.map_cons, List.nodup_cons]
      refine ⟨?_, ih hnd.2 fun x hx => hsome x (List.mem_cons_of_mem _ hx)⟩
      intro hm
      obtain ⟨e, he, hid⟩ := List.mem_map.mp hm
      obtain ⟨x, hx, hxe⟩ := List.mem_filterMap.mp he
      obtain ⟨id', m', g1, g2⟩ := hsome x (List.mem_cons_of_mem _ hx)
      rw [g1] at hxe
      cases hxe
      simp only at hid
      subst hid
      exact hnd.1 (List.mem_map.mpr ⟨x, hx, g2.trans h2.symm⟩)
  · clear he hok h hne hnd
    induction reg with
    | nil => rfl
    | cons d reg ih =>
      obtain ⟨id, m, h1, h2⟩ := hsome d List.mem_cons_self
      rw [List.filterMap_cons, h1]
      simp only [List.length_cons]
      rw [ih fun x hx => hsome x (List.mem_cons_of_mem _ hx)]
  · intro id m
    rw [List.mem_filterMap]
    constructor
    · rintro ⟨d, hd, hde⟩
      unfold codesEntry at hde
      split at hde
      · next h1 h2 =>
        cases hde
        obtain ⟨g1, g2, g3, g4⟩ := (C39_max d sysMaxsize m).mp h2
        exact ⟨d, hd, h1, g1, g2, g3, g4⟩
      · cases hde
    · rintro ⟨d, hd, h1, g1, g2, g3, g4⟩
      refine ⟨d, hd, ?_⟩
      unfold codesEntry
      rw [h1, (C39_max d sysMaxsize m).mpr ⟨g1, g2, g3, g4⟩]

/-- **C69** The vocabulary of a preprocessed corpus is what is in its file; without `calc_vocab` there is none. -/
theorem C69_corpus (file : Str → Option Str) :
    corpusLoadVocab none file = .error .valueError ∧ corpusLoadVocab (some []) file = .error .valueError ∧
    (∀ p t, p ≠ [] → file p = some t → corpusLoadVocab (some p) file = loadVocabDict t) ∧
    ∀ p, p ≠ [] → file p = none → corpusLoadVocab (some p) file = .error .fileNotFound := by
  refine ⟨rfl, rfl, fun p t hp ht => ?_, fun p hp ht => ?_⟩
  · cases p with
    | nil => exact absurd rfl hp
    | cons c p => simp only [corpusLoadVocab, ht]; rfl
  · cases p with
    | nil => exact absurd rfl hp
    | cons c p => simp only [corpusLoadVocab, ht]; rfl

/-! ## Examples and what does not hold -/

/-- The vocabularies of two datasets. -/
def abcVocab : VocabDir := ⟨"p_1_-_u0EFsu".toList, some "abc\t1\n".toList, some []⟩
def xyVocab : VocabDir := ⟨"q_1_-_u0EFsu".toList, some "xy\t2\n".toList, some []⟩

/-- Their words. -/
def twoWords (dir : Str) : List (Str × Nat) × List Str :=
  if dir = "p_1_-_u0EFsu".toList then ([("abc".toList, 1)], []) else ([("xy".toList, 2)], [])

/-- The directory with one merge of the second dataset. -/
def xy1 : MergesDir :=
  ⟨"1".toList, some "xy\t2\n@\t2\n".toList, some "xy@\txy @\n".toList, some "x y 2\n".toList, some "xy @\t2\n".toList⟩

/-- The user's directories after learning three merges from the first dataset and one from the second. -/
def twoHome (id : Str) : UserDir := ⟨some [⟨"p_1".toList, some "p".toList, [abc3]⟩, ⟨"q_1".toList, some id, [xy1]⟩], [abcVocab, xyVocab]⟩

theorem oneHome_learn : UserDir.learn asciiUcd ⟨none, [abcVocab]⟩ "/x/p".toList "p_1".toList plainSettings none 3 =
    .ok ⟨some [⟨"p_1".toList, some "p".toList, [abc3]⟩], [abcVocab]⟩ := by
  decide +kernel

theorem twoHome_learn : UserDir.learn asciiUcd ⟨some [⟨"p_1".toList, some "p".toList, [abc3]⟩], [abcVocab, xyVocab]⟩ "/y/q".toList "q_1".toList
    plainSettings none 1 = .ok (twoHome "q".toList) := by
  decide +kernel

theorem plainSettings_config : IsBpeConfig plainSettings := ⟨_, _, _, _, (by decide +kernel :
  BpeConfig.make "yes".toList false "code".toList "yes".toList = .ok plainSettings)⟩

theorem plainName_p : PlainDataset "p_1".toList := by
  refine ⟨by decide, ?_⟩
  rintro ⟨p, q, e⟩
  have hl := congrArg List.length e
  simp at hl
  match p, e with
  | [], e => simp at e
  | [_], e => simp at e
  | [_, _], e => simp at e
  | _ :: _ :: _ :: _, _ => simp at hl; omega

theorem plainName_q : PlainDataset "q_1".toList := by
  refine ⟨by decide, ?_⟩
  rintro ⟨p, q, e⟩
  have hl := congrArg List.length e
  simp at hl
  match p, e with
  | [], e => simp at e
  | [_], e => simp at e
  | [_, _], e => simp at e
  | _ :: _ :: _ :: _, _ => simp at hl; omega

/-- The theorems above apply to two datasets. -/
theorem twoHome_history : UserHistory asciiUcd twoWords (twoHome "q".toList) := by
  have h1 : UserHistory asciiUcd twoWords ⟨none, [abcVocab]⟩ :=
    .vocab abcVocab .start (by simp) (by
      have e : twoWords abcVocab.name = ([("abc".toList, 1)], []) := by decide +kernel
      rw [e]
      exact abc_ready)
  have h2 : UserHistory asciiUcd twoWords ⟨some [⟨"p_1".toList, some "p".toList, [abc3]⟩], [abcVocab]⟩ :=
    .learn "/x/p".toList "p_1".toList plainSettings none 3 h1 plainSettings_config plainName_p (by decide +kernel) oneHome_learn
      fun _ => ⟨.made (by unfold Storable; decide +kernel) (by unfold NoSpecial; decide +kernel),
        ⟨"p_1".toList, some "p".toList, [abc3]⟩, by simp [UserDir.dirs], by decide +kernel, abc3, by simp, 3, by decide +kernel, by decide, by decide⟩
  have h3 : UserHistory asciiUcd twoWords ⟨some [⟨"p_1".toList, some "p".toList, [abc3]⟩], [abcVocab, xyVocab]⟩ :=
    .vocab xyVocab h2 (by decide +kernel) (by
      have e : twoWords xyVocab.name = ([("xy".toList, 2)], []) := by decide +kernel
      rw [e]
      exact ⟨rfl, ⟨_, rfl, by decide +kernel⟩, ⟨_, rfl, by decide +kernel⟩, by decide, by decide, by decide, by simp⟩)
  exact .learn "/y/q".toList "q_1".toList plainSettings none 1 h3 plainSettings_config plainName_q (by decide +kernel) twoHome_learn
    fun _ => ⟨.made (by unfold Storable; decide +kernel) (by unfold NoSpecial; decide +kernel),
      ⟨"q_1".toList, some "q".toList, [xy1]⟩, by simp [UserDir.dirs, twoHome], by decide +kernel, xy1, by simp, 1, by decide +kernel, by decide, by decide⟩

/-- What is loaded for the second one. -/
example : (twoHome "q".toList).loadBase asciiUcd "q".toList = .ok [("xy".toList, 2)] ∧
    (twoHome "q".toList).loadBpe asciiUcd "q".toList 1 = .ok [("xy".toList, 2), ("@".toList, 2)] ∧
    (twoHome "q".toList).loadBpe asciiUcd "q".toList 3 = .error .invalidBpeCodesId ∧
    formatAvailable asciiUcd ((twoHome "q".toList).dirs.map (·.entry)) = "p-[1..3]\nq-[1..1]\n".toList := by
  refine ⟨by decide +kernel, by decide +kernel, by decide +kernel, by decide +kernel⟩

/-- **C69 is violated** by identifiers given twice: the second dataset gets the identifier of the first, but with it the words and merges
of the first dataset are loaded, and its own are not reachable. -/
theorem C69_given_violated :
    UserDir.learn asciiUcd ⟨some [⟨"p_1".toList, some "p".toList, [abc3]⟩], [abcVocab, xyVocab]⟩ "/y/q".toList "q_1".toList plainSettings
      (some "p".toList) 1 = .ok (twoHome "p".toList) ∧
    (twoHome "p".toList).loadAll asciiUcd "p".toList = .ok [("abc".toList, 1)] ∧
    (twoHome "p".toList).loadBpe asciiUcd "p".toList 1 = .error .invalidBpeCodesId := by
  refine ⟨by decide +kernel, by decide +kernel, by decide +kernel⟩

/-- **C69 is violated** by datasets with `_-_` in their names: merges are learnt, but the words are not found. -/
theorem C69_separator_violated :
    let v : VocabDir := ⟨"a_-_b_1_-_u0EFsu".toList, some "abc\t1\n".toList, some []⟩
    let h : UserDir := ⟨some [⟨"a_-_b_1".toList, some "a_-_b".toList, [abc3]⟩], [v]⟩
    UserDir.learn asciiUcd ⟨none, [v]⟩ "/x/a_-_b".toList "a_-_b_1".toList plainSettings none 3 = .ok h ∧
    h.loadAll asciiUcd "a_-_b".toList = .error .fileNotFound ∧ h.loadBpe asciiUcd "a_-_b".toList 3 = .ok [("abc@".toList, 1)] := by
  refine ⟨by decide +kernel, by decide +kernel, by decide +kernel⟩

end Verif.Props
