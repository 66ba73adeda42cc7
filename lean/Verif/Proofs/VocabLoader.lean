import Verif.Spec.VocabLoader
import Verif.Props.LearnDisk
import Verif.Props.NewId
import Verif.Props.DirNames
/-!
# The user's directories after any history of learning (for C69)
-/
namespace Verif.Props
open Verif Spec

theorem ensureCodes_entry (cs : List CodesDir) (d : Str) : (ensureCodes cs d).map CodesDir.entry = ensureDir (cs.map CodesDir.entry) d := by
  unfold ensureCodes ensureDir
  have e : (cs.map CodesDir.entry).map (·.name) = cs.map (·.name) := by rw [List.map_map]; rfl
  rw [e]
  split
  · rfl
  · simp [CodesDir.entry]

theorem find_entry (cs : List CodesDir) (d : Str) :
    (cs.map CodesDir.entry).find? (fun x => decide (x.name = d)) = (cs.find? (fun x => decide (x.name = d))).map CodesDir.entry := by
  rw [List.find?_map]
  rfl

theorem mem_ensureCodes {cs : List CodesDir} {d : Str} {c : CodesDir} (h : c ∈ ensureCodes cs d) :
    c ∈ cs ∨ c = ⟨d, none, []⟩ ∧ d ∉ cs.map (·.name) := by
  unfold ensureCodes at h
  split at h
  · exact .inl h
  · next hn =>
    rcases List.mem_append.mp h with h | h
    · exact .inl h
    · exact .inr ⟨by simpa using h, hn⟩

theorem ensureCodes_nodup {cs : List CodesDir} (d : Str) (h : (cs.map (·.name)).Nodup) : ((ensureCodes cs d).map (·.name)).Nodup := by
  unfold ensureCodes
  split
  · exact h
  · next hn =>
    rw [List.map_append, List.nodup_append]
    refine ⟨h, by simp, ?_⟩
    rintro a ha b hb rfl
    simp at hb
    subst hb
    exact hn ha

theorem codes_inj {cs : List CodesDir} (h : (cs.map (·.name)).Nodup) {c c' : CodesDir} (h1 : c ∈ cs) (h2 : c' ∈ cs)
    (he : c.name = c'.name) : c = c' := by
  induction cs with
  | nil => cases h1
  | cons x r ih =>
    rw [List.map_cons, List.nodup_cons] at h
    rcases List.mem_cons.mp h1 with k1 | k1 <;> rcases List.mem_cons.mp h2 with k2 | k2
    · rw [k1, k2]
    · exact absurd (k1 ▸ he ▸ List.mem_map_of_mem (f := (·.name)) k2) h.1
    · exact absurd (k2 ▸ he ▸ List.mem_map_of_mem (f := (·.name)) k1) h.1
    · exact ih h.2 k1 k2

theorem dirs_of {h : UserDir} {cs : List CodesDir} (hc : h.codes = some cs) : h.dirs = cs := by
  unfold UserDir.dirs
  rw [hc]

/-- What a run that succeeds does to the user's directories. -/
theorem learn_shape {u : Ucd} {h h' : UserDir} {path dn : Str} {b : BpeConfig} {given : Option Str} {n : Int}
    (hl : h.learn u path dn b given n = .ok h') (hn : (h.dirs.map (·.name)).Nodup) (d : Str) (hd : d = bpeDirName dn (some b)) :
    ∃ e r idFile reg', e ∈ ensureCodes h.dirs d ∧ e.name = d ∧ learnOnDisk b (h.disk e.subs (baseBpeVocabDirName dn b)) n = .ok r ∧
      prepareLearning u (h.dirs.map (·.entry)) path b given d = .ok reg' ∧
      reg' = (ensureCodes h.dirs d).map (fun x => if x.name = d then ⟨x.name, idFile, x.entry.subdirs⟩ else x.entry) ∧
      h'.vocabs = h.vocabs ∧
      h'.codes = some ((ensureCodes h.dirs d).map fun x => if x.name = d then
        ⟨x.name, idFile, ((h.disk e.subs (baseBpeVocabDirName dn b)).save r).dirs⟩ else x) := by
  unfold UserDir.learn at hl
  rw [← hd] at hl
  simp only at hl
  cases hf : (ensureCodes h.dirs d).find? (fun x => decide (x.name = d)) with
  | none => rw [hf] at hl; cases hl
  | some e =>
    rw [hf] at hl
    have he : e ∈ ensureCodes h.dirs d := List.mem_of_find?_eq_some hf
    have hed : e.name = d := by simpa using List.find?_some hf
    have hp : prepareLearning u (h.dirs.map (·.entry)) path b given d = (match e.entry.codesId u with
        | some (_ :: _) => .ok ((ensureCodes h.dirs d).map CodesDir.entry)
        | _ => assignId u ((ensureCodes h.dirs d).map CodesDir.entry) path b given d) := by
      unfold prepareLearning
      simp only
      rw [show List.map (fun x => x.entry) h.dirs = h.dirs.map CodesDir.entry from rfl, ← ensureCodes_entry, find_entry, hf]
      rfl
    have hnd := ensureCodes_nodup d hn
    simp only [bind, Except.bind] at hl
    split at hl
    · next c id hc =>
      rw [hc] at hp
      simp only at hp hl
      cases hr : learnOnDisk b (h.disk e.subs (baseBpeVocabDirName dn b)) n with
      | error x => rw [hr] at hl; cases hl
      | ok r =>
        rw [hr] at hl
        obtain rfl := Except.ok.inj hl
        refine ⟨e, r, e.idFile, _, he, hed, hr, hp, ?_, rfl, rfl⟩
        apply List.map_congr_left
        intro x hx
        split
        · next hxd =>
          have : x = e := codes_inj hnd hx he (hxd.trans hed.symm)
          subst this
          rfl
        · rfl
    · next hc =>
      have hp' : prepareLearning u (h.dirs.map (·.entry)) path b given d =
          assignId u ((ensureCodes h.dirs d).map CodesDir.entry) path b given d := by
        rw [hp]
        split
        · next h1 => exact absurd h1 (hc _ _)
        · rfl
      unfold assignId at hp'
      cases hi : createNewId u ((ensureCodes h.dirs d).map CodesDir.entry) path b given with
      | error x => rw [hi] at hl; cases hl
      | ok id =>
        rw [hi] at hl hp'
        simp only [bind, Except.bind] at hl hp'
        cases hr : learnOnDisk b (h.disk e.subs (baseBpeVocabDirName dn b)) n with
        | error x => rw [hr] at hl; cases hl
        | ok r =>
          rw [hr] at hl
          obtain rfl := Except.ok.inj hl
          refine ⟨e, r, some id, _, he, hed, hr, hp', ?_, rfl, rfl⟩
          rw [List.map_map]
          apply List.map_congr_left
          intro x _
          rfl

/-- The registry is that of a history of learning runs. -/
theorem learn_registry {u : Ucd} (hu : u.Laws) {h h' : UserDir} {path dn : Str} {b : BpeConfig} {given : Option Str} {n : Int}
    (hh : LearnHistory u (h.dirs.map (·.entry))) (hl : h.learn u path dn b given n = .ok h')
    (hc : bpeDirName dn (some b) ∉ h.dirs.map (·.name) → CanName u (h.dirs.map (·.entry)) path b given ∧
      ∃ c ∈ h'.dirs, c.name = bpeDirName dn (some b) ∧ ∃ m ∈ c.subs, ∃ k, m.name = natStr k ∧ 1 ≤ k ∧ k ≤ sysMaxsize) :
    LearnHistory u (h'.dirs.map (·.entry)) := by
  obtain ⟨i1, i2, i3, i4⟩ := history_ok hu hh
  have hnm : (h.dirs.map (·.entry)).map (·.name) = h.dirs.map (·.name) := by rw [List.map_map]; rfl
  rw [hnm] at i1
  generalize hd : bpeDirName dn (some b) = d at hc
  obtain ⟨e, r, idFile, reg', he, hed, hr, hp, hreg, -, hcs⟩ := learn_shape hl i1 d hd.symm
  have hnd := ensureCodes_nodup d i1
  have hdirs : h'.dirs = (ensureCodes h.dirs d).map fun x => if x.name = d then
      ⟨x.name, idFile, ((h.disk e.subs (baseBpeVocabDirName dn b)).save r).dirs⟩ else x := dirs_of hcs
  -- the number of merges of the run
  have hk : ∃ k : Nat, (d ∉ h.dirs.map (·.name) → 1 ≤ k ∧ k ≤ sysMaxsize) ∧
      ((h.disk e.subs (baseBpeVocabDirName dn b)).save r).dirs.map (·.name) =
        if natStr k ∉ e.subs.map (·.name) then e.subs.map (·.name) ++ [natStr k] else e.subs.map (·.name) := by
    cases r with
    | some m =>
      obtain ⟨hm, k, hk⟩ := result_name hr
      refine ⟨k, fun hnew => ?_, ?_⟩
      · obtain ⟨-, c, hcm, hcd, m', hm', k', hk', h1, h2⟩ := hc hnew
        rw [hdirs] at hcm
        obtain ⟨x, hx, hxc⟩ := List.mem_map.mp hcm
        have hxd : x.name = d := by
          by_cases hxd : x.name = d
          · exact hxd
          · rw [if_neg hxd] at hxc; rw [hxc]; exact hcd
        rw [if_pos hxd] at hxc
        subst hxc
        have hes : e.subs = [] := by
          rcases mem_ensureCodes he with he' | ⟨he', -⟩
          · exact absurd (hed ▸ List.mem_map_of_mem (f := (·.name)) he') hnew
          · rw [he']
        simp only [LearnDisk.save, UserDir.disk, hes, List.nil_append, List.mem_singleton] at hm'
        subst hm'
        have : k = k' := natStr_inj (hk.symm.trans hk')
        omega
      · have hm' : m.name ∉ e.subs.map (·.name) := hm
        rw [← hk, if_pos hm']
        simp [LearnDisk.save, UserDir.disk]
    | none =>
      by_cases hnew : d ∈ h.dirs.map (·.name)
      · have he' : e ∈ h.dirs := by
          rcases mem_ensureCodes he with he' | ⟨-, he'⟩
          · exact he'
          · exact absurd hnew he'
        obtain ⟨k, -, -, h3⟩ := i3 e.entry (List.mem_map_of_mem he')
        refine ⟨k, fun h => absurd hnew h, ?_⟩
        rw [if_neg fun h => h h3]
        rfl
      · exfalso
        obtain ⟨-, c, hcm, hcd, m', hm', -⟩ := hc hnew
        rw [hdirs] at hcm
        obtain ⟨x, hx, hxc⟩ := List.mem_map.mp hcm
        have hxd : x.name = d := by
          by_cases hxd : x.name = d
          · exact hxd
          · rw [if_neg hxd] at hxc; rw [hxc]; exact hcd
        rw [if_pos hxd] at hxc
        subst hxc
        have hes : e.subs = [] := by
          rcases mem_ensureCodes he with he' | ⟨he', -⟩
          · exact absurd (hed ▸ List.mem_map_of_mem (f := (·.name)) he') hnew
          · rw [he']
        simp [LearnDisk.save, UserDir.disk, hes] at hm'
  obtain ⟨k, hk1, hk2⟩ := hk
  have key : h'.dirs.map (·.entry) = saveMerges reg' d k := by
    rw [hdirs, hreg]
    unfold saveMerges
    rw [List.map_map, List.map_map]
    apply List.map_congr_left
    intro x hx
    simp only [Function.comp_def]
    by_cases hxd : x.name = d
    · obtain rfl : x = e := codes_inj hnd hx he (hxd.trans hed.symm)
      rw [if_pos hxd, if_pos hxd]
      change (⟨x.name, idFile, ((h.disk x.subs (baseBpeVocabDirName dn b)).save r).dirs.map (·.name)⟩ : BpeDir) =
        if x.name = d ∧ natStr k ∉ x.subs.map (·.name) then ⟨x.name, idFile, x.subs.map (·.name) ++ [natStr k]⟩
        else ⟨x.name, idFile, x.subs.map (·.name)⟩
      rw [hk2]
      by_cases hs : natStr k ∈ x.subs.map (·.name)
      · have n1 : ¬ natStr k ∉ x.subs.map (·.name) := fun h => h hs
        have n2 : ¬ (x.name = d ∧ natStr k ∉ x.subs.map (·.name)) := fun h => h.2 hs
        rw [if_neg n1, if_neg n2]
      · have n2 : x.name = d ∧ natStr k ∉ x.subs.map (·.name) := ⟨hxd, hs⟩
        rw [if_pos hs, if_pos n2]
    · rw [if_neg hxd, if_neg hxd, if_neg (fun h => hxd h.1)]
  rw [key]
  refine .learn hh path b given d k (fun hnew => ?_) hp
  rw [hnm] at hnew
  exact ⟨(hk1 hnew).1, (hk1 hnew).2, (hc hnew).1⟩

/-- The invariant of such histories. -/
structure UserInv (u : Ucd) (words : Str → List (Str × Nat) × List Str) (h : UserDir) : Prop where
  registry : LearnHistory u (h.dirs.map (·.entry))
  names : (h.vocabs.map (·.name)).Nodup
  ready : ∀ v ∈ h.vocabs, Ready (words v.name).1 (words v.name).2 ⟨[], v.vocab, v.nonbpe⟩
  dirs : ∀ c ∈ h.dirs, ∃ dn b v, PlainDataset dn ∧ IsBpeConfig b ∧ Supported b ∧ c.name = bpeDirName dn (some b) ∧ v ∈ h.vocabs ∧
    v.name = baseBpeVocabDirName dn b ∧ History b ⟨[], v.vocab, v.nonbpe⟩ [] ⟨c.subs, v.vocab, v.nonbpe⟩

theorem vocabs_find {l : List VocabDir} (h : (l.map (·.name)).Nodup) {v : VocabDir} (hm : v ∈ l) :
    l.find? (fun x => decide (x.name = v.name)) = some v := by
  induction l with
  | nil => cases hm
  | cons x r ih =>
    rw [List.map_cons, List.nodup_cons] at h
    rw [List.find?_cons]
    rcases List.mem_cons.mp hm with rfl | hm
    · simp
    · have : x.name ≠ v.name := fun e => h.1 (e ▸ List.mem_map_of_mem (f := (·.name)) hm)
      simp only [this, decide_false]
      exact ih h.2 hm

theorem learnOnDisk_supported {b b' : BpeConfig} (h : Supported b) (h' : Supported b') (d : LearnDisk) (n : Int) :
    learnOnDisk b d n = learnOnDisk b' d n := by
  unfold learnOnDisk
  rw [supported_ok h, supported_ok h']

theorem taint_nil (d : LearnDisk) (n : Int) (r : Option MergesDir) : taint [] d n r = [] := by
  unfold taint
  split <;> simp

theorem user_inv {u : Ucd} (hu : u.Laws) {words : Str → List (Str × Nat) × List Str} {h : UserDir} (hh : UserHistory u words h) :
    UserInv u words h := by
  induction hh with
  | start => exact ⟨.nil, .nil, by simp, by simp [UserDir.dirs]⟩
  | @vocab h v _ hn hr ih =>
    refine ⟨ih.registry, ?_, ?_, ?_⟩
    · simp only [List.map_append, List.map_cons, List.map_nil, List.nodup_append]
      refine ⟨ih.names, by simp, ?_⟩
      rintro a ha b hb rfl
      simp at hb
      subst hb
      exact hn ha
    · intro x hx
      rcases List.mem_append.mp hx with hx | hx
      · exact ih.ready x hx
      · simp at hx; subst hx; exact hr
    · intro c hc
      obtain ⟨dn, b, v', h1, h2, h3, h4, h5, h6, h7⟩ := ih.dirs c hc
      exact ⟨dn, b, v', h1, h2, h3, h4, List.mem_append_left _ h5, h6, h7⟩
  | @reorder h cs cs' _ hcs hp ih =>
    have e : h.dirs = cs := dirs_of hcs
    refine ⟨.reorder (reg := h.dirs.map (·.entry)) ih.registry ?_, ih.names, ih.ready, ?_⟩
    · rw [e]; exact hp.map _
    · intro c hc
      exact ih.dirs c (by rw [e]; exact hp.mem_iff.mp hc)
  | @learn h h' path dn b given n _ hb hpl hv hl hc ih =>
    have hreg := learn_registry hu ih.registry hl hc
    have hn : (h.dirs.map (·.name)).Nodup := by
      have := (history_ok hu ih.registry).names
      rw [List.map_map] at this
      exact this
    obtain ⟨e, r, idFile, reg', he, hed, hr, -, -, hvs, hcs⟩ := learn_shape hl hn _ rfl
    have hsup : Supported b := by
      by_cases hs : Supported b
      · exact hs
      · rw [C59_unsupported b hs] at hr; cases hr
    obtain ⟨v, hvm, hvn⟩ := List.mem_map.mp hv
    have hdisk : h.disk e.subs (baseBpeVocabDirName dn b) = ⟨e.subs, v.vocab, v.nonbpe⟩ := by
      unfold UserDir.disk UserDir.vocabFile
      rw [← hvn, vocabs_find ih.names hvm]
      rfl
    rw [hdisk] at hr hcs
    have hdirs := dirs_of hcs
    refine ⟨hreg, by rw [hvs]; exact ih.names, by rw [hvs]; exact ih.ready, ?_⟩
    rw [hvs, hdirs]
    intro c hcm
    obtain ⟨x, hx, hxc⟩ := List.mem_map.mp hcm
    by_cases hxd : x.name = bpeDirName dn (some b)
    · rw [if_pos hxd] at hxc
      subst hxc
      rcases mem_ensureCodes he with he' | ⟨he', -⟩
      · obtain ⟨dn1, b1, v1, h1, h2, h3, h4, h5, h6, h7⟩ := ih.dirs e he'
        have eb : baseBpeVocabDirName dn b = baseBpeVocabDirName dn1 b1 := by
          have c1 := C43_base_dir_partial hb hpl.1 hpl.2
          have c2 := C43_base_dir_partial h2 h1.1 h1.2
          rw [← h4, hed, c1] at c2
          exact Except.ok.inj c2
        obtain rfl : v = v1 := by
          have f1 := vocabs_find ih.names hvm
          have f2 := vocabs_find ih.names h5
          rw [h6, ← eb, ← hvn, f1] at f2
          exact Option.some.inj f2
        refine ⟨dn1, b1, v, h1, h2, h3, hxd.trans (hed.symm.trans h4), hvm, h6, ?_⟩
        rw [learnOnDisk_supported hsup h3] at hr
        have := History.run h7 hr
        rw [taint_nil] at this
        cases r <;> exact this
      · rw [he'] at hr ⊢
        have := History.run (b := b) (d0 := ⟨[], v.vocab, v.nonbpe⟩) .start hr
        rw [taint_nil] at this
        refine ⟨dn, b, v, hpl, hb, hsup, hxd, hvm, hvn, ?_⟩
        cases r <;> exact this
    · rw [if_neg hxd] at hxc
      subst hxc
      rcases mem_ensureCodes hx with hx | ⟨hx, -⟩
      · exact ih.dirs x hx
      · exact absurd (by rw [hx]) hxd

end Verif.Props
