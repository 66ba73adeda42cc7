import Verif.Spec.Abort
import Verif.Props.VocabLoader
/-!
# What runs that are killed or fail leave alone (for C85)
-/
namespace Verif.Props
open Verif Spec

/-- What stays as it is. -/
structure Keeps (u : Ucd) (id vd : Str) (P : Str → Prop) (h0 : UserDir) (c : CodesDir) (h : UserDir) : Prop where
  names : (h.dirs.map (·.name)).Nodup
  dir : ∃ c' ∈ h.dirs, c'.name = c.name ∧ c'.idFile = c.idFile ∧ ∃ xs, c'.subs = c.subs ++ xs ∧
    (∀ x ∈ xs, x.name ∉ c.subs.map (·.name)) ∧ (xs = [] ∨ P c.name)
  unique : ∀ x ∈ h.dirs, x.entry.codesId u = some id → x.name = c.name
  vocab : h.vocabs.find? (fun x => decide (x.name = vd)) = h0.vocabs.find? (fun x => decide (x.name = vd))

section
variable {u : Ucd} {id vd : Str} {P : Str → Prop} {h0 h : UserDir} {c : CodesDir}

theorem Keeps.create (k : Keeps u id vd P h0 c h) (d : Str) : Keeps u id vd P h0 c (h.create d) := by
  have e : (h.create d).dirs = ensureCodes h.dirs d := rfl
  refine ⟨by rw [e]; exact ensureCodes_nodup d k.names, ?_, ?_, k.vocab⟩
  · obtain ⟨c', h1, h2⟩ := k.dir
    refine ⟨c', ?_, h2⟩
    rw [e]
    unfold ensureCodes
    split
    · exact h1
    · exact List.mem_append_left _ h1
  · intro x hx hi
    rw [e] at hx
    rcases mem_ensureCodes hx with hx | ⟨hx, -⟩
    · exact k.unique x hx hi
    · subst hx; cases hi

theorem Keeps.update (k : Keeps u id vd P h0 c h) (d : Str) (f : CodesDir → CodesDir)
    (hf : ∀ x ∈ h.dirs, x.name = d → (f x).name = x.name ∧ ((f x).entry.codesId u = some id → x.name = c.name) ∧
      (x.name = c.name → (f x).idFile = x.idFile ∧ ∃ xs, (f x).subs = x.subs ++ xs ∧ (∀ y ∈ xs, y.name ∉ x.subs.map (·.name)) ∧
        (xs = [] ∨ P c.name))) : Keeps u id vd P h0 c (h.update d f) := by
  have e : (h.update d f).dirs = h.dirs.map fun x => if x.name = d then f x else x := rfl
  have hnm : ∀ x ∈ h.dirs, (if x.name = d then f x else x).name = x.name := by
    intro x hx
    split
    · next hd => exact (hf x hx hd).1
    · rfl
  refine ⟨?_, ?_, ?_, k.vocab⟩
  · rw [e, List.map_map]
    have : h.dirs.map ((·.name) ∘ fun x => if x.name = d then f x else x) = h.dirs.map (·.name) :=
      List.map_congr_left fun x hx => hnm x hx
    rw [this]
    exact k.names
  · obtain ⟨c', h1, h2, h3, xs, h4, h5, h6⟩ := k.dir
    refine ⟨if c'.name = d then f c' else c', by rw [e]; exact List.mem_map_of_mem h1, by rw [hnm c' h1, h2], ?_⟩
    by_cases hd : c'.name = d
    · obtain ⟨g1, -, g3⟩ := hf c' h1 hd
      obtain ⟨g4, ys, g5, g6, g7⟩ := g3 h2
      rw [if_pos hd]
      refine ⟨g4.trans h3, xs ++ ys, by rw [g5, h4, List.append_assoc], ?_, ?_⟩
      · intro y hy
        rcases List.mem_append.mp hy with hy | hy
        · exact h5 y hy
        · intro hm
          refine g6 y hy ?_
          rw [h4, List.map_append]
          exact List.mem_append_left _ hm
      · rcases h6 with h6 | h6
        · rcases g7 with g7 | g7
          · exact .inl (by rw [h6, g7]; rfl)
          · exact .inr g7
        · exact .inr h6
    · rw [if_neg hd]
      exact ⟨h3, xs, h4, h5, h6⟩
  · intro x hx hi
    rw [e] at hx
    obtain ⟨y, hy, rfl⟩ := List.mem_map.mp hx
    rw [hnm y hy]
    by_cases hd : y.name = d
    · rw [if_pos hd] at hi
      exact (hf y hy hd).2.1 hi
    · rw [if_neg hd] at hi
      exact k.unique y hy hi

/-- The directory keeps its identifier, and has the merges that were learnt. -/
theorem Keeps.hasId (k : Keeps u id vd P h0 c h) (o : Owns u h0 c id) :
    ∃ c' ∈ h.dirs, c'.name = c.name ∧ c'.entry.codesId u = some id ∧
      ∃ m ∈ c'.subs, ∃ k : Nat, m.name = natStr k ∧ 1 ≤ k ∧ k ≤ sysMaxsize := by
  obtain ⟨c', h1, h2, h3, xs, h4, -, -⟩ := k.dir
  obtain ⟨m, hm, hk⟩ := o.learnt
  refine ⟨c', h1, h2, ?_, m, by rw [h4]; exact List.mem_append_left _ hm, hk⟩
  rw [← o.has]
  unfold BpeDir.codesId
  change c'.idFile.map _ = c.idFile.map _
  rw [h3]

theorem Keeps.assign (k : Keeps u id vd P h0 c h) (hu : u.Laws) (o : Owns u h0 c id) {path : Str} {b : BpeConfig}
    {given : Option Str} {d : Str} (p : KillPoint) (hn : NamesOther u h d path b id given) :
    Keeps u id vd P h0 c (leftBy (h.assignUntil u path b given d p)) := by
  unfold UserDir.assignUntil
  cases hf : h.dirs.find? (fun x => decide (x.name = d)) with
  | none => exact k
  | some e =>
    have he : e ∈ h.dirs := List.mem_of_find?_eq_some hf
    have hed : e.name = d := by simpa using List.find?_some hf
    simp only
    split
    · exact k
    · next hid =>
      obtain ⟨c', h1, h2, h3, m, hm, j, hj⟩ := k.hasId o
      -- it is not the directory of the dataset
      have hne : d ≠ c.name := by
        rintro rfl
        have : e = c' := codes_inj k.names he h1 (hed.trans h2.symm)
        subst this
        cases hi : id with
        | nil => exact o.nonempty hi
        | cons a r => exact hid a r (by rw [h3, hi])
      split
      · exact k
      · next i hc =>
        -- the new identifier is another one
        have hi : ∀ x : CodesDir, ({ x with idFile := some i } : CodesDir).entry.codesId u ≠ some id := by
          intro x hx
          cases hn with
          | has y hy hyd i' hi' hi0 =>
            have : e = y := codes_inj k.names he hy (hed.trans hyd.symm)
            subst this
            cases i' with
            | nil => exact hi0 rfl
            | cons a r => exact hid a r hi'
          | given hs hne' =>
            rw [C40_given _ _ _ _ _ hs.1] at hc
            obtain rfl := Except.ok.inj hc
            rw [codesId_of rfl hs] at hx
            exact hne' (Option.some.inj hx)
          | made hg hs hsp =>
            have hc' : createNewId u (h.dirs.map CodesDir.entry) path b none = .ok i := by
              rcases hg with rfl | rfl
              · exact hc
              · exact hc
            obtain ⟨i2, g1, g2, g3⟩ := C40_fresh_partial u (h.dirs.map CodesDir.entry) path b hsp
            rw [hc'] at g1
            obtain rfl := Except.ok.inj g1
            have hst : Storable u i := by
              rcases g3 with g3 | ⟨q, -, g3⟩
              · rw [g3]; exact hs
              · rw [g3]; exact storable_numbered hu hs q
            rw [codesId_of rfl hst] at hx
            obtain rfl := Option.some.inj hx
            exact g2 ⟨hst.1, c'.entry, List.mem_map_of_mem h1, h3, j,
              ⟨natStr j, List.mem_map.mpr ⟨m, hm, hj.1⟩, pyInt_natStr j⟩, by omega, by omega⟩
        split
        · refine k.update d _ fun x hx hxd => ⟨rfl, fun hx' => ?_, fun hxc => absurd (hxd.symm.trans hxc) hne⟩
          have : (some (strip u (univNl [])) : Option Str) = some id := hx'
          have e0 : strip u (univNl []) = [] := rfl
          rw [e0] at this
          exact absurd (Option.some.inj this).symm o.nonempty
        · exact k.update d _ fun x hx hxd => ⟨rfl, fun hx' => absurd hx' (hi x), fun hxc => absurd (hxd.symm.trans hxc) hne⟩

theorem Keeps.save (k : Keeps u id vd P h0 c h) {dn : Str} {b : BpeConfig} {n : Int} {d : Str} (p : KillPoint) (hP : P d) :
    Keeps u id vd P h0 c (leftBy (h.saveUntil dn b n d p)) := by
  unfold UserDir.saveUntil
  cases hf : h.dirs.find? (fun x => decide (x.name = d)) with
  | none => exact k
  | some e =>
    have he : e ∈ h.dirs := List.mem_of_find?_eq_some hf
    have hed : e.name = d := by simpa using List.find?_some hf
    simp only
    split
    · exact k
    · exact k
    · next m hm =>
      have hnm := (result_name hm).1
      have key : ∀ m' : MergesDir, m'.name = m.name →
          Keeps u id vd P h0 c (h.update d fun x => { x with subs := x.subs ++ [m'] }) := by
        intro m' hm'
        refine k.update d _ fun x hx hxd => ⟨rfl, fun hx' => k.unique x hx hx', fun hxc => ⟨rfl, [m'], rfl, ?_, .inr ?_⟩⟩
        · obtain rfl : x = e := codes_inj k.names hx he (hxd.trans hed.symm)
          intro y hy
          rw [List.mem_singleton] at hy
          subst hy
          rw [hm']
          exact hnm
        · rw [← hxc, hxd]; exact hP
      split
      · exact key _ rfl
      · exact key _ rfl

theorem Keeps.learn (k : Keeps u id vd P h0 c h) (hu : u.Laws) (o : Owns u h0 c id) {path dn : Str} {b : BpeConfig}
    {given : Option Str} {n : Int} (p : KillPoint) (hP : P (bpeDirName dn (some b)))
    (hn : NamesOther u h (bpeDirName dn (some b)) path b id given) :
    Keeps u id vd P h0 c (leftBy (h.learnUntil u path dn b given n p)) := by
  unfold UserDir.learnUntil
  generalize bpeDirName dn (some b) = d at *
  have hn' : NamesOther u (h.create d) d path b id given := by
    cases hn with
    | has x hx hxd i hi h0 =>
      refine .has x ?_ hxd i hi h0
      change x ∈ ensureCodes h.dirs d
      unfold ensureCodes
      split
      · exact hx
      · exact List.mem_append_left _ hx
    | given hs hne => exact .given hs hne
    | made hg hs hsp => exact .made hg hs hsp
  have k1 := k.create d
  have k2 := k1.assign hu o p hn'
  simp only [bind, Except.bind]
  split
  · exact k1
  · cases ha : (h.create d).assignUntil u path b given d p with
    | error e => rw [ha] at k2; exact k2
    | ok h2 =>
      rw [ha] at k2
      simp only
      split
      · exact k2
      · exact Keeps.save k2 p hP

theorem attempts_keeps (hu : u.Laws) (o : Owns u h0 c id) (a : Attempts u id vd P h0 h) : Keeps u id vd P h0 c h := by
  induction a with
  | refl => exact ⟨o.names, ⟨c, o.mem, rfl, rfl, [], by simp, by simp, .inl rfl⟩, o.unique, rfl⟩
  | run path dn b given n p _ hP hn ih => exact ih.learn hu o p hP hn
  | vocabs vs _ hv ih => exact ⟨ih.names, ih.dir, ih.unique, hv.trans ih.vocab⟩
  | @reorder h cs cs' _ hcs hp ih =>
    have e : h.dirs = cs := dirs_of hcs
    obtain ⟨k1, ⟨c', k2, k3⟩, k4, k5⟩ := ih
    rw [e] at k1 k2 k4
    exact ⟨(hp.map _).nodup_iff.mpr k1, ⟨c', hp.mem_iff.mpr k2, k3⟩, fun x hx => k4 x (hp.mem_iff.mp hx), k5⟩

end

theorem update_dirs (h : UserDir) (d : Str) (f : CodesDir → CodesDir) :
    (h.update d f).dirs = h.dirs.map fun x => if x.name = d then f x else x := rfl

theorem update_find (h : UserDir) (d : Str) {f : CodesDir → CodesDir} (hf : ∀ x, (f x).name = x.name) :
    (h.update d f).dirs.find? (fun x => decide (x.name = d)) = (h.dirs.find? fun x => decide (x.name = d)).map f := by
  rw [update_dirs, List.find?_map]
  have e : ((fun x : CodesDir => decide (x.name = d)) ∘ fun x => if x.name = d then f x else x) = fun x => decide (x.name = d) := by
    funext x
    simp only [Function.comp_def]
    by_cases hx : x.name = d
    · rw [if_pos hx, hf]
    · rw [if_neg hx]
  rw [e]
  cases hx : h.dirs.find? (fun x => decide (x.name = d)) with
  | none => rfl
  | some x =>
    have hd : x.name = d := by simpa using List.find?_some hx
    simp only [Option.map_some, if_pos hd]

theorem update_update (h : UserDir) (d : Str) {f g : CodesDir → CodesDir} (hf : ∀ x, (f x).name = x.name) :
    (h.update d f).update d g = h.update d (g ∘ f) := by
  unfold UserDir.update
  congr 2
  change List.map _ (List.map _ h.dirs) = _
  rw [List.map_map]
  apply List.map_congr_left
  intro x _
  simp only [Function.comp_def]
  by_cases hx : x.name = d
  · rw [if_pos hx, if_pos (by rw [hf]; exact hx), if_pos hx]
  · rw [if_neg hx, if_neg hx, if_neg hx]

theorem update_congr (h : UserDir) (d : Str) {f g : CodesDir → CodesDir} (hf : ∀ x ∈ h.dirs, x.name = d → f x = g x) :
    h.update d f = h.update d g := by
  unfold UserDir.update
  congr 2
  apply List.map_congr_left
  intro x hx
  split
  · next hd => exact hf x hx hd
  · rfl

theorem update_names (h : UserDir) (d : Str) {f : CodesDir → CodesDir} (hf : ∀ x, (f x).name = x.name) :
    (h.update d f).dirs.map (·.name) = h.dirs.map (·.name) := by
  rw [update_dirs, List.map_map]
  apply List.map_congr_left
  intro x _
  simp only [Function.comp_def]
  split
  · exact hf x
  · rfl

theorem create_has (h : UserDir) (d : Str) : d ∈ (h.create d).dirs.map (·.name) := by
  change d ∈ (ensureCodes h.dirs d).map (·.name)
  unfold ensureCodes
  split
  · assumption
  · simp

theorem create_of_mem {h : UserDir} {d : Str} (hd : d ∈ h.dirs.map (·.name)) (hs : h.codes = some h.dirs) : h.create d = h := by
  cases h with
  | mk cs vs =>
    unfold UserDir.create ensureCodes
    rw [if_pos hd]
    exact congrArg (fun x => UserDir.mk x vs) hs.symm

theorem find_of_mem {l : List CodesDir} {d : Str} (hd : d ∈ l.map (·.name)) :
    ∃ e, l.find? (fun x => decide (x.name = d)) = some e ∧ e ∈ l ∧ e.name = d := by
  obtain ⟨x, hx, hxd⟩ := List.mem_map.mp hd
  cases hf : l.find? (fun x => decide (x.name = d)) with
  | none => exact absurd hxd (by simpa using List.find?_eq_none.mp hf x hx)
  | some e => exact ⟨e, rfl, List.mem_of_find?_eq_some hf, by simpa using List.find?_some hf⟩

/-- Directories without an identifier do not matter for a new one. -/
theorem allCodes_update {u : Ucd} (l : List CodesDir) (f : CodesDir → CodesDir) (p : CodesDir → Prop) [DecidablePred p]
    (hf : ∀ x ∈ l, p x → (∀ a r, x.entry.codesId u ≠ some (a :: r)) ∧ ∀ a r, (f x).entry.codesId u ≠ some (a :: r)) :
    allCodes u ((l.map fun x => if p x then f x else x).map CodesDir.entry) = allCodes u (l.map CodesDir.entry) := by
  unfold allCodes
  have skip : ∀ (e : BpeDir) (acc : Dict Str Int) (r : Registry), (∀ a s, e.codesId u ≠ some (a :: s)) →
      allCodesLoop u acc (e :: r) = allCodesLoop u acc r := by
    intro e acc r he
    rw [allCodesLoop]
    split
    · next h1 _ => exact absurd h1 (he _ _)
    · rfl
  suffices H : ∀ (l : List CodesDir) (acc : Dict Str Int), (∀ x ∈ l, p x → (∀ a r, x.entry.codesId u ≠ some (a :: r)) ∧
      ∀ a r, (f x).entry.codesId u ≠ some (a :: r)) →
      allCodesLoop u acc ((l.map fun x => if p x then f x else x).map CodesDir.entry) = allCodesLoop u acc (l.map CodesDir.entry) from
    H l [] hf
  intro l
  induction l with
  | nil => intro acc _; rfl
  | cons x l ih =>
    intro acc hx
    have ih' := fun acc => ih acc fun y hy => hx y (List.mem_cons_of_mem _ hy)
    simp only [List.map_cons]
    by_cases hp : p x
    · obtain ⟨g1, g2⟩ := hx x List.mem_cons_self hp
      rw [if_pos hp, skip _ _ _ g2, skip _ _ _ g1, ih']
    · rw [if_neg hp]
      rw [allCodesLoop, allCodesLoop]
      split
      · exact ih' _
      · exact ih' _

theorem createNewId_congr {u : Ucd} {reg reg' : Registry} (h : allCodes u reg' = allCodes u reg) (path : Str) (b : BpeConfig)
    (given : Option Str) : createNewId u reg' path b given = createNewId u reg path b given := by
  unfold createNewId
  rw [h]

/-- The identifier leads to the directory. -/
theorem owned_dir {u : Ucd} {h : UserDir} {id : Str} (hn : (h.dirs.map (·.name)).Nodup) {c : CodesDir} (hc : c ∈ h.dirs)
    (hi : c.entry.codesId u = some id) (h0 : id ≠ []) (hu : ∀ x ∈ h.dirs, x.entry.codesId u = some id → x.name = c.name) :
    h.codes = some h.dirs ∧ getDatasetBpeDir u h.registry id = .ok c.entry := by
  have hs : h.codes = some h.dirs := by
    unfold UserDir.dirs at hc ⊢
    cases hcs : h.codes with
    | none => rw [hcs] at hc; cases hc
    | some cs => rfl
  refine ⟨hs, ?_⟩
  unfold UserDir.registry
  rw [hs]
  unfold getDatasetBpeDir
  simp only [Option.map_some]
  have hh : BpeDir.hasId u id c.entry = true := by
    unfold BpeDir.hasId
    rw [hi]
    simp [h0]
  cases hf : (h.dirs.map CodesDir.entry).find? (BpeDir.hasId u id) with
  | none => exact absurd hh (by simpa using List.find?_eq_none.mp hf c.entry (List.mem_map_of_mem hc))
  | some x =>
    obtain ⟨y, hy, rfl⟩ := List.mem_map.mp (List.mem_of_find?_eq_some hf)
    have hx := List.find?_some hf
    have hyi : y.entry.codesId u = some id := by
      unfold BpeDir.hasId at hx
      split at hx
      · cases hx
      · next i hi' => rw [hi']; simp at hx; rw [hx.2]
    rw [codes_inj hn hy hc (hu y hy hyi)]

end Verif.Props
