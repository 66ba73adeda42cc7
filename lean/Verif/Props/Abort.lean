import Verif.Proofs.Abort
/-!
# Learning runs that are killed or fail do not change what is loaded for other identifiers (C85)
-/
namespace Verif.Props
open Verif Spec

section
variable {u : Ucd} {id vd : Str} {P : Str → Prop} {h h' : UserDir} {c : CodesDir}

/-- **C85** A run that is not killed is the one that was described for C69. -/
theorem C85_finished (u : Ucd) (h : UserDir) (path dn : Str) (b : BpeConfig) (given : Option Str) (n : Int)
    (hn : (h.dirs.map (·.name)).Nodup) :
    (∀ h', h.learnUntil u path dn b given n .never = .ok h' ↔ h.learn u path dn b given n = .ok h') ∧
    (∀ x, (∃ s, h.learnUntil u path dn b given n .never = .error (s, some x)) ↔ h.learn u path dn b given n = .error x) ∧
    ∀ s, h.learnUntil u path dn b given n .never ≠ .error (s, none) := by
  unfold UserDir.learnUntil UserDir.learn
  generalize bpeDirName dn (some b) = d
  simp only [bind, Except.bind, reduceCtorEq, if_false]
  obtain ⟨e, hf, he, hed⟩ := find_of_mem (create_has h d)
  have hnd : ((h.create d).dirs.map (·.name)).Nodup := ensureCodes_nodup d hn
  have hf' : (ensureCodes h.dirs d).find? (fun x => decide (x.name = d)) = some e := hf
  unfold UserDir.assignUntil
  rw [hf, hf']
  simp only
  have same : ∀ x ∈ (h.create d).dirs, x.name = d → x = e := fun x hx hxd => codes_inj hnd hx he (hxd.trans hed.symm)
  -- what is saved
  have save : ∀ (h2 : UserDir) (idFile : Option Str), h2 = (h.create d).update d (fun x => { x with idFile := idFile }) →
      (∀ h', h2.saveUntil dn b n d .never = .ok h' ↔
        ((learnOnDisk b (h.disk e.subs (baseBpeVocabDirName dn b)) n).bind fun r =>
          .ok { h with codes := some ((ensureCodes h.dirs d).map fun x => if x.name = d then
              ⟨x.name, idFile, ((h.disk e.subs (baseBpeVocabDirName dn b)).save r).dirs⟩ else x) } : Except PyErr UserDir) = .ok h') ∧
      (∀ x, (∃ s, h2.saveUntil dn b n d .never = .error (s, some x)) ↔
        ((learnOnDisk b (h.disk e.subs (baseBpeVocabDirName dn b)) n).bind fun r =>
          .ok { h with codes := some ((ensureCodes h.dirs d).map fun x => if x.name = d then
              ⟨x.name, idFile, ((h.disk e.subs (baseBpeVocabDirName dn b)).save r).dirs⟩ else x) } : Except PyErr UserDir) = .error x) ∧
      ∀ s, h2.saveUntil dn b n d .never ≠ .error (s, none) := by
    rintro h2 idFile rfl
    have hf2 : ((h.create d).update d fun x => { x with idFile := idFile }).dirs.find? (fun x => decide (x.name = d)) =
        some { e with idFile := idFile } := by
      rw [update_find (f := fun x => { x with idFile := idFile }) _ _ fun _ => rfl, hf]; rfl
    have hd2 : ((h.create d).update d fun x => { x with idFile := idFile }).disk e.subs (baseBpeVocabDirName dn b) =
        h.disk e.subs (baseBpeVocabDirName dn b) := rfl
    unfold UserDir.saveUntil
    rw [hf2]
    simp only [hd2]
    cases learnOnDisk b (h.disk e.subs (baseBpeVocabDirName dn b)) n with
    | error x => simp [Except.bind]
    | ok r =>
      simp only [Except.bind]
      cases r with
      | none =>
        have : (h.create d).update d (fun x => { x with idFile := idFile }) =
            { h with codes := some ((ensureCodes h.dirs d).map fun x => if x.name = d then
              ⟨x.name, idFile, ((h.disk e.subs (baseBpeVocabDirName dn b)).save none).dirs⟩ else x) } := by
          refine (update_congr (g := fun x => ⟨x.name, idFile, ((h.disk e.subs (baseBpeVocabDirName dn b)).save none).dirs⟩) _ _ ?_)
          intro x hx hxd
          rw [same x hx hxd]
          rfl
        simp only [this, Except.ok.injEq, reduceCtorEq, exists_false, ne_eq, not_false_eq_true, implies_true, and_self, iff_self]
      | some m =>
        have : ((h.create d).update d (fun x => { x with idFile := idFile })).update d (fun x => { x with subs := x.subs ++ [m] }) =
            { h with codes := some ((ensureCodes h.dirs d).map fun x => if x.name = d then
              ⟨x.name, idFile, ((h.disk e.subs (baseBpeVocabDirName dn b)).save (some m)).dirs⟩ else x) } := by
          rw [update_update (f := fun x => { x with idFile := idFile }) _ _ fun _ => rfl]
          refine (update_congr (g := fun x => ⟨x.name, idFile, ((h.disk e.subs (baseBpeVocabDirName dn b)).save (some m)).dirs⟩) _ _ ?_)
          intro x hx hxd
          rw [same x hx hxd]
          rfl
        simp only [this, Except.ok.injEq, reduceCtorEq, exists_false, ne_eq, not_false_eq_true, implies_true, and_self, iff_self]
  cases hi : e.entry.codesId u with
  | none =>
    simp only
    change (_ ∧ _ ∧ _)
    cases hc : createNewId u ((h.create d).dirs.map CodesDir.entry) path b given with
    | error x =>
      rw [show createNewId u ((ensureCodes h.dirs d).map CodesDir.entry) path b given = .error x from hc]
      simp
    | ok id =>
      rw [show createNewId u ((ensureCodes h.dirs d).map CodesDir.entry) path b given = .ok id from hc]
      simp only [reduceCtorEq, if_false]
      exact save _ (some id) rfl
  | some i =>
    cases i with
    | nil =>
      simp only
      cases hc : createNewId u ((h.create d).dirs.map CodesDir.entry) path b given with
      | error x =>
        rw [show createNewId u ((ensureCodes h.dirs d).map CodesDir.entry) path b given = .error x from hc]
        simp
      | ok id =>
        rw [show createNewId u ((ensureCodes h.dirs d).map CodesDir.entry) path b given = .ok id from hc]
        simp only [reduceCtorEq, if_false]
        exact save _ (some id) rfl
    | cons a r =>
      simp only
      refine save _ e.idFile ?_
      have : (h.create d).update d (fun x => { x with idFile := e.idFile }) = (h.create d).update d id := by
        refine update_congr _ _ fun x hx hxd => ?_
        rw [same x hx hxd]
        rfl
      rw [this]
      unfold UserDir.update
      simp
      rfl

/-- **C85** The identifier of a dataset for which merges have been learnt belongs to this dataset after any runs for any datasets, however
they ended. -/
theorem C85_owner_partial (hu : u.Laws) (o : Owns u h c id) (a : Attempts u id vd P h h') :
    ∃ c', c'.name = c.name ∧ Owns u h' c' id ∧ c.subs.IsPrefix c'.subs := by
  have k := attempts_keeps hu o a
  obtain ⟨c', h1, h2, h3, xs, h4, -, -⟩ := k.dir
  obtain ⟨c2, g1, g2, g3, g4⟩ := k.hasId o
  obtain rfl := codes_inj k.names h1 g1 (h2.trans g2.symm)
  exact ⟨c', h2, ⟨k.names, h1, g3, o.nonempty, fun x hx hi => (k.unique x hx hi).trans h2.symm, g4⟩, ⟨xs, h4.symm⟩⟩

/-- **C85** After any runs for any datasets, also for the dataset itself, however they ended, the identifier gives the same words as before,
and the same subwords for each number of merges that had been learnt. -/
theorem C85_words_partial (hu : u.Laws) (o : Owns u h c id) (hv : getBaseVocabDirName c.name = .ok vd)
    (a : Attempts u id vd P h h') :
    h'.loadAll u id = h.loadAll u id ∧ h'.loadNonbpe u id = h.loadNonbpe u id ∧ h'.loadBase u id = h.loadBase u id ∧
      ∀ n : Int, (∃ m ∈ c.subs, m.name = intStr n) → h'.loadBpe u id n = h.loadBpe u id n := by
  have k := attempts_keeps hu o a
  obtain ⟨c', h1, h2, h3, xs, h4, h5, -⟩ := k.dir
  obtain ⟨c2, g1, g2, g3, g4⟩ := k.hasId o
  obtain rfl := codes_inj k.names h1 g1 (h2.trans g2.symm)
  obtain ⟨s0, d0⟩ := owned_dir o.names o.mem o.has o.nonempty o.unique
  obtain ⟨s1, d1⟩ := owned_dir k.names h1 g3 o.nonempty fun x hx hi => (k.unique x hx hi).trans h2.symm
  have b0 : h.baseVocabDir u id = .ok vd := by unfold UserDir.baseVocabDir; rw [d0]; exact hv
  have b1 : h'.baseVocabDir u id = .ok vd := by
    unfold UserDir.baseVocabDir
    rw [d1]
    change getBaseVocabDirName c'.name = _
    rw [h2, hv]
  have e1 : h'.loadAll u id = h.loadAll u id := by
    unfold UserDir.loadAll UserDir.vocabFile
    rw [b0, b1]
    simp only [bind, Except.bind]
    rw [k.vocab]
  have e2 : h'.loadNonbpe u id = h.loadNonbpe u id := by
    unfold UserDir.loadNonbpe UserDir.vocabFile
    rw [b0, b1]
    simp only [bind, Except.bind]
    rw [k.vocab]
  refine ⟨e1, e2, by unfold UserDir.loadBase; rw [e1, e2], ?_⟩
  rintro n ⟨m, hm, hmn⟩
  have m0 : intStr n ∈ c.entry.subdirs := List.mem_map.mpr ⟨m, hm, hmn⟩
  have m1 : intStr n ∈ c'.entry.subdirs := List.mem_map.mpr ⟨m, by rw [h4]; exact List.mem_append_left _ hm, hmn⟩
  unfold UserDir.loadBpe getBpeDir
  rw [d0, d1]
  simp only [bind, Except.bind, if_pos m0, if_pos m1]
  have f : h'.mergesFile c'.entry.name (intStr n) (·.vocab) = h.mergesFile c.entry.name (intStr n) (·.vocab) := by
    unfold UserDir.mergesFile
    rw [s0, s1]
    simp only
    rw [show c.entry.name = c.name from rfl, show c'.entry.name = c'.name from rfl, codes_find o.names o.mem, codes_find k.names h1]
    simp only [Option.bind_some]
    rw [h4, List.find?_append]
    cases hf : c.subs.find? (fun x => decide (x.name = intStr n)) with
    | none => exact absurd hmn (by simpa using List.find?_eq_none.mp hf m hm)
    | some y => rfl
  rw [f]

/-- **C85** After any runs for other datasets, however they ended, the identifier gives the same merges and the same subwords as before,
and the same numbers of merges are refused. -/
theorem C85_merges_partial (hu : u.Laws) (o : Owns u h c id) (hP : ¬ P c.name) (a : Attempts u id vd P h h') :
    (∀ n : Int, h'.loadBpe u id n = h.loadBpe u id n) ∧ ∀ n : Nat, h'.loadMerges u id n = h.loadMerges u id n := by
  have k := attempts_keeps hu o a
  obtain ⟨c', h1, h2, h3, xs, h4, h5, h6⟩ := k.dir
  rcases h6 with rfl | h6
  swap
  · exact absurd h6 hP
  rw [List.append_nil] at h4
  obtain rfl : c' = c := by
    cases c'; cases c
    simp only at h2 h3 h4
    rw [h2, h3, h4]
  obtain ⟨s0, d0⟩ := owned_dir o.names o.mem o.has o.nonempty o.unique
  obtain ⟨s1, d1⟩ := owned_dir k.names h1 o.has o.nonempty k.unique
  have f : ∀ (s : Str) (g : MergesDir → Option Str), h'.mergesFile c'.name s g = h.mergesFile c'.name s g := by
    intro s g
    unfold UserDir.mergesFile
    rw [s0, s1]
    simp only
    rw [codes_find o.names o.mem, codes_find k.names h1]
  constructor
  · intro n
    unfold UserDir.loadBpe getBpeDir
    rw [d0, d1]
    simp only [bind, Except.bind]
    by_cases hm : intStr n ∈ c'.entry.subdirs
    · simp only [if_pos hm]
      rw [show c'.entry.name = c'.name from rfl, f]
    · simp only [if_neg hm]
  · intro n
    unfold UserDir.loadMerges CustomBpeConfig.create
    rw [d0, d1]
    simp only [bind, Except.bind]
    cases getMinMerges c'.entry.subdirs (n : Int) with
    | none => rfl
    | some m =>
      simp only
      by_cases hm : m = 0
      · simp only [if_pos hm]
      · simp only [if_neg hm]
        rw [show c'.entry.name = c'.name from rfl, f]

/-- **C85** Whatever happens in a run, the directories of other datasets and all vocabularies stay as they are. -/
theorem C85_left (u : Ucd) (h : UserDir) (path dn : Str) (b : BpeConfig) (given : Option Str) (n : Int) (p : KillPoint) :
    (leftBy (h.learnUntil u path dn b given n p)).dirs.filter (fun x => x.name ≠ bpeDirName dn (some b)) =
      h.dirs.filter (fun x => x.name ≠ bpeDirName dn (some b)) ∧
    (leftBy (h.learnUntil u path dn b given n p)).vocabs = h.vocabs := by
  unfold UserDir.learnUntil
  generalize bpeDirName dn (some b) = d
  have hc : (h.create d).dirs.filter (fun x => x.name ≠ d) = h.dirs.filter (fun x => x.name ≠ d) ∧ (h.create d).vocabs = h.vocabs := by
    refine ⟨?_, rfl⟩
    change (ensureCodes h.dirs d).filter _ = _
    unfold ensureCodes
    split
    · rfl
    · rw [List.filter_append]; simp
  have hup : ∀ (h1 : UserDir) (f : CodesDir → CodesDir), (∀ x, (f x).name = x.name) →
      (h1.update d f).dirs.filter (fun x => x.name ≠ d) = h1.dirs.filter (fun x => x.name ≠ d) ∧ (h1.update d f).vocabs = h1.vocabs := by
    intro h1 f hf
    refine ⟨?_, rfl⟩
    rw [update_dirs]
    induction h1.dirs with
    | nil => rfl
    | cons x l ih =>
      rw [List.map_cons, List.filter_cons, List.filter_cons, ih]
      by_cases hx : x.name = d
      · simp [hx, hf]
      · simp [hx]
  have ha : ∀ h1 : UserDir, (leftBy (h1.assignUntil u path b given d p)).dirs.filter (fun x => x.name ≠ d) =
      h1.dirs.filter (fun x => x.name ≠ d) ∧ (leftBy (h1.assignUntil u path b given d p)).vocabs = h1.vocabs := by
    intro h1
    unfold UserDir.assignUntil
    split
    · exact ⟨rfl, rfl⟩
    · split
      · exact ⟨rfl, rfl⟩
      · split
        · exact ⟨rfl, rfl⟩
        · split
          · exact hup h1 _ fun _ => rfl
          · exact hup h1 _ fun _ => rfl
  have hsv : ∀ h1 : UserDir, (leftBy (h1.saveUntil dn b n d p)).dirs.filter (fun x => x.name ≠ d) =
      h1.dirs.filter (fun x => x.name ≠ d) ∧ (leftBy (h1.saveUntil dn b n d p)).vocabs = h1.vocabs := by
    intro h1
    unfold UserDir.saveUntil
    split
    · exact ⟨rfl, rfl⟩
    · split
      · exact ⟨rfl, rfl⟩
      · exact ⟨rfl, rfl⟩
      · split
        · exact hup h1 _ fun _ => rfl
        · exact hup h1 _ fun _ => rfl
  simp only [bind, Except.bind]
  split
  · exact hc
  · have h2 := ha (h.create d)
    cases hk : (h.create d).assignUntil u path b given d p with
    | error e => rw [hk] at h2; exact ⟨h2.1.trans hc.1, h2.2.trans hc.2⟩
    | ok v =>
      rw [hk] at h2
      simp only
      split
      · exact ⟨h2.1.trans hc.1, h2.2.trans hc.2⟩
      · exact ⟨(hsv v).1.trans (h2.1.trans hc.1), (hsv v).2.trans (h2.2.trans hc.2)⟩

/-- **C85** A run that failed, or was killed before it began to save its result, can be repeated: this gives what it would have given
at first. -/
theorem C85_again_partial (u : Ucd) (h : UserDir) (path dn : Str) (b : BpeConfig) (given : Option Str) (n : Int) (p : KillPoint)
    (hn : (h.dirs.map (·.name)).Nodup) (s : UserDir) (r : Option PyErr) (hp : r = none → ∀ i j, p ≠ .saving i j)
    (hk : h.learnUntil u path dn b given n p = .error (s, r)) :
    s.learnUntil u path dn b given n .never = h.learnUntil u path dn b given n .never := by
  unfold UserDir.learnUntil at hk ⊢
  generalize bpeDirName dn (some b) = d at hk ⊢
  simp only [bind, Except.bind, reduceCtorEq, if_false] at hk ⊢
  obtain ⟨e, hf, he, hed⟩ := find_of_mem (create_has h d)
  have hnd : ((h.create d).dirs.map (·.name)).Nodup := ensureCodes_nodup d hn
  have hcs : (h.create d).codes = some (h.create d).dirs := rfl
  have hmem := create_has h d
  generalize h.create d = h1 at *
  have same : ∀ x ∈ h1.dirs, x.name = d → x = e := fun x hx hxd => codes_inj hnd hx he (hxd.trans hed.symm)
  have first : s = h1 → s.create d = h1 := by
    rintro rfl
    exact create_of_mem hmem hcs
  have upd : ∀ f : CodesDir → CodesDir, (∀ x, (f x).name = x.name) → (h1.update d f).create d = h1.update d f := by
    intro f hf
    refine create_of_mem ?_ rfl
    rw [update_names h1 d hf]
    exact hmem
  -- the directories without an identifier do not matter
  have new : ∀ t : Str, (∀ a r, e.entry.codesId u ≠ some (a :: r)) → strip u (univNl t) = [] →
      createNewId u ((h1.update d fun x => { x with idFile := some t }).dirs.map CodesDir.entry) path b given =
        createNewId u (h1.dirs.map CodesDir.entry) path b given := by
    intro t hno ht
    refine createNewId_congr ?_ _ _ _
    rw [update_dirs]
    refine allCodes_update _ _ (fun x => x.name = d) fun x hx hxd => ?_
    rw [same x hx hxd]
    refine ⟨hno, fun a r hc => ?_⟩
    have : (some (strip u (univNl t)) : Option Str) = some (a :: r) := hc
    rw [ht] at this
    cases this
  -- giving the identifier again
  have again : ∀ t : Str, (∀ a r, e.entry.codesId u ≠ some (a :: r)) → strip u (univNl t) = [] →
      (h1.update d fun x => { x with idFile := some t }).assignUntil u path b given d .never = match
        createNewId u (h1.dirs.map CodesDir.entry) path b given with
        | .error x => .error (h1.update d fun x => { x with idFile := some t }, some x)
        | .ok i => .ok (h1.update d fun x => { x with idFile := some i }) := by
    intro t hno ht
    unfold UserDir.assignUntil
    rw [update_find (f := fun x => { x with idFile := some t }) _ _ fun _ => rfl, hf]
    simp only [Option.map_some]
    have : BpeDir.codesId u (CodesDir.entry { e with idFile := some t }) = some [] := by
      change some (strip u (univNl t)) = _
      rw [ht]
    rw [this]
    simp only [new t hno ht, reduceCtorEq, if_false]
    cases createNewId u (h1.dirs.map CodesDir.entry) path b given with
    | error x => rfl
    | ok i =>
      simp only
      rw [update_update (f := fun x => { x with idFile := some t }) _ _ fun _ => rfl]
      rfl
  have once : ∀ i : Str, (∀ a r, e.entry.codesId u ≠ some (a :: r)) → createNewId u (h1.dirs.map CodesDir.entry) path b given = .ok i →
      h1.assignUntil u path b given d .never = .ok (h1.update d fun x => { x with idFile := some i }) := by
    intro i hno hc
    unfold UserDir.assignUntil
    rw [hf]
    simp only
    cases hi : e.entry.codesId u with
    | none => simp only [hc, reduceCtorEq, if_false]
    | some t =>
      cases t with
      | nil => simp only [hc, reduceCtorEq, if_false]
      | cons a r => exact absurd hi (hno a r)
  by_cases hpc : p = .created
  · rw [if_pos hpc] at hk
    have e1 : h1 = s := (Prod.ext_iff.mp (Except.error.inj hk)).1
    rw [first e1.symm]
  · rw [if_neg hpc] at hk
    cases ha : h1.assignUntil u path b given d p with
    | error q =>
      rw [ha] at hk
      obtain rfl := Except.error.inj hk
      unfold UserDir.assignUntil at ha
      rw [hf] at ha
      simp only at ha
      split at ha
      · cases ha
      · next hno =>
        split at ha
        · have e1 : h1 = s := (Prod.ext_iff.mp (Except.error.inj ha)).1
          rw [first e1.symm]
        · next id hc =>
          split at ha
          · have e1 := (Prod.ext_iff.mp (Except.error.inj ha)).1
            simp only at e1
            subst e1
            rw [upd (fun x => { x with idFile := some [] }) fun _ => rfl, again [] hno rfl, hc, once id hno hc]
          · cases ha
    | ok h2 =>
      rw [ha] at hk
      simp only at hk
      have es : s = h2 := by
        split at hk
        · exact (Prod.ext_iff.mp (Except.error.inj hk)).1.symm
        · unfold UserDir.saveUntil at hk
          split at hk
          · exact (Prod.ext_iff.mp (Except.error.inj hk)).1.symm
          · split at hk
            · exact (Prod.ext_iff.mp (Except.error.inj hk)).1.symm
            · cases hk
            · split at hk
              · exact absurd rfl (hp (Prod.ext_iff.mp (Except.error.inj hk)).2.symm _ _)
              · cases hk
      subst es
      have hnever : h1.assignUntil u path b given d .never = .ok s ∧ s.create d = s ∧ s.assignUntil u path b given d .never = .ok s := by
        unfold UserDir.assignUntil at ha
        rw [hf] at ha
        simp only at ha
        split at ha
        · next a r hh =>
          obtain rfl := Except.ok.inj ha
          have : h1.assignUntil u path b given d .never = .ok h1 := by
            unfold UserDir.assignUntil
            rw [hf]
            simp only
            rw [hh]
          exact ⟨this, create_of_mem hmem hcs, this⟩
        · next hno =>
          split at ha
          · cases ha
          · next id hc =>
            split at ha
            · cases ha
            · obtain rfl := Except.ok.inj ha
              refine ⟨once id hno hc, upd (fun x => { x with idFile := some id }) fun _ => rfl, ?_⟩
              · cases ht : strip u (univNl id) with
                | nil =>
                  rw [again id hno ht, hc]
                | cons a r =>
                  unfold UserDir.assignUntil
                  rw [update_find (f := fun x => { x with idFile := some id }) _ _ fun _ => rfl, hf]
                  simp only [Option.map_some]
                  have : BpeDir.codesId u (CodesDir.entry { e with idFile := some id }) = some (a :: r) := by
                    change some (strip u (univNl id)) = _
                    rw [ht]
                  rw [this]
      rw [hnever.1, hnever.2.1, hnever.2.2]

/-- **C85** After a history without crashes, each dataset owns its identifier. -/
theorem C85_owns {words : Str → List (Str × Nat) × List Str} (hu : u.Laws) (hh : UserHistory u words h) (hc : c ∈ h.dirs) :
    ∃ id, Owns u h c id := by
  have inv := user_inv hu hh
  obtain ⟨i1, i2, i3, i4⟩ := history_ok hu inv.registry
  obtain ⟨hnd, hs, id, hi, hd⟩ := user_dir hu hh hc
  obtain ⟨t, ht, hst⟩ := i2 c.entry (List.mem_map_of_mem hc)
  have : id = t := Option.some.inj (hi.symm.trans (codesId_of ht hst))
  subst this
  obtain ⟨k, k1, k2, k3⟩ := i3 c.entry (List.mem_map_of_mem hc)
  obtain ⟨m, hm, hmn⟩ := List.mem_map.mp k3
  refine ⟨id, hnd, hc, hi, hst.1, ?_, m, hm, k, hmn, k1, k2⟩
  intro x hx hxi
  obtain ⟨t', ht', hst'⟩ := i2 x.entry (List.mem_map_of_mem hx)
  have e : id = t' := Option.some.inj (hxi.symm.trans (codesId_of ht' hst'))
  subst e
  have := List.inj_on_of_nodup_map i4 (List.mem_map_of_mem hx) (List.mem_map_of_mem hc) (ht'.trans ht.symm)
  exact congrArg BpeDir.name this

end

/-! ## Examples -/

/-- Two datasets with the same name `p`, in the directories `/x` and `/y`. -/
def samesVocab : VocabDir := ⟨"p_2_-_u0EFsu".toList, some "xy\t2\n".toList, some []⟩

def samesHome (cs : List CodesDir) : UserDir := ⟨some cs, [abcVocab, samesVocab]⟩

/-- **C85 is violated** by identifiers of runs that were killed (or failed) before anything was learnt: they are given out again.  Here the
run for `/x/p` is killed, then merges are learnt for `/y/p`.  With the identifier of the latter, the words of the former are loaded, and the
merges are not found; the run for `/x/p` was not repeated. -/
theorem C85_killed_violated :
    (samesHome []).learnUntil asciiUcd "/x/p".toList "p_1".toList plainSettings none 3 .named =
      .error (samesHome [⟨"p_1".toList, some "p".toList, []⟩], none) ∧
    (samesHome [⟨"p_1".toList, some "p".toList, []⟩]).learnUntil asciiUcd "/y/p".toList "p_2".toList plainSettings none 1 .never =
      .ok (samesHome [⟨"p_1".toList, some "p".toList, []⟩, ⟨"p_2".toList, some "p".toList, [xy1]⟩]) ∧
    (samesHome [⟨"p_1".toList, some "p".toList, []⟩, ⟨"p_2".toList, some "p".toList, [xy1]⟩]).loadAll asciiUcd "p".toList =
      .ok [("abc".toList, 1)] ∧
    (samesHome [⟨"p_1".toList, some "p".toList, []⟩, ⟨"p_2".toList, some "p".toList, [xy1]⟩]).loadBpe asciiUcd "p".toList 1 =
      .error .invalidBpeCodesId ∧
    (samesHome [⟨"p_2".toList, some "p".toList, [xy1]⟩]).loadAll asciiUcd "p".toList = .ok [("xy".toList, 2)] := by
  refine ⟨by decide +kernel, by decide +kernel, by decide +kernel, by decide +kernel, by decide +kernel⟩

/-- **C85 is violated** by runs that are killed while they save: the run cannot be repeated. -/
theorem C85_saving_violated :
    (samesHome []).learnUntil asciiUcd "/y/p".toList "p_2".toList plainSettings none 1 (.saving 0 none) =
      .error (samesHome [⟨"p_2".toList, some "p".toList, [⟨"1".toList, none, none, none, none⟩]⟩], none) ∧
    (samesHome [⟨"p_2".toList, some "p".toList, [⟨"1".toList, none, none, none, none⟩]⟩]).learnUntil asciiUcd "/y/p".toList "p_2".toList
      plainSettings none 1 .never =
      .error (samesHome [⟨"p_2".toList, some "p".toList, [⟨"1".toList, none, none, none, none⟩]⟩], some .fileNotFound) := by
  refine ⟨by decide +kernel, by decide +kernel⟩

/-- A dataset that owns its identifier, and runs for another one of the same name: one that is killed while it saves, and one that fails
because of what the first left. -/
theorem sames_owns : Owns asciiUcd (samesHome [⟨"p_1".toList, some "p".toList, [abc3]⟩]) ⟨"p_1".toList, some "p".toList, [abc3]⟩ "p".toList :=
  ⟨by decide +kernel, by simp [samesHome, UserDir.dirs], by decide +kernel, by decide,
    by intro x hx _; simp [samesHome, UserDir.dirs] at hx; rw [hx]; rfl, abc3, by simp, 3, by decide +kernel, by decide, by decide⟩

def samesEnd : UserDir :=
  samesHome [⟨"p_1".toList, some "p".toList, [abc3]⟩, ⟨"p_2".toList, some "p_1".toList, [⟨"1".toList, none, none, none, none⟩]⟩]

theorem sames_attempts : Attempts asciiUcd "p".toList "p_1_-_u0EFsu".toList (· ≠ "p_1".toList)
    (samesHome [⟨"p_1".toList, some "p".toList, [abc3]⟩]) samesEnd := by
  have hd : bpeDirName "p_2".toList (some plainSettings) = "p_2".toList := by decide +kernel
  have h1 := Attempts.run (u := asciiUcd) (id := "p".toList) (vd := "p_1_-_u0EFsu".toList) (P := (· ≠ "p_1".toList))
    (h0 := samesHome [⟨"p_1".toList, some "p".toList, [abc3]⟩]) "/y/p".toList "p_2".toList plainSettings none 1 (.saving 0 none) .refl
    (by rw [hd]; decide) (.made (.inl rfl) (by unfold Storable; decide +kernel) (by unfold NoSpecial; decide +kernel))
  have e1 : (samesHome [⟨"p_1".toList, some "p".toList, [abc3]⟩]).learnUntil asciiUcd "/y/p".toList "p_2".toList plainSettings none 1
      (.saving 0 none) = .error (samesEnd, none) := by decide +kernel
  rw [e1] at h1
  have h2 := Attempts.run "/y/p".toList "p_2".toList plainSettings none 1 .never h1
    (by rw [hd]; decide) (.made (.inl rfl) (by unfold Storable; decide +kernel) (by unfold NoSpecial; decide +kernel))
  have e2 : samesEnd.learnUntil asciiUcd "/y/p".toList "p_2".toList plainSettings none 1 .never = .error (samesEnd, some .fileNotFound) := by
    decide +kernel
  rw [show leftBy (.error (samesEnd, none)) = samesEnd from rfl, e2] at h2
  exact h2

example : samesEnd.loadAll asciiUcd "p".toList = .ok [("abc".toList, 1)] ∧
    samesEnd.loadMerges asciiUcd "p".toList 1 = (samesHome [⟨"p_1".toList, some "p".toList, [abc3]⟩]).loadMerges asciiUcd "p".toList 1 :=
  ⟨(C85_words_partial asciiUcd_laws sames_owns (by decide +kernel) sames_attempts).1.trans (by decide +kernel),
    (C85_merges_partial asciiUcd_laws sames_owns (by simp) sames_attempts).2 1⟩

end Verif.Props
