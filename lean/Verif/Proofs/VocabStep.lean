import Verif.Proofs.VocabDir
/-!
# Steps of a merge keep the contents of the directory
-/
namespace Verif
open Spec

/-! ### Vocabularies -/

theorem StatsOk.init (d : Dict Str Nat) (c : Nat) (id : Str) : StatsOk (PVocab.init d c id) := by
  refine ⟨by simp [PVocab.init], by simp [PVocab.init], by simp [PVocab.init]⟩

theorem mergeDicts_length {d1 d2 : Dict Str Nat} (h1 : d1.WF) (h2 : d2.WF) :
    d1.length ≤ (mergeDicts d1 d2).1.length ∧ d2.length ≤ (mergeDicts d1 d2).1.length := by
  obtain ⟨e1, e2⟩ := mergeDicts_keys d1 d2 h2
  have hl : ∀ d : Dict Str Nat, d.length = d.keys.length := fun d => by simp [Dict.keys]
  rw [hl d1, hl d2, hl (mergeDicts d1 d2).1]
  refine ⟨by rw [e1, List.length_append]; omega, ?_⟩
  refine List.Nodup.length_le_of_subset h2 ?_
  intro w hw
  rw [e1, e2, List.mem_append, List.mem_filter]
  cases hh : Dict.has d1 w
  · exact .inr ⟨hw, by simp [hh]⟩
  · exact .inl (Dict.has_iff.mp hh)

theorem StatsOk.add {a b : PVocab} (wa : Dict.WF a.counts) (wb : Dict.WF b.counts) (ha : StatsOk a) (hb : StatsOk b) (id : Str) :
    StatsOk ((a.addVocab b).1.renewId id) := by
  have hlen := mergeDicts_length wa wb
  have hne := mergeDicts_get a.counts b.counts wb Ph.nonEng
  obtain ⟨a1, a2, -⟩ := ha
  obtain ⟨b1, b2, -⟩ := hb
  refine ⟨by simp [PVocab.addVocab, PVocab.renewId]; omega, ?_, ?_⟩
  · intro e he
    simp only [PVocab.addVocab, PVocab.renewId, List.mem_append, List.mem_singleton] at he ⊢
    unfold PVocab.nonEngCount at a2 b2 ⊢
    rcases he with he | he | rfl
    · have := a2 e he; omega
    · have := b2 e he; omega
    · exact ⟨by show 1 ≤ a.nFiles + b.nFiles; omega, Nat.le_refl _, Nat.le_refl _, Nat.le_refl _⟩
  · show (a.stats ++ (b.stats ++ [(a.nFiles + b.nFiles, List.length (mergeDicts a.counts b.counts).fst,
        PVocab.nonEngCount (mergeDicts a.counts b.counts).fst)])).filter (fun e => decide (e.1 = a.nFiles + b.nFiles)) =
      [(a.nFiles + b.nFiles, List.length (mergeDicts a.counts b.counts).fst,
        PVocab.nonEngCount (mergeDicts a.counts b.counts).fst)]
    rw [List.filter_append, List.filter_append]
    have e1 : a.stats.filter (fun e => decide (e.1 = a.nFiles + b.nFiles)) = [] := by
      rw [List.filter_eq_nil_iff]; intro e he; have := a2 e he; simp; omega
    have e2 : b.stats.filter (fun e => decide (e.1 = a.nFiles + b.nFiles)) = [] := by
      rw [List.filter_eq_nil_iff]; intro e he; have := b2 e he; simp; omega
    rw [e1, e2]
    simp

theorem VOk.add {a b : PVocab} (ha : VOk a) (hb : VOk b) {id : Str} (hid : IsId id) :
    VOk ((a.addVocab b).1.renewId id) :=
  ⟨hid, mergeDicts_wf _ _ ha.2.1, ha.2.2.add ha.2.1 hb.2.1 hb.2.2 id⟩

theorem add_words {a b : PVocab} (ha : VOk a) (hb : VOk b) (id w : Str) :
    countIn ((a.addVocab b).1.renewId id).counts w = countIn a.counts w + countIn b.counts w := by
  have hw := mergeDicts_wf a.counts b.counts ha.2.1
  show countIn (mergeDicts a.counts b.counts).1 w = _
  rw [← Dict.getD_eq_count hw, ← Dict.getD_eq_count ha.2.1, ← Dict.getD_eq_count hb.2.1, mergeDicts_get _ _ hb.2.1]

theorem add_count {a b : PVocab} (ha : VOk a) (hb : VOk b) (id : Str) (t : Tally) :
    ((a.addVocab b).1.renewId id).tally t = a.tally t + b.tally t := by
  cases t with
  | word w => exact add_words ha hb id w
  | files => rfl
  | single e =>
    have h1 := ha.2.2.1
    have h2 := hb.2.2.1
    show (a.stats ++ (b.stats ++ [(a.nFiles + b.nFiles, List.length (mergeDicts a.counts b.counts).fst,
        PVocab.nonEngCount (mergeDicts a.counts b.counts).fst)])).count (1, e) = a.stats.count (1, e) + b.stats.count (1, e)
    rw [List.count_append, List.count_append, List.count_singleton, if_neg]
    · omega
    · intro h
      have := congrArg Prod.fst (eq_of_beq h)
      simp only at this
      omega

theorem add_keys {a b : PVocab} (hb : VOk b) (id w : Str) :
    w ∈ Dict.keys ((a.addVocab b).1.renewId id).counts ↔ w ∈ Dict.keys a.counts ∨ w ∈ Dict.keys b.counts := by
  show w ∈ Dict.keys (mergeDicts a.counts b.counts).1 ↔ _
  obtain ⟨h1, h2⟩ := mergeDicts_keys a.counts b.counts hb.2.1
  rw [h1, h2, List.mem_append, List.mem_filter]
  constructor
  · rintro (h | h)
    · exact .inl h
    · exact .inr h.1
  · rintro (h | h)
    · exact .inl h
    · cases hh : Dict.has a.counts w
      · exact .inr ⟨h, by simp⟩
      · exact .inl (Dict.has_iff.mp hh)

/-! ### Identifiers and names -/

theorem MState.id_in_name {m : MState} (h : m.Ok) {i : Str} (hi : i ∈ m.ids) :
    ∃ name ∈ Dict.keys m.files, ∃ stem ∈ pySplit '.' name, i ∈ pySplit '_' stem := by
  have simple : ∀ {id : Str}, IsId id → ∃ stem ∈ pySplit '.' (simpleName id), id ∈ pySplit '_' stem := by
    intro id hid
    refine ⟨id, by rw [simpleName_stem hid]; exact List.mem_cons_self, ?_⟩
    rw [pySplit_noSep (hid.no (by decide))]; exact List.mem_cons_self
  have triple : ∀ {a b c : Str}, IsId a → IsId b → IsId c → ∀ i ∈ [a, b, c], ∃ stem ∈ pySplit '.' (tripleName a b c), i ∈ pySplit '_' stem := by
    intro a b c ha hb hc i hi
    refine ⟨a ++ '_' :: (b ++ '_' :: c), by rw [tripleName_stem ha hb hc]; exact List.mem_cons_self, ?_⟩
    rw [split_three ha hb hc]; exact hi
  cases m with
  | ready f s =>
    simp only [MState.ids, List.mem_cons, List.not_mem_nil, or_false] at hi
    rcases hi with rfl | rfl
    · exact ⟨_, by simp only [Dict.keys, MState.files, List.map_cons]; exact List.mem_cons_self, simple h.1.1⟩
    · exact ⟨_, by simp only [Dict.keys, MState.files, List.map_cons]; exact List.mem_cons_of_mem _ List.mem_cons_self, simple h.2.1⟩
  | dumping f s m e =>
    exact ⟨tripleName f.id s.id m.id, by simp [Dict.keys, MState.files], triple h.1.1 h.2.1.1 h.2.2.1.1 i hi⟩
  | finishing f s m st =>
    refine ⟨tripleName f.id s.id m.id, ?_, triple h.1.1 h.2.1.1 h.2.2.1.1 i hi⟩
    cases st <;> simp [Dict.keys, MState.files]
  | done v =>
    simp only [MState.ids, List.mem_cons, List.not_mem_nil, or_false] at hi
    subst hi
    exact ⟨_, by simp only [Dict.keys, MState.files, List.map_cons]; exact List.mem_cons_self, simple h.1⟩

theorem Holds.fresh {items : List MState} {dir : DumpDir} (h : Holds items dir) {id : Str} (hf : FreshId dir id) :
    id ∉ (items.map MState.ids).flatten := by
  intro hm
  obtain ⟨l, hl, hi⟩ := List.mem_flatten.mp hm
  obtain ⟨it, hit, rfl⟩ := List.mem_map.mp hl
  obtain ⟨name, hn, stem, hs, hin⟩ := MState.id_in_name (h.ok it hit) hi
  refine hf.2 name ?_ stem hs hin
  rw [perm_keys h.perm]
  obtain ⟨e, he, rfl⟩ := List.mem_map.mp hn
  exact List.mem_map.mpr ⟨e, List.mem_cons_of_mem _ (List.mem_flatten.mpr ⟨_, List.mem_map.mpr ⟨it, hit, rfl⟩, he⟩), rfl⟩

theorem triple_fresh {dir : DumpDir} {a b id : Str} (ha : IsId a) (hb : IsId b) (hf : FreshId dir id) :
    tripleName a b id ∉ dir.keys := by
  intro hm
  refine hf.2 _ hm (a ++ '_' :: (b ++ '_' :: id)) (by rw [tripleName_stem ha hb hf.1]; exact List.mem_cons_self) ?_
  rw [split_three ha hb hf.1]; simp

theorem simple_fresh {dir : DumpDir} {id : Str} (hf : FreshId dir id) : simpleName id ∉ dir.keys := by
  intro hm
  refine hf.2 _ hm id (by rw [simpleName_stem hf.1]; exact List.mem_cons_self) ?_
  rw [pySplit_noSep (hf.1.no (by decide))]; exact List.mem_cons_self

/-- A file whose identifier is in use but not for one of the files is not there. -/
theorem Holds.absent {m : MState} {rest : List MState} {dir : DumpDir} (h : Holds (m :: rest) dir) {i : Str} (hi : i ∈ m.ids)
    (hk : i ∉ m.files.map fun e => keyId e.1) : simpleName i ∉ dir.keys := by
  rw [perm_keys h.perm]
  intro hm
  have hid := MState.ids_isId (h.ok m (by simp)) i hi
  obtain ⟨e, he, hn⟩ := List.mem_map.mp hm
  have hke : keyId e.1 = i := by rw [hn, keyId_simple hid]
  rcases List.mem_cons.mp he with rfl | he
  · rw [keyId_ready] at hke
    subst hke
    exact not_isId_ready hid
  · simp only [List.map_cons, List.flatten_cons, List.mem_append] at he
    rcases he with he | he
    · exact hk (List.mem_map.mpr ⟨e, he, hke⟩)
    · have hs := keyIds_sublist (items := rest) fun it hit => h.ok it (by simp [hit])
      have : i ∈ (rest.map MState.ids).flatten := hs.mem (List.mem_map.mpr ⟨e, he, hke⟩)
      have hnd := h.nodup
      simp only [List.map_cons, List.flatten_cons] at hnd
      exact (List.nodup_append.mp hnd).2.2 i hi i this rfl

theorem Holds.present {m : MState} {rest : List MState} {dir : DumpDir} (h : Holds (m :: rest) dir) {e : Str × DumpFile}
    {fs : List (Str × DumpFile)} (hp : m.files.Perm (e :: fs)) :
    dir.Perm (e :: ((readyName, DumpFile.mark) :: (fs ++ (rest.map MState.files).flatten))) := by
  refine h.perm.trans ?_
  simp only [List.map_cons, List.flatten_cons]
  refine ((hp.append_right _).cons _).trans ?_
  exact List.Perm.swap _ _ _

/-- The same directory, described by a changed merge. -/
theorem Holds.change {m m' : MState} {rest : List MState} {dir dir' : DumpDir} (h : Holds (m :: rest) dir)
    (hp : dir'.Perm ((readyName, DumpFile.mark) :: (m'.files ++ (rest.map MState.files).flatten)))
    (hids : m'.ids.Sublist m.ids) (hok : m'.Ok) : Holds (m' :: rest) dir' where
  perm := by simpa using hp
  nodup := by
    have := h.nodup
    simp only [List.map_cons, List.flatten_cons] at this ⊢
    exact this.sublist (hids.append (List.Sublist.refl _))
  ok := by
    intro it hit
    rcases List.mem_cons.mp hit with rfl | hit
    · exact hok
    · exact h.ok it (by simp [hit])

theorem removeIfExists_present {dir r : DumpDir} {k : Str} {v : DumpFile} (hw : dir.WF) (h : dir.Perm ((k, v) :: r)) :
    (removeIfExists dir k).Perm r := by
  unfold removeIfExists
  rw [if_pos (Dict.has_iff.mpr ((perm_keys h k).mpr (by simp [Dict.keys])))]
  exact del_perm hw h

theorem removeIfExists_absent {dir : DumpDir} {k : Str} (h : k ∉ dir.keys) : removeIfExists dir k = dir := by
  unfold removeIfExists
  rw [if_neg (fun hh => h (Dict.has_iff.mp hh))]

section
variable {f s m : PVocab} {st : FinSt} {rest : List MState} {dir : DumpDir}

theorem fin_ids (h : Holds (.finishing f s m st :: rest) dir) :
    idsOfName (tripleName f.id s.id m.id) = .ok (f.id, s.id, m.id) := by
  have hok := h.ok _ List.mem_cons_self
  exact idsOfName_triple hok.1.1 hok.2.1.1 hok.2.2.1.1

theorem fin_distinct (h : Holds (.finishing f s m st :: rest) dir) : f.id ≠ s.id ∧ f.id ≠ m.id ∧ s.id ≠ m.id := by
  have := h.nodup
  simp only [List.map_cons, List.flatten_cons, MState.ids] at this
  have := (List.nodup_append.mp this).1
  simp at this
  exact ⟨this.1.1, this.1.2, this.2⟩

theorem fin_check (h : Holds (.finishing f s m st :: rest) dir) :
    finStep (tripleName f.id s.id m.id) .check dir = .next dir .first := by
  have hg : dir.get? (tripleName f.id s.id m.id) = some (.vocab m) := by
    refine Dict.mem_get? h.wf (h.perm.mem_iff.mpr (List.mem_cons_of_mem _ ?_))
    simp only [List.map_cons, List.flatten_cons]
    refine List.mem_append_left _ ?_
    cases st <;> simp [MState.files]
  simp only [finStep, hg, pickleLoad, fin_ids h]

theorem fin_first (h : Holds (.finishing f s m st :: rest) dir) :
    ∃ dir', finStep (tripleName f.id s.id m.id) .first dir = .next dir' .second ∧
      Holds (.finishing f s m (if st = .rename then .rename else .second) :: rest) dir' := by
  have hok := h.ok _ List.mem_cons_self
  have hd := fin_distinct h
  refine ⟨removeIfExists dir (simpleName f.id), by simp only [finStep, fin_ids h], ?_⟩
  have hk1 := keyId_simple hok.1.1
  have hk2 := keyId_simple hok.2.1.1
  have hk3 := keyId_triple hok.1.1 hok.2.1.1 hok.2.2.1.1
  have key : ∀ fs, (MState.finishing f s m st).files = (simpleName f.id, .vocab f) :: fs →
      fs = (MState.finishing f s m .second).files → Holds (.finishing f s m .second :: rest) (removeIfExists dir (simpleName f.id)) := by
    intro fs e1 e2
    refine h.change ?_ (List.Sublist.refl _) hok
    rw [← e2]
    exact removeIfExists_present h.wf (h.present (by rw [e1]))
  cases st with
  | check => exact key _ rfl rfl
  | first => exact key _ rfl rfl
  | second =>
    rw [removeIfExists_absent (h.absent (by simp [MState.ids]) (by simp [MState.files, hk2, hk3, hd]))]
    exact h
  | rename =>
    rw [removeIfExists_absent (h.absent (by simp [MState.ids]) (by simp [MState.files, hk3, hd]))]
    exact h

theorem fin_second (h : Holds (.finishing f s m st :: rest) dir) (hst : st = .second ∨ st = .rename) :
    ∃ dir', finStep (tripleName f.id s.id m.id) .second dir = .next dir' .rename ∧
      Holds (.finishing f s m .rename :: rest) dir' := by
  have hok := h.ok _ List.mem_cons_self
  have hd := fin_distinct h
  refine ⟨removeIfExists dir (simpleName s.id), by simp only [finStep, fin_ids h], ?_⟩
  have hk3 := keyId_triple hok.1.1 hok.2.1.1 hok.2.2.1.1
  rcases hst with rfl | rfl
  · refine h.change ?_ (List.Sublist.refl _) hok
    exact removeIfExists_present h.wf (h.present (e := (simpleName s.id, .vocab s)) (fs := [(tripleName f.id s.id m.id, .vocab m)])
      (by simp [MState.files]))
  · rw [removeIfExists_absent (h.absent (by simp [MState.ids]) (by simp [MState.files, hk3, hd]))]
    exact h

theorem fin_rename (h : Holds (.finishing f s m .rename :: rest) dir) :
    ∃ dir', finStep (tripleName f.id s.id m.id) .rename dir = .finished dir' ∧ Holds (.done m :: rest) dir' := by
  have hok := h.ok _ List.mem_cons_self
  have hp := h.present (e := (tripleName f.id s.id m.id, .vocab m)) (fs := []) (by simp [MState.files])
  have hg := get?_perm h.wf hp
  refine ⟨(dir.del (tripleName f.id s.id m.id)).set (simpleName m.id) (.vocab m), by simp only [finStep, fin_ids h, hg], ?_⟩
  have hk3 := keyId_triple hok.1.1 hok.2.1.1 hok.2.2.1.1
  have hdel := del_perm h.wf hp
  have habs : simpleName m.id ∉ Dict.keys (dir.del (tripleName f.id s.id m.id)) := by
    rw [perm_keys hdel]
    intro hm
    have hwf := (perm_wf hp).mp h.wf
    obtain ⟨e, he, hn⟩ := List.mem_map.mp hm
    have hke : keyId e.1 = m.id := by rw [hn, keyId_simple hok.2.2.1.1]
    rcases List.mem_cons.mp he with rfl | he
    · rw [keyId_ready] at hke
      exact not_isId_ready (hke ▸ hok.2.2.1.1)
    · simp only [List.nil_append] at he
      have hs := keyIds_sublist (items := rest) fun it hit => h.ok it (by simp [hit])
      have : m.id ∈ (rest.map MState.ids).flatten := hs.mem (List.mem_map.mpr ⟨e, he, hke⟩)
      have hnd := h.nodup
      simp only [List.map_cons, List.flatten_cons] at hnd
      exact (List.nodup_append.mp hnd).2.2 m.id (by simp [MState.ids]) m.id this rfl
  refine h.change ?_ ?_ hok.2.2.1
  · refine (set_new_perm _ habs).trans ?_
    refine (hdel.cons _).trans ?_
    simp only [MState.files, List.nil_append, List.cons_append]
    exact List.Perm.swap _ _ _
  · simp only [MState.ids]
    exact (List.Sublist.refl _).cons _ |>.cons _

theorem dump_present {eof : Bool} (h : Holds (.dumping f s m eof :: rest) dir) :
    dir.Perm ((tripleName f.id s.id m.id, .truncated eof) ::
      ((readyName, DumpFile.mark) :: ((MState.ready f s).files ++ (rest.map MState.files).flatten))) :=
  h.present (by
    simp only [MState.files]
    exact (List.perm_append_singleton _ [(simpleName f.id, DumpFile.vocab f), (simpleName s.id, DumpFile.vocab s)]))

theorem fin_check_eof (h : Holds (.dumping f s m true :: rest) dir) :
    ∃ dir', finStep (tripleName f.id s.id m.id) .check dir = .finished dir' ∧ Holds (.ready f s :: rest) dir' := by
  have hok := h.ok _ List.mem_cons_self
  have hp := dump_present h
  refine ⟨dir.del (tripleName f.id s.id m.id), by simp only [finStep, get?_perm h.wf hp, pickleLoad], ?_⟩
  refine h.change (del_perm h.wf hp) ?_ ⟨hok.1, hok.2.1⟩
  simp [MState.ids]

theorem fin_check_bad (h : Holds (.dumping f s m false :: rest) dir) :
    finStep (tripleName f.id s.id m.id) .check dir = .raised .unpicklingError := by
  simp only [finStep, get?_perm h.wf (dump_present h), pickleLoad]

end

/-- A step of a merge changes its files only, and keeps its words and their counts. -/
theorem MStep.holds {m m' : MState} {rest : List MState} {dir dir' : DumpDir} (hs : MStep dir m dir' m')
    (h : Holds (m :: rest) dir) :
    Holds (m' :: rest) dir' ∧ (∀ w, m'.count w = m.count w) ∧ ∀ w, m'.hasWord w ↔ m.hasWord w := by
  have hok := h.ok _ List.mem_cons_self
  cases hs with
  | @create f s id eof hf =>
    refine ⟨⟨?_, ?_, ?_⟩, fun _ => rfl, fun _ => Iff.rfl⟩
    · refine (set_new_perm _ (triple_fresh hok.1.1 hok.2.1 hf)).trans ?_
      refine (h.perm.cons _).trans ?_
      simp only [List.map_cons, List.flatten_cons, MState.files, PVocab.renewId, List.cons_append, List.nil_append]
      exact ((List.Perm.swap _ _ _).trans ((List.Perm.swap _ _ _).cons _)).trans (((List.Perm.swap _ _ _).cons _).cons _)
    · have hn := h.nodup
      have hfr := h.fresh hf
      simp only [List.map_cons, List.flatten_cons, MState.ids, PVocab.renewId, List.cons_append, List.nil_append,
        List.nodup_cons, List.mem_cons, not_or] at hn hfr ⊢
      exact ⟨⟨hn.1.1, Ne.symm hfr.1, hn.1.2⟩, ⟨Ne.symm hfr.2.1, hn.2.1⟩, hfr.2.2, hn.2.2⟩
    · intro it hit
      rcases List.mem_cons.mp hit with rfl | hit
      · exact ⟨hok.1, hok.2, hok.1.add hok.2 hf.1, rfl⟩
      · exact h.ok it (by simp [hit])
  | @complete f s res eof =>
    have hp := dump_present h
    refine ⟨h.change ?_ (List.Sublist.refl _) hok, fun w => ?_, fun w => ?_⟩
    · refine (set_old_perm _ h.wf hp).trans ?_
      simp only [MState.files, List.cons_append, List.nil_append]
      exact ((List.Perm.swap _ _ _).trans ((List.Perm.swap _ _ _).cons _)).trans (((List.Perm.swap _ _ _).cons _).cons _)
    · simp only [MState.count]
      rw [hok.2.2.2]
      exact add_count hok.1 hok.2.1 _ w
    · simp only [MState.hasWord]
      rw [hok.2.2.2]
      exact add_keys hok.2.1 _ w
  | @next f s res st _ st' hn =>
    cases st with
    | check =>
      rw [fin_check h] at hn
      cases hn
      exact ⟨h.change (by simpa [MState.files] using h.perm) (List.Sublist.refl _) hok, fun _ => rfl, fun _ => Iff.rfl⟩
    | first =>
      obtain ⟨d, h1, h2⟩ := fin_first h
      rw [h1] at hn
      cases hn
      exact ⟨h2, fun _ => rfl, fun _ => Iff.rfl⟩
    | second =>
      obtain ⟨d, h1, h2⟩ := fin_second h (.inl rfl)
      rw [h1] at hn
      cases hn
      exact ⟨h2, fun _ => rfl, fun _ => Iff.rfl⟩
    | rename =>
      obtain ⟨d, h1, h2⟩ := fin_rename h
      rw [h1] at hn
      cases hn
  | @last f s res st _ hn =>
    cases st with
    | check => rw [fin_check h] at hn; cases hn
    | first => obtain ⟨d, h1, h2⟩ := fin_first h; rw [h1] at hn; cases hn
    | second => obtain ⟨d, h1, h2⟩ := fin_second h (.inl rfl); rw [h1] at hn; cases hn
    | rename =>
      obtain ⟨d, h1, h2⟩ := fin_rename h
      rw [h1] at hn
      cases hn
      exact ⟨h2, fun _ => rfl, fun _ => Iff.rfl⟩

/-- A merge that is not done can make a step, if there is a new identifier. -/
theorem MStep.progress {m : MState} {rest : List MState} {dir : DumpDir} (h : Holds (m :: rest) dir)
    (hfresh : ∃ id, FreshId dir id) : (∃ v, m = .done v) ∨ ∃ dir' m', MStep dir m dir' m' := by
  cases m with
  | ready f s => obtain ⟨id, hid⟩ := hfresh; exact .inr ⟨_, _, .create (eof := true) hid⟩
  | dumping f s m e => exact .inr ⟨_, _, .complete⟩
  | finishing f s m st =>
    cases st with
    | check => exact .inr ⟨_, _, .next (fin_check h)⟩
    | first => obtain ⟨d, h1, h2⟩ := fin_first h; exact .inr ⟨_, _, .next h1⟩
    | second => obtain ⟨d, h1, h2⟩ := fin_second h (.inl rfl); exact .inr ⟨_, _, .next h1⟩
    | rename => obtain ⟨d, h1, h2⟩ := fin_rename h; exact .inr ⟨_, _, .last h1⟩
  | done v => exact .inl ⟨v, rfl⟩

end Verif
