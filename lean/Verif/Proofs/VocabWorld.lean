import Verif.Proofs.VocabProgress
/-!
# The invariant of the calculation of a vocabulary, with crashes
-/
namespace Verif
open Spec

/-! ### File name patterns -/

theorem fnmatch_lit_mem {p : List Glob} {s : Str} {c : Char} (h : fnmatch p s = true) (hc : Glob.lit c ∈ p) : c ∈ s := by
  fun_induction fnmatch p s with
  | case1 => simp at hc
  | case2 => simp at hc
  | case3 p ih => exact absurd (ih h (by simpa using hc)) (by simp)
  | case4 p d s ih1 ih2 =>
    simp only [Bool.or_eq_true] at h
    rcases h with h | h
    · exact ih1 h (by simpa using hc)
    · exact List.mem_cons_of_mem _ (ih2 h hc)
  | case5 p d s ih =>
    simp only [Bool.and_eq_true] at h
    exact List.mem_cons_of_mem _ (ih h.2 (by simpa using hc))
  | case6 => simp at h
  | case7 d p x s ih =>
    simp only [Bool.and_eq_true, decide_eq_true_eq] at h
    simp only [List.mem_cons, Glob.lit.injEq] at hc
    rcases hc with rfl | hc
    · rw [h.1]; exact List.mem_cons_self
    · exact List.mem_cons_of_mem _ (ih h.2 hc)
  | case8 => simp at h

theorem fnmatch_star {p : List Glob} {a b : Str} (h : fnmatch p b = true) : fnmatch (.star :: p) (a ++ b) = true := by
  induction a with
  | nil =>
    cases b with
    | nil => simpa [fnmatch] using h
    | cons c b => simp [fnmatch, h]
  | cons c a ih =>
    rw [List.cons_append, fnmatch, ih, Bool.or_true]

theorem fnmatch_id {p : List Glob} {a b : Str} (ha : IsId a) (h : fnmatch p b = true) :
    fnmatch (.digit :: .star :: p) (a ++ b) = true := by
  obtain ⟨hne, hd⟩ := ha
  cases a with
  | nil => exact absurd rfl hne
  | cons c a =>
    rw [List.cons_append, fnmatch]
    rw [fnmatch_star h]
    simpa using hd c (by simp)

theorem fnmatch_lits (s : Str) : fnmatch (s.map .lit) s = true := by
  induction s with
  | nil => simp [fnmatch]
  | cons c s ih => simp [fnmatch, ih]

theorem triplePattern_eq : triplePattern =
    .digit :: .star :: .lit '_' :: .digit :: .star :: .lit '_' :: .digit :: .star :: partvocabExt.map .lit := rfl

theorem fnmatch_triple {a b c : Str} (ha : IsId a) (hb : IsId b) (hc : IsId c) :
    fnmatch triplePattern (tripleName a b c) = true := by
  rw [triplePattern_eq]
  unfold tripleName
  refine fnmatch_id ha ?_
  rw [fnmatch]
  simp only [decide_true, Bool.true_and]
  refine fnmatch_id hb ?_
  rw [fnmatch]
  simp only [decide_true, Bool.true_and]
  exact fnmatch_id hc (fnmatch_lits _)

theorem fnmatch_no {s : Str} (h : '_' ∉ s) : fnmatch triplePattern s = false := by
  cases hh : fnmatch triplePattern s with
  | false => rfl
  | true => exact absurd (fnmatch_lit_mem hh (c := '_') (by rw [triplePattern_eq]; simp)) h

theorem fnmatch_simple {a : Str} (ha : IsId a) : fnmatch triplePattern (simpleName a) = false := by
  apply fnmatch_no
  rw [simpleName]
  intro hm
  rcases List.mem_append.mp hm with hm | hm
  · exact ha.no (by decide) hm
  · exact absurd hm (by decide)

theorem fnmatch_ready : fnmatch triplePattern readyName = false := fnmatch_no (by decide)

theorem endsWith_simple (a : Str) : endsWith (simpleName a) "partvocab".toList = true := by
  rw [simpleName_eq]
  unfold endsWith
  rw [List.reverse_append, List.reverse_cons, List.append_assoc]
  exact List.isPrefixOf_iff_prefix.mpr (List.prefix_append _ _)

/-! ### Merges found in the directory -/

/-- The name of the file of a merge that is not finished. -/
def MState.opens : MState → List Str
  | .dumping f s m _ => [tripleName f.id s.id m.id]
  | .finishing f s m _ => [tripleName f.id s.id m.id]
  | _ => []

theorem MState.filter_files {m : MState} (h : m.Ok) :
    (m.files.map (·.1)).filter (fnmatch triplePattern) = m.opens := by
  cases m with
  | ready f s => simp [MState.files, MState.opens, fnmatch_simple h.1.1, fnmatch_simple h.2.1]
  | dumping f s m e =>
    simp [MState.files, MState.opens, fnmatch_simple h.1.1, fnmatch_simple h.2.1.1, fnmatch_triple h.1.1 h.2.1.1 h.2.2.1.1]
  | finishing f s m st =>
    have h1 := fnmatch_simple h.1.1
    have h2 := fnmatch_simple h.2.1.1
    have h3 := fnmatch_triple h.1.1 h.2.1.1 h.2.2.1.1
    cases st <;> simp [MState.files, MState.opens, h1, h2, h3]
  | done v => simp [MState.files, MState.opens, fnmatch_simple h.1]

theorem filter_items {items : List MState} (h : ∀ it ∈ items, it.Ok) :
    (((items.map MState.files).flatten).map (·.1)).filter (fnmatch triplePattern) = (items.map MState.opens).flatten := by
  induction items with
  | nil => rfl
  | cons a t ih =>
    simp only [List.map_cons, List.flatten_cons, List.map_append, List.filter_append]
    rw [MState.filter_files (h a (by simp)), ih (fun it hit => h it (by simp [hit]))]

theorem Holds.unfinished {items : List MState} {dir : DumpDir} (h : Holds items dir) {names : List Str}
    (hn : names.Perm dir.keys) : (names.filter (fnmatch triplePattern)).Perm (items.map MState.opens).flatten := by
  refine (hn.filter _).trans ?_
  refine ((h.perm.map (·.1)).filter _).trans ?_
  rw [List.map_cons, List.filter_cons, if_neg (by rw [fnmatch_ready]; simp), filter_items h.ok]

/-- The execution of `finish_file_dumping` is consistent with what is in the directory. -/
def MState.stageOk : MState → Str → FinSt → Prop
  | .dumping f s m _, name, st => name = tripleName f.id s.id m.id ∧ st = .check
  | .finishing f s m st0, name, st => name = tripleName f.id s.id m.id ∧
      (st = .second → st0 = .second ∨ st0 = .rename) ∧ (st = .rename → st0 = .rename)
  | _, _, _ => False

/-- The files that are still to be looked at are those of the merges that are not finished. -/
def RecOk (items : List MState) (todo : List Str) : Option (Str × FinSt) → Prop
  | none => ((items.map MState.opens).flatten).Perm todo
  | some (name, st) => ∃ it rest, items.Perm (it :: rest) ∧ ((rest.map MState.opens).flatten).Perm todo ∧ it.stageOk name st

theorem RecOk.file {items name todo} (h : RecOk items (name :: todo) none) : RecOk items todo (some (name, .check)) := by
  have h0 : ((items.map MState.opens).flatten).Perm (name :: todo) := h
  have hm : name ∈ (items.map MState.opens).flatten := h0.mem_iff.mpr (by simp)
  obtain ⟨x, hx, hn⟩ := List.mem_flatten.mp hm
  obtain ⟨it, hit, rfl⟩ := List.mem_map.mp hx
  obtain ⟨a, b, rfl⟩ := List.append_of_mem hit
  have hp : (a ++ it :: b).Perm (it :: (a ++ b)) := List.perm_middle
  have h1 := ((hp.map MState.opens).flatten).symm.trans h0
  simp only [List.map_cons, List.flatten_cons] at h1
  refine ⟨it, a ++ b, hp, ?_, ?_⟩
  · cases it with
    | dumping f s m e =>
      simp only [MState.opens, List.mem_singleton] at hn
      subst hn
      exact h1.cons_inv
    | finishing f s m st =>
      simp only [MState.opens, List.mem_singleton] at hn
      subst hn
      exact h1.cons_inv
    | ready f s => simp [MState.opens] at hn
    | done v => simp [MState.opens] at hn
  · cases it with
    | dumping f s m e => simpa [MState.opens, MState.stageOk] using hn
    | finishing f s m st => simpa [MState.opens, MState.stageOk] using hn
    | ready f s => simp [MState.opens] at hn
    | done v => simp [MState.opens] at hn

theorem same_count {f s m : PVocab} {st : FinSt} {rest : List MState} {dir : DumpDir} {C W} (h : Tot C W (.finishing f s m st :: rest))
    (st' : FinSt) (_ : Holds (.finishing f s m st :: rest) dir) : Tot C W (.finishing f s m st' :: rest) :=
  h.change ⟨fun _ => rfl, fun _ => Iff.rfl⟩

/-- One step of looking at a file, for a file that is not finished. -/
theorem rec_step {C W} {dk : Disk} {it : MState} {rest : List MState} {name : Str} {st : FinSt}
    (hs : Stored C W dk (it :: rest)) (hok : it.stageOk name st) :
    (∃ dir' st' it', finStep name st dk.dir = .next dir' st' ∧ Stored C W { dk with dir := dir' } (it' :: rest) ∧ it'.stageOk name st') ∨
    (∃ dir' it', finStep name st dk.dir = .finished dir' ∧ Stored C W { dk with dir := dir' } (it' :: rest) ∧ it'.opens = []) ∨
    (finStep name st dk.dir = .raised .unpicklingError ∧ (name, DumpFile.truncated false) ∈ dk.dir) := by
  cases it with
  | ready f s => exact hok.elim
  | done v => exact hok.elim
  | dumping f s m eof =>
    obtain ⟨rfl, rfl⟩ := hok
    cases eof with
    | true =>
      obtain ⟨dir', h1, h2⟩ := fin_check_eof hs.1
      exact .inr (.inl ⟨dir', .ready f s, h1, ⟨h2, hs.2.change ⟨fun _ => rfl, fun _ => Iff.rfl⟩⟩, rfl⟩)
    | false => exact .inr (.inr ⟨fin_check_bad hs.1, (dump_present hs.1).mem_iff.mpr (by simp)⟩)
  | finishing f s m st0 =>
    obtain ⟨rfl, h2, h3⟩ := hok
    cases st with
    | check => exact .inl ⟨_, _, .finishing f s m st0, fin_check hs.1, hs, rfl, by simp, by simp⟩
    | first =>
      obtain ⟨dir', h4, h5⟩ := fin_first hs.1
      refine .inl ⟨dir', _, _, h4, ⟨h5, same_count hs.2 _ hs.1⟩, rfl, ?_, by simp⟩
      intro _
      split
      · exact .inr rfl
      · exact .inl rfl
    | second =>
      obtain ⟨dir', h4, h5⟩ := fin_second hs.1 (h2 rfl)
      exact .inl ⟨dir', _, _, h4, ⟨h5, same_count hs.2 _ hs.1⟩, rfl, by simp, by simp⟩
    | rename =>
      cases h3 rfl
      obtain ⟨dir', h4, h5⟩ := fin_rename hs.1
      exact .inr (.inl ⟨dir', .done m, h4, ⟨h5, hs.2.change ⟨fun _ => rfl, fun _ => Iff.rfl⟩⟩, rfl⟩)

/-! ### Loading the vocabularies -/

/-- The vocabularies of finished merges and of merges that have not begun. -/
def MState.vocabs : MState → List PVocab
  | .ready f s => [f, s]
  | .done v => [v]
  | _ => []

theorem flat_holds {items : List MState} {dir : DumpDir} (h : Holds items dir) (hf : ∀ it ∈ items, it.opens = []) :
    Holds (((items.map MState.vocabs).flatten).map .done) dir := by
  have e1 : ((((items.map MState.vocabs).flatten).map MState.done).map MState.files).flatten = (items.map MState.files).flatten ∧
      ((((items.map MState.vocabs).flatten).map MState.done).map MState.ids).flatten = (items.map MState.ids).flatten := by
    clear h
    induction items with
    | nil => exact ⟨rfl, rfl⟩
    | cons a t ih =>
      obtain ⟨i1, i2⟩ := ih fun it hit => hf it (by simp [hit])
      have ha := hf a (by simp)
      simp only [List.map_cons, List.flatten_cons, List.map_append, List.flatten_append]
      rw [i1, i2]
      cases a with
      | ready f s => simp [MState.vocabs, MState.files, MState.ids]
      | done v => simp [MState.vocabs, MState.files, MState.ids]
      | dumping f s m e => simp [MState.opens] at ha
      | finishing f s m st => simp [MState.opens] at ha
  refine ⟨?_, ?_, ?_⟩
  · rw [e1.1]; exact h.perm
  · rw [e1.2]; exact h.nodup
  · intro it hit
    obtain ⟨v, hv, rfl⟩ := List.mem_map.mp hit
    obtain ⟨x, hx, hvx⟩ := List.mem_flatten.mp hv
    obtain ⟨m, hm, rfl⟩ := List.mem_map.mp hx
    have hok := h.ok m hm
    cases m with
    | ready f s =>
      simp only [MState.vocabs, List.mem_cons, List.not_mem_nil, or_false] at hvx
      rcases hvx with rfl | rfl
      · exact hok.1
      · exact hok.2
    | done v =>
      simp only [MState.vocabs, List.mem_singleton] at hvx
      subst hvx
      exact hok
    | dumping f s m e => simp [MState.vocabs] at hvx
    | finishing f s m st => simp [MState.vocabs] at hvx

theorem flat_tot {C W} {items : List MState} (h : Tot C W items) (hf : ∀ it ∈ items, it.opens = []) :
    Tot C W (((items.map MState.vocabs).flatten).map .done) := by
  have e : ∀ t w, ((((items.map MState.vocabs).flatten).map MState.done).map (MState.count t)).sum = (items.map (MState.count t)).sum ∧
      ((∃ it ∈ ((items.map MState.vocabs).flatten).map MState.done, it.hasWord w) ↔ ∃ it ∈ items, it.hasWord w) := by
    intro t w
    clear h
    induction items with
    | nil => simp
    | cons a t ih =>
      obtain ⟨i1, i2⟩ := ih fun it hit => hf it (by simp [hit])
      have ha := hf a (by simp)
      cases a with
      | ready f s =>
        constructor
        · simp only [List.map_cons, List.flatten_cons, List.map_append, List.sum_append, List.sum_cons, i1]
          simp [MState.vocabs, MState.count]
        · simp only [List.map_cons, List.flatten_cons, List.map_append, List.mem_append, List.mem_cons, or_and_right, exists_or, i2]
          simp [MState.vocabs, MState.hasWord]
      | done v =>
        constructor
        · simp only [List.map_cons, List.flatten_cons, List.map_append, List.sum_append, List.sum_cons, i1]
          simp [MState.vocabs]
        · simp only [List.map_cons, List.flatten_cons, List.map_append, List.mem_append, List.mem_cons, or_and_right, exists_or, i2]
          simp [MState.vocabs, MState.hasWord]
      | dumping f s m e => simp [MState.opens] at ha
      | finishing f s m st => simp [MState.opens] at ha
  exact ⟨fun t => by rw [(e t []).1]; exact h.count t, fun w => by rw [(e .files w).2]; exact h.word w⟩

theorem loadAll_mapM {dir : DumpDir} {vs : List PVocab} (h : ∀ v ∈ vs, dir.get? (simpleName v.id) = some (.vocab v)) :
    ((vs.map fun v => simpleName v.id).mapM fun n =>
      match dir.get? n with
      | none => Except.error PyErr.fileNotFound
      | some f => pickleLoad f) = .ok vs := by
  induction vs with
  | nil => rfl
  | cons v t ih =>
    rw [List.map_cons, List.mapM_cons, ih fun x hx => h x (by simp [hx]), h v (by simp)]
    rfl

theorem perm_of_map {α β : Type} {f : α → β} {l : List β} {m : List α} (h : l.Perm (m.map f)) :
    ∃ m' : List α, m'.Perm m ∧ l = m'.map f := by
  generalize hb : m.map f = b at h
  induction h generalizing m with
  | nil => exact ⟨[], by rw [List.map_eq_nil_iff] at hb; rw [hb], rfl⟩
  | @cons x l1 l2 _ ih =>
    cases m with
    | nil => simp at hb
    | cons a t =>
      simp only [List.map_cons, List.cons.injEq] at hb
      obtain ⟨m', h1, h2⟩ := ih hb.2
      exact ⟨a :: m', h1.cons a, by rw [List.map_cons, hb.1, h2]⟩
  | swap x y l =>
    cases m with
    | nil => simp at hb
    | cons a t =>
      cases t with
      | nil => simp at hb
      | cons c t =>
        simp only [List.map_cons, List.cons.injEq] at hb
        exact ⟨c :: a :: t, List.Perm.swap _ _ _, by simp [hb.1, hb.2.1, hb.2.2]⟩
  | trans _ _ ih1 ih2 =>
    obtain ⟨m', h1, h2⟩ := ih2 hb
    obtain ⟨m'', h3, h4⟩ := ih1 h2.symm
    exact ⟨m'', h3.trans h1, h4⟩

/-- Loading never fails if all merges are finished, and finds everything. -/
theorem loadAll_ok {vs : List PVocab} {dir : DumpDir} (h : Holds (vs.map .done) dir) {names : List Str}
    (hn : names.Perm dir.keys) : ∃ ts, loadAll dir names = .ok ts ∧ ts.Perm vs := by
  have hfiles : ((vs.map MState.done).map MState.files).flatten = vs.map fun v => (simpleName v.id, DumpFile.vocab v) := by
    clear h
    induction vs with
    | nil => rfl
    | cons v t ih => simp only [List.map_cons, List.flatten_cons, ih, MState.files]; rfl
  have hp := h.perm
  rw [hfiles] at hp
  have hk : (names.filter fun n => endsWith n "partvocab".toList).Perm (vs.map fun v => simpleName v.id) := by
    refine (hn.filter _).trans ?_
    refine ((hp.map (·.1)).filter _).trans ?_
    rw [List.map_cons, List.filter_cons, if_neg (by decide), List.map_map]
    rw [List.filter_eq_self.mpr]
    · exact List.Perm.refl _
    · intro x hx
      obtain ⟨v, _, rfl⟩ := List.mem_map.mp hx
      exact endsWith_simple _
  obtain ⟨ts, h1, h2⟩ := perm_of_map hk
  refine ⟨ts, ?_, h1⟩
  unfold loadAll
  rw [h2]
  apply loadAll_mapM
  intro v hv
  refine Dict.mem_get? h.wf (hp.mem_iff.mpr (List.mem_cons_of_mem _ ?_))
  exact List.mem_map.mpr ⟨v, h1.mem_iff.mp hv, rfl⟩

/-! ### The invariant -/

/-- What the files look like whenever the program might be started. -/
def DiskOk (C : Tally → Nat) (W : Str → Prop) (dk : Disk) : Prop :=
  (dk.vocab = none ∧ (readyName ∈ dk.dir.keys → ∃ items, items ≠ [] ∧ Stored C W dk items)) ∨
  ∃ d ls t rest, IsTotal C W d ∧ dk.stats = some (.complete d.length ls) ∧ dk.vocab = some t ∧ t ++ rest = writeVocab d

/-- A vocabulary that has not been created. -/
def partItem (t : Dict Str Nat × Nat) : MState := .done (PVocab.init t.1 t.2 [])

/-- Creating the partial vocabularies. -/
structure Creating (C : Tally → Nat) (W : Str → Prop) (dir : DumpDir) (todo : List (Dict Str Nat × Nat))
    (bs : List (PVocab × Bool)) (done : List PVocab) : Prop where
  perm : dir.Perm (bs.map (fun b => (simpleName b.1.id, DumpFile.truncated b.2)) ++
    done.map (fun v => (simpleName v.id, DumpFile.vocab v)))
  nodup : (bs.map (fun b => b.1.id) ++ done.map (fun v => v.id)).Nodup
  okBusy : ∀ b ∈ bs, VOk b.1
  okDone : ∀ v ∈ done, VOk v
  okTodo : ∀ t ∈ todo, Dict.WF t.1
  tot : Tot C W (todo.map partItem ++ (bs.map (fun b => MState.done b.1) ++ done.map .done))
  some : todo.length + bs.length + done.length ≠ 0

/-- The invariant for each phase. -/
def PhaseInv (C : Tally → Nat) (W : Str → Prop) (dk : Disk) : Phase → Prop
  | .start => DiskOk C W dk
  | .returned => DiskOk C W dk
  | .clearing => dk.vocab = none ∧ readyName ∉ dk.dir.keys
  | .creating todo busy done => dk.vocab = none ∧ readyName ∉ dk.dir.keys ∧
      ∃ bs, busy = bs.map (·.1) ∧ Creating C W dk.dir todo bs done
  | .recovering todo cur => dk.vocab = none ∧ ∃ items, items ≠ [] ∧ Stored C W dk items ∧ RecOk items todo cur
  | .running q ps => RunInv C W dk q ps

theorem Normal.some {tokens q ps} (h : Normal tokens q ps) : owned q.tasks ps ≠ [] := by
  obtain ⟨c, hc⟩ := List.exists_mem_of_ne_nil _ h.nonempty
  obtain ⟨l, hl⟩ := mem_keys_get? hc
  have hb := h.balance c l hl
  intro hn
  unfold owned at hn
  obtain ⟨hn1, hn2⟩ := List.append_eq_nil_iff.mp hn
  have hlnil : l = [] := by
    cases l with
    | nil => rfl
    | cons v t =>
      have := (queue_pop hl).length_eq
      rw [hn1] at this
      simp at this
  have hm : ps.countP (fun p => p.1.merges c) = 0 := by
    rw [List.countP_eq_zero]
    intro x hx hh
    unfold procItems at hn2
    rw [List.flatten_eq_nil_iff] at hn2
    have := hn2 x.1.items (List.mem_map_of_mem hx)
    revert this hh
    cases x.1 <;> simp [PState.items, PState.merges]
  rw [hlnil, hm] at hb
  simp only [List.length_nil] at hb
  omega

theorem RunInv.diskOk {C W dk q ps} (h : RunInv C W dk q ps) : DiskOk C W dk := by
  cases h with
  | normal tokens h1 h2 h3 => exact .inl ⟨h2, fun _ => ⟨_, h1.some, h3⟩⟩
  | finish l r p b he hend hf hs _ =>
    subst he
    have some : p.items ≠ [] → p.after = false → ∃ items, items ≠ [] ∧ Stored C W dk items := by
      intro hi ha
      exact ⟨_, by simp [hi], (hs ha).split⟩
    cases p with
    | collecting todo got =>
      obtain ⟨h1, h2, ks, h3, h4, h5, h6, h7⟩ := hf
      refine .inl ⟨h1, fun _ => ?_⟩
      cases got with
      | cons v t => exact some (by simp [PState.items]) rfl
      | nil =>
        have hks : ks = [] := List.eq_nil_of_length_eq_zero (by simpa using h4.symm)
        rw [hks] at h3
        cases todo with
        | nil => exact absurd h3 h5
        | cons c t =>
          obtain ⟨v, hv⟩ := h7 c (by simp)
          refine ⟨_, ?_, (hs rfl).split⟩
          have := (queue_pop hv).length_eq
          intro hn
          simp only [PState.items, List.map_nil, List.nil_append, List.append_eq_nil_iff] at hn
          rw [hn.1] at this
          simp at this
    | combining m rest => exact .inl ⟨hf.1, fun _ => some (by simp [PState.items]) rfl⟩
    | writingStats v => exact .inl ⟨hf.1, fun _ => some (by simp [PState.items]) rfl⟩
    | openVocab v => exact .inl ⟨hf.1, fun _ => some (by simp [PState.items]) rfl⟩
    | writingVocab v rest =>
      obtain ⟨h1, ⟨ls, h2⟩, t, h3, h4⟩ := hf
      have hss := (hs rfl).split
      simp only [h1, procItems_ended hend, PState.items, List.append_nil] at hss
      exact .inr ⟨v.counts, ls, t, rest, Tot.total hss.1 hss.2, h2, h3, h4⟩
    | removing =>
      obtain ⟨d, ls, h1, h2, h3⟩ := hf
      exact .inr ⟨d, ls, _, [], h1, h2, h3, by simp⟩
    | ended =>
      obtain ⟨⟨d, ls, h1, h2, h3⟩, -⟩ := hf
      exact .inr ⟨d, ls, _, [], h1, h2, h3, by simp⟩
    | _ => exact hf.elim

theorem PhaseInv.diskOk {C W dk ph} (h : PhaseInv C W dk ph) : DiskOk C W dk := by
  cases ph with
  | start => exact h
  | returned => exact h
  | clearing => exact .inl ⟨h.1, fun hh => absurd hh h.2⟩
  | creating todo busy done => exact .inl ⟨h.1, fun hh => absurd hh h.2.1⟩
  | recovering todo cur =>
    obtain ⟨h1, items, h2, h3, -⟩ := h
    exact .inl ⟨h1, fun _ => ⟨items, h2, h3⟩⟩
  | running q ps => exact RunInv.diskOk h

theorem Creating.keys {C W dir todo bs done} (h : Creating C W dir todo bs done) {k : Str} (hk : k ∈ dir.keys) :
    ∃ v ∈ bs.map (·.1) ++ done, k = simpleName v.id := by
  obtain ⟨e, he, rfl⟩ := List.mem_map.mp hk
  have he' := h.perm.mem_iff.mp he
  rcases List.mem_append.mp he' with hm | hm
  · obtain ⟨b, hb, rfl⟩ := List.mem_map.mp hm
    exact ⟨b.1, List.mem_append_left _ (List.mem_map_of_mem hb), rfl⟩
  · obtain ⟨v, hv, rfl⟩ := List.mem_map.mp hm
    exact ⟨v, List.mem_append_right _ hv, rfl⟩

theorem Creating.wf {C W dir todo bs done} (h : Creating C W dir todo bs done) : dir.WF := by
  rw [perm_wf h.perm]
  apply nodup_of_map keyId
  unfold Dict.keys
  rw [List.map_map, List.map_append, List.map_map, List.map_map]
  have e1 : bs.map (((keyId ∘ fun e : Str × DumpFile => e.1)) ∘ fun b : PVocab × Bool => (simpleName b.1.id, DumpFile.truncated b.2)) =
      bs.map (fun b => b.1.id) := by
    apply List.map_congr_left
    intro b hb
    exact keyId_simple (h.okBusy b hb).1
  have e2 : done.map (((keyId ∘ fun e : Str × DumpFile => e.1)) ∘ fun v : PVocab => (simpleName v.id, DumpFile.vocab v)) =
      done.map (fun v => v.id) := by
    apply List.map_congr_left
    intro v hv
    exact keyId_simple (h.okDone v hv).1
  rw [e1, e2]
  exact h.nodup

theorem VOk.init {d : Dict Str Nat} (h : d.WF) (c : Nat) {id : Str} (hid : IsId id) : VOk (PVocab.init d c id) :=
  ⟨hid, h, StatsOk.init d c id⟩

theorem Creating.dump {C W dir l d c r bs done id} (h : Creating C W dir (l ++ (d, c) :: r) bs done) (hid : FreshId dir id) (eof : Bool) :
    Creating C W (dir.set (simpleName id) (.truncated eof)) (l ++ r) ((PVocab.init d c id, eof) :: bs) done where
  perm := by
    refine (set_new_perm _ (simple_fresh hid)).trans ?_
    simp only [List.map_cons, List.cons_append]
    exact h.perm.cons _
  nodup := by
    simp only [List.map_cons, List.cons_append, List.nodup_cons]
    refine ⟨?_, h.nodup⟩
    intro hm
    have : ∃ v ∈ bs.map (·.1) ++ done, v.id = id := by
      rcases List.mem_append.mp hm with hm | hm
      · obtain ⟨b, hb, e⟩ := List.mem_map.mp hm
        exact ⟨b.1, List.mem_append_left _ (List.mem_map_of_mem hb), e⟩
      · obtain ⟨v, hv, e⟩ := List.mem_map.mp hm
        exact ⟨v, List.mem_append_right _ hv, e⟩
    obtain ⟨v, hv, e⟩ := this
    refine simple_fresh hid ?_
    rw [← e, perm_keys h.perm]
    rcases List.mem_append.mp hv with hv | hv
    · obtain ⟨b, hb, rfl⟩ := List.mem_map.mp hv
      exact List.mem_map.mpr ⟨_, List.mem_append_left _ (List.mem_map_of_mem hb), rfl⟩
    · exact List.mem_map.mpr ⟨_, List.mem_append_right _ (List.mem_map_of_mem hv), rfl⟩
  okBusy := by
    intro b hb
    rcases List.mem_cons.mp hb with rfl | hb
    · exact VOk.init (h.okTodo (d, c) (by simp)) c hid.1
    · exact h.okBusy b hb
  okDone := h.okDone
  okTodo := fun t ht => h.okTodo t (by simp at ht ⊢; exact ht.elim .inl fun x => .inr (.inr x))
  tot := by
    have h1 : Tot C W (partItem (d, c) :: (l.map partItem ++ (r.map partItem ++ (bs.map (fun b => MState.done b.1) ++ done.map .done)))) := by
      refine h.tot.reorder ?_
      simp only [List.map_append, List.map_cons, List.append_assoc, List.cons_append]
      exact List.perm_middle
    refine (h1.change (m' := .done (PVocab.init d c id)) ⟨fun _ => rfl, fun _ => Iff.rfl⟩).reorder ?_
    simp only [List.map_append, List.map_cons, List.cons_append]
    rw [← List.append_assoc]
    exact List.perm_middle.symm
  some := by simp

theorem Creating.dumped {C W dir todo l v e r done} (h : Creating C W dir todo (l ++ (v, e) :: r) done) :
    Creating C W (dir.set (simpleName v.id) (.vocab v)) todo (l ++ r) (done ++ [v]) where
  perm := by
    have hp : dir.Perm ((simpleName v.id, DumpFile.truncated e) ::
        ((l ++ r).map (fun b => (simpleName b.1.id, DumpFile.truncated b.2)) ++ done.map (fun v => (simpleName v.id, DumpFile.vocab v)))) := by
      refine h.perm.trans ?_
      simp only [List.map_append, List.map_cons, List.append_assoc, List.cons_append]
      exact List.perm_middle
    refine (set_old_perm _ h.wf hp).trans ?_
    simp only [List.map_append, List.map_cons, List.map_nil, List.append_assoc]
    have := (List.perm_append_singleton (simpleName v.id, DumpFile.vocab v)
      (l.map (fun b => (simpleName b.1.id, DumpFile.truncated b.2)) ++ (r.map (fun b => (simpleName b.1.id, DumpFile.truncated b.2)) ++
        done.map (fun v => (simpleName v.id, DumpFile.vocab v))))).symm
    simpa only [List.append_assoc] using this
  nodup := by
    refine (List.Perm.nodup_iff ?_).mp h.nodup
    simp only [List.map_append, List.map_cons, List.map_nil, List.append_assoc, List.cons_append]
    refine List.perm_middle.trans ?_
    have := (List.perm_append_singleton v.id (l.map (fun b => b.1.id) ++ (r.map (fun b => b.1.id) ++ done.map (fun v => v.id)))).symm
    simpa only [List.append_assoc] using this
  okBusy := fun b hb => h.okBusy b (by simp at hb ⊢; exact hb.elim .inl fun x => .inr (.inr x))
  okDone := by
    intro x hx
    rcases List.mem_append.mp hx with hx | hx
    · exact h.okDone x hx
    · simp only [List.mem_singleton] at hx
      subst hx
      exact h.okBusy (x, e) (by simp)
  okTodo := h.okTodo
  tot := by
    refine h.tot.reorder (List.Perm.append_left _ ?_)
    simp only [List.map_append, List.map_cons, List.map_nil, List.append_assoc, List.cons_append]
    refine List.perm_middle.trans ?_
    have := (List.perm_append_singleton (MState.done v) (l.map (fun b => MState.done b.1) ++ (r.map (fun b => MState.done b.1) ++ done.map .done))).symm
    simpa only [List.append_assoc] using this
  some := by simp

theorem Creating.ready {C W} {dk : Disk} {done} (h : Creating C W dk.dir [] [] done) (hr : readyName ∉ dk.dir.keys) :
    done ≠ [] ∧ Stored C W { dk with dir := dk.dir.set readyName .mark } (done.map .done) := by
  refine ⟨fun e => h.some (by simp [e]), ⟨?_, ?_, ?_⟩, by simpa using h.tot⟩
  · refine (set_new_perm _ hr).trans (List.Perm.cons _ ?_)
    have hfiles : ((done.map MState.done).map MState.files).flatten = done.map fun v => (simpleName v.id, DumpFile.vocab v) := by
      clear h
      induction done with
      | nil => rfl
      | cons v t ih => simp only [List.map_cons, List.flatten_cons, ih, MState.files]; rfl
    rw [hfiles]
    simpa using h.perm
  · have hids : ((done.map MState.done).map MState.ids).flatten = done.map fun v => v.id := by
      clear h
      induction done with
      | nil => rfl
      | cons v t ih => simp only [List.map_cons, List.flatten_cons, ih, MState.ids]; rfl
    rw [hids]
    simpa using h.nodup
  · intro it hit
    obtain ⟨v, hv, rfl⟩ := List.mem_map.mp hit
    exact h.okDone v hv

theorem map_fst_split {bs : List (PVocab × Bool)} {l r : List PVocab} {v : PVocab} (h : l ++ v :: r = bs.map (·.1)) :
    ∃ l' e r', bs = l' ++ (v, e) :: r' ∧ l = l'.map (·.1) ∧ r = r'.map (·.1) := by
  obtain ⟨l', m, rfl, h1, h2⟩ := List.map_eq_append_iff.mp h.symm
  obtain ⟨b, r', rfl, h3, h4⟩ := List.map_eq_cons_iff.mp h2
  obtain ⟨b1, b2⟩ := b
  simp only at h3
  subst h3
  exact ⟨l', b2, r', rfl, h1.symm, h4.symm⟩

theorem keys_remove {l r : DumpDir} {e : Str × DumpFile} {k : Str} (h : k ∉ Dict.keys (l ++ e :: r)) : k ∉ Dict.keys (l ++ r) := by
  intro hm
  apply h
  simp only [Dict.keys, List.map_append, List.map_cons, List.mem_append, List.mem_cons] at hm ⊢
  exact hm.elim .inl fun x => .inr (.inr x)

theorem Dict.mem_set' {α β : Type} [DecidableEq α] {d : Dict α β} {k : α} {v : β} {e : α × β} (h : e ∈ d.set k v) :
    e ∈ d ∨ e = (k, v) := by
  induction d with
  | nil => simpa [Dict.set] using h
  | cons a t ih =>
    obtain ⟨x, y⟩ := a
    simp only [Dict.set] at h
    split at h
    · rename_i hx
      rcases List.mem_cons.mp h with rfl | h
      · exact .inr (by rw [hx])
      · exact .inl (by simp [h])
    · rcases List.mem_cons.mp h with rfl | h
      · exact .inl (by simp)
      · rcases ih h with h | h
        · exact .inl (by simp [h])
        · exact .inr h

theorem mem_keys_set {d : DumpDir} {k k' : Str} {v : DumpFile} (h : k' ∈ (d.set k v).keys) : k' = k ∨ k' ∈ d.keys := by
  obtain ⟨e, he, rfl⟩ := List.mem_map.mp h
  rcases Dict.mem_set' he with he | rfl
  · exact .inr (List.mem_map_of_mem he)
  · exact .inl rfl

theorem ready_ne_simple {id : Str} (h : IsId id) : readyName ≠ simpleName id := by
  intro e
  have := keyId_simple h
  rw [← e, keyId_ready] at this
  exact not_isId_ready (this ▸ h)

/-- A step of the calculation keeps the invariant. -/
theorem PhaseInv.step {C W parts n w w'} (hn : 0 < n) (hwf : ∀ p ∈ parts, Dict.WF p.1) (hC : Tot C W (parts.map partItem))
    (h : PhaseInv C W w.disk w.phase) (hs : WStep parts n w w') : PhaseInv C W w'.disk w'.phase := by
  cases hs with
  | exists_ _ _ => exact h
  | @recover dk names h1 h2 hp =>
    rcases h with ⟨hv, hh⟩ | ⟨d, ls, t, rest, _, e1, e2, _⟩
    · obtain ⟨items, hi, hst⟩ := hh (Dict.has_iff.mp h2)
      exact ⟨hv, items, hi, hst, (hst.1.unfinished hp).symm⟩
    · exact absurd ⟨by show dk.stats.isSome = true; rw [e1]; rfl, by show dk.vocab.isSome = true; rw [e2]; rfl⟩ h1
  | @fromScratch dk h1 h2 =>
    rcases h with ⟨hv, hh⟩ | ⟨d, ls, t, rest, _, e1, e2, _⟩
    · exact ⟨hv, fun hm => by rw [Dict.has_iff.mpr hm] at h2; cases h2⟩
    · exact absurd ⟨by show dk.stats.isSome = true; rw [e1]; rfl, by show dk.vocab.isSome = true; rw [e2]; rfl⟩ h1
  | @clear dk l e r hd =>
    refine ⟨h.1, ?_⟩
    have := h.2
    simp only [hd] at this
    exact keys_remove this
  | @cleared dk hd hne =>
    refine ⟨h.1, h.2, [], rfl, ?_⟩
    simp only [hd]
    exact ⟨by simp, by simp, by simp, by simp, hwf, by simpa using hC, by simpa using hne⟩
  | noFiles _ _ => exact .inl ⟨h.1, fun hh => absurd hh h.2⟩
  | @dump dk l d c r busy done id eof hf =>
    obtain ⟨h1, h2, bs, rfl, h3⟩ := h
    refine ⟨h1, ?_, (PVocab.init d c id, eof) :: bs, rfl, h3.dump hf eof⟩
    intro hm
    rcases mem_keys_set hm with e | hm
    · exact ready_ne_simple hf.1 e
    · exact h2 hm
  | @dumped dk todo l v r done =>
    obtain ⟨h1, h2, bs, hb, h3⟩ := h
    obtain ⟨l', e, r', rfl, rfl, rfl⟩ := map_fst_split hb
    refine ⟨h1, ?_, l' ++ r', by simp, h3.dumped⟩
    intro hm
    rcases mem_keys_set hm with e' | hm
    · exact ready_ne_simple (h3.okBusy (v, e) (by simp)).1 e'
    · exact h2 hm
  | @created dk done =>
    obtain ⟨h1, h2, bs, hb, h3⟩ := h
    have : bs = [] := List.map_eq_nil_iff.mp hb.symm
    subst this
    obtain ⟨h4, h5⟩ := h3.ready h2
    exact RunInv.start h4 hn h1 h5
  | recoverFile =>
    obtain ⟨h1, items, h2, h3, h4⟩ := h
    exact ⟨h1, items, h2, h3, h4.file⟩
  | @recoverNext dk name st todo dir' st' hf =>
    obtain ⟨h1, items, h2, h3, it, rest, h4, h5, h6⟩ := h
    rcases rec_step (h3.reorder h4) h6 with ⟨dir'', st'', it', e, h7, h8⟩ | ⟨dir'', it', e, _, _⟩ | ⟨e, _⟩
    · rw [hf] at e
      cases e
      exact ⟨h1, it' :: rest, by simp, h7, it', rest, List.Perm.refl _, h5, h8⟩
    · rw [hf] at e; cases e
    · rw [hf] at e; cases e
  | @recoverLast dk name st todo dir' hf =>
    obtain ⟨h1, items, h2, h3, it, rest, h4, h5, h6⟩ := h
    rcases rec_step (h3.reorder h4) h6 with ⟨dir'', st'', it', e, h7, h8⟩ | ⟨dir'', it', e, h7, h8⟩ | ⟨e, _⟩
    · rw [hf] at e; cases e
    · rw [hf] at e
      cases e
      refine ⟨h1, it' :: rest, by simp, h7, ?_⟩
      show ((List.map MState.opens (it' :: rest)).flatten).Perm todo
      rw [List.map_cons, h8, List.flatten_cons, List.nil_append]
      exact h5
    · rw [hf] at e; cases e
  | recoverRaised _ =>
    obtain ⟨h1, items, h2, h3, _⟩ := h
    exact .inl ⟨h1, fun _ => ⟨items, h2, h3⟩⟩
  | @loaded dk names tasks hp hl =>
    obtain ⟨h1, items, h2, h3, h4⟩ := h
    have hf : ∀ it ∈ items, it.opens = [] := by
      have : ((items.map MState.opens).flatten) = [] := List.Perm.eq_nil h4
      rw [List.flatten_eq_nil_iff] at this
      exact fun it hit => this _ (List.mem_map_of_mem hit)
    have hh := flat_holds h3.1 hf
    obtain ⟨ts, e, hts⟩ := loadAll_ok hh hp
    rw [hl] at e
    cases e
    have hst : Stored C W dk (tasks.map .done) :=
      Stored.reorder ⟨hh, flat_tot h3.2 hf⟩ (hts.symm.map _)
    refine RunInv.start ?_ hn h1 hst
    intro e
    subst e
    have hnil : (items.map MState.vocabs).flatten = [] := List.Perm.eq_nil hts.symm
    obtain ⟨it, hit⟩ := List.exists_mem_of_ne_nil _ h2
    rw [List.flatten_eq_nil_iff] at hnil
    have e1 := hnil _ (List.mem_map_of_mem hit)
    have e2 := hf it hit
    revert e1 e2
    cases it <;> simp [MState.vocabs, MState.opens]
  | loadRaised _ _ =>
    obtain ⟨h1, items, h2, h3, _⟩ := h
    exact .inl ⟨h1, fun _ => ⟨items, h2, h3⟩⟩
  | run hr => exact RunInv.step (R := ⟨_, _, _⟩) (R' := ⟨_, _, _⟩) h hr
  | joined _ => exact RunInv.diskOk h

/-- Problems keep the invariant. -/
theorem PhaseInv.fault {C W w w'} (h : PhaseInv C W w.disk w.phase) (hs : WFault w w') : PhaseInv C W w'.disk w'.phase := by
  cases hs with
  | run hr => exact RunInv.fault (R := ⟨_, _, _⟩) (R' := ⟨_, _, _⟩) h hr
  | restart => exact h.diskOk

end Verif
