import Verif.Spec.Learners
import Verif.Props.NewId
/-!
# C72: programs that learn merges at the same time
-/
namespace Verif.Props
open Verif Spec

/-! ## Invariants -/

theorem learning_ind {u : Ucd} {ok : Learner → Prop} {may : LearnWorld → Learner → Prop} {motive : (w : LearnWorld) → Learning u ok may w → Prop}
    (nil : motive _ .refl)
    (start : ∀ {w} (h : Learning u ok may w) i l hi hl hc, motive w h → motive _ (.tail h (.start i l hi hl hc)))
    (go : ∀ {w} (h : Learning u ok may w) i l hi hc, motive w h → motive _ (.tail h (.go i l hi hc)))
    (finish : ∀ {w} (h : Learning u ok may w) i l hi hp n, motive w h → motive _ (.tail h (.finish i l hi hp n)))
    (kill : ∀ {w} (h : Learning u ok may w) i, motive w h → motive _ (.tail h (.kill i))) {w : LearnWorld} (h : Learning u ok may w) : motive w h := by
  induction h with
  | refl => exact nil
  | tail h hs ih =>
    cases hs with
    | start i l hi hl hc => exact start h i l hi hl hc ih
    | go i l hi hc => exact go h i l hi hc ih
    | finish i l hi hp n => exact finish h i l hi hp n ih
    | kill i => exact kill h i ih

/-- A directory has the identifier in its file, or a program is about to write it. -/
def Holder (w : LearnWorld) (dir id : Str) : Prop := (∃ d ∈ w.reg, d.name = dir ∧ d.idFile = some id ∧ id ≠ []) ∨ Pending w dir id

structure LearnOk (u : Ucd) (ok : Learner → Prop) (w : LearnWorld) : Prop where
  names : (w.reg.map (·.name)).Nodup
  stored : ∀ d ∈ w.reg, ∀ id, d.idFile = some id → id = [] ∨ Storable u id
  pending : ∀ dir id, Pending w dir id → Storable u id
  progs : ∀ i l, w.learners i = some l → ∃ l', ok l' ∧ l = { l' with phase := l.phase }
  there : ∀ i l, w.learners i = some l → l.dir ∈ w.reg.map (·.name)

theorem setId_map {α : Type} (f : BpeDir → α) (hf : ∀ d s, f { d with idFile := s } = f d) (reg : Registry) (d s : Str) :
    (setId reg d s).map f = reg.map f := by
  unfold setId
  rw [List.map_map]
  apply List.map_congr_left
  intro e _
  simp only [Function.comp_def]
  split
  · exact hf _ _
  · rfl

theorem mem_setId {reg : Registry} {d s : Str} {e : BpeDir} (h : e ∈ setId reg d s) :
    ∃ e₀ ∈ reg, e₀.name = e.name ∧ e₀.subdirs = e.subdirs ∧ ((e.name = d ∧ e.idFile = some s) ∨ (e.name ≠ d ∧ e = e₀)) := by
  obtain ⟨e₀, h0, rfl⟩ := List.mem_map.mp h
  refine ⟨e₀, h0, ?_⟩
  rcases Classical.em (e₀.name = d) with hd | hd
  · rw [if_pos hd]; exact ⟨rfl, rfl, .inl ⟨hd, rfl⟩⟩
  · rw [if_neg hd]; exact ⟨rfl, rfl, .inr ⟨hd, rfl⟩⟩

theorem ensureDir_mem {reg : Registry} {d : Str} {e : BpeDir} : e ∈ ensureDir reg d ↔ e ∈ reg ∨ (d ∉ reg.map (·.name) ∧ e = ⟨d, none, []⟩) := by
  unfold ensureDir
  split
  · next h => exact ⟨.inl, fun h' => h'.elim id fun h' => absurd h h'.1⟩
  · next h => rw [List.mem_append, List.mem_singleton]; exact ⟨fun h' => h'.imp id fun e => ⟨h, e⟩, fun h' => h'.imp id fun e => e.2⟩

theorem ensureDir_names {reg : Registry} {d : Str} (h : (reg.map (·.name)).Nodup) : ((ensureDir reg d).map (·.name)).Nodup := by
  unfold ensureDir
  split
  · exact h
  · next hd =>
    rw [List.map_append, List.nodup_append]
    refine ⟨h, by simp, ?_⟩
    rintro a ha b hb rfl
    simp at hb
    subst hb
    exact hd ha

theorem mem_saveMerges {reg : Registry} {d : Str} {n : Nat} {e : BpeDir} (h : e ∈ saveMerges reg d n) :
    ∃ e₀ ∈ reg, e₀.name = e.name ∧ e₀.idFile = e.idFile ∧ ∀ s ∈ e₀.subdirs, s ∈ e.subdirs := by
  obtain ⟨e₀, h0, rfl⟩ := List.mem_map.mp h
  refine ⟨e₀, h0, ?_⟩
  split
  · exact ⟨rfl, rfl, fun s hs => List.mem_append_left _ hs⟩
  · exact ⟨rfl, rfl, fun s hs => hs⟩

theorem createNewId_may {u : Ucd} (hu : u.Laws) {reg : Registry} {l : Learner} (hl : Sound u l) {id : Str}
    (h : createNewId u reg l.path l.config l.given = .ok id) : MayChoose l id ∧ Storable u id ∧
      ((l.given = none ∨ l.given = some []) → ¬ HasId u reg id) ∧ ∀ c r, l.given = some (c :: r) → id = c :: r := by
  unfold MayChoose
  unfold Sound at hl
  rcases hg : l.given with _ | (_ | ⟨c, r⟩)
  · simp only [hg] at hl h ⊢
    obtain ⟨id', h1, h2, h3⟩ := C40_fresh_partial u reg l.path l.config hl.2
    rw [h1] at h
    cases h
    refine ⟨h3, ?_, fun _ => h2, fun _ _ h => nomatch h⟩
    rcases h3 with rfl | ⟨n, _, rfl⟩
    · exact hl.1
    · exact storable_numbered hu hl.1 n
  · simp only [hg] at hl h ⊢
    rw [C40_empty] at h
    obtain ⟨id', h1, h2, h3⟩ := C40_fresh_partial u reg l.path l.config hl.2
    rw [h1] at h
    cases h
    refine ⟨h3, ?_, fun _ => h2, fun _ _ h => nomatch h⟩
    rcases h3 with rfl | ⟨n, _, rfl⟩
    · exact hl.1
    · exact storable_numbered hu hl.1 n
  · simp only [hg] at hl h ⊢
    rw [C40_given _ _ _ _ _ (by simp)] at h
    cases h
    refine ⟨rfl, hl, fun h => ?_, fun _ _ h => ?_⟩
    · rcases h with h | h <;> cases h
    · exact Option.some.inj h

theorem setLearner_some {f : Nat → Option Learner} {i j : Nat} {o : Option Learner} {l : Learner} (h : setLearner f i o j = some l) :
    (j = i ∧ o = some l) ∨ (j ≠ i ∧ f j = some l) := by
  unfold setLearner at h
  split at h
  · next e => exact .inl ⟨e, h⟩
  · next e => exact .inr ⟨e, h⟩

/-- What a step before learning does. -/
theorem advance_cases (u : Ucd) (reg : Registry) (l : Learner) :
    (l.phase = .look ∧ l.advance u reg = (reg, some { l with phase := .learn }) ∧ ∃ d ∈ reg, d.name = l.dir ∧ ∃ c r, d.codesId u = some (c :: r)) ∨
    (l.phase = .look ∧ l.advance u reg = (reg, some { l with phase := .choose }) ∧
      ∀ c r, (reg.find? (·.name = l.dir)).bind (·.codesId u) ≠ some (c :: r)) ∨
    (l.phase = .choose ∧ l.advance u reg = (reg, none)) ∨
    (∃ id, l.phase = .choose ∧ createNewId u reg l.path l.config l.given = .ok id ∧ l.advance u reg = (reg, some { l with phase := .opening id })) ∨
    (∃ id, l.phase = .opening id ∧ l.advance u reg = (setId reg l.dir [], some { l with phase := .writing id })) ∨
    (∃ id, l.phase = .writing id ∧ l.advance u reg = (setId reg l.dir id, some { l with phase := .learn })) ∨
    (l.phase = .learn ∧ l.advance u reg = (reg, some l)) := by
  obtain ⟨path, config, given, dir, phase⟩ := l
  cases phase with
  | look =>
    rcases hf : (reg.find? (·.name = dir)).bind (·.codesId u) with _ | (_ | ⟨c, r⟩)
    · exact .inr (.inl ⟨rfl, by simp only [Learner.advance, hf], fun c r h => by simp only [hf] at h; cases h⟩)
    · exact .inr (.inl ⟨rfl, by simp only [Learner.advance, hf], fun c r h => by simp only [hf] at h; cases h⟩)
    · refine .inl ⟨rfl, by simp only [Learner.advance, hf], ?_⟩
      obtain ⟨d, hd, hc⟩ := Option.bind_eq_some_iff.mp hf
      obtain ⟨h1, h2⟩ := find_name hd
      exact ⟨d, h1, h2, c, r, hc⟩
  | choose =>
    cases hc : createNewId u reg path config given with
    | error e => exact .inr (.inr (.inl ⟨rfl, by simp only [Learner.advance, hc]⟩))
    | ok id => exact .inr (.inr (.inr (.inl ⟨id, rfl, rfl, by simp only [Learner.advance, hc]⟩)))
  | opening id => exact .inr (.inr (.inr (.inr (.inl ⟨id, rfl, rfl⟩))))
  | writing id => exact .inr (.inr (.inr (.inr (.inr (.inl ⟨id, rfl, rfl⟩)))))
  | learn => exact .inr (.inr (.inr (.inr (.inr (.inr ⟨rfl, rfl⟩)))))

theorem sound_phase {u : Ucd} {l l' : Learner} (e : l = { l' with phase := l.phase }) (h : Sound u l') : Sound u l := by
  rw [e]; exact h

theorem advance_names (u : Ucd) (reg : Registry) (l : Learner) : ((l.advance u reg).1.map (·.name)) = reg.map (·.name) := by
  rcases advance_cases u reg l with ⟨_, e, _⟩ | ⟨_, e, _⟩ | ⟨_, e⟩ | ⟨id, _, _, e⟩ | ⟨id, _, e⟩ | ⟨id, _, e⟩ | ⟨_, e⟩ <;> rw [e]
  · exact setId_map _ (fun _ _ => rfl) _ _ _
  · exact setId_map _ (fun _ _ => rfl) _ _ _

theorem advance_some {u : Ucd} {reg : Registry} {l l' : Learner} (h : (l.advance u reg).2 = some l') : l' = { l with phase := l'.phase } := by
  rcases advance_cases u reg l with ⟨_, e, _⟩ | ⟨_, e, _⟩ | ⟨_, e⟩ | ⟨id, _, _, e⟩ | ⟨id, _, e⟩ | ⟨id, _, e⟩ | ⟨_, e⟩ <;> rw [e] at h <;>
    cases h <;> rfl

/-- The programs that are about to write after a step of a program. -/
theorem go_pending {u : Ucd} {w : LearnWorld} {i : Nat} {l : Learner} (hi : w.learners i = some l) {dir id : Str} (h : Pending (w.go u i l) dir id) :
    Pending w dir id ∨ (dir = l.dir ∧ l.phase = .choose ∧ createNewId u w.reg l.path l.config l.given = .ok id) := by
  obtain ⟨j, l', hj, rfl, hp⟩ := h
  rcases setLearner_some hj with ⟨rfl, h1⟩ | ⟨_, h1⟩
  · rcases advance_cases u w.reg l with ⟨_, e, _⟩ | ⟨_, e, _⟩ | ⟨_, e⟩ | ⟨id', h2, h3, e⟩ | ⟨id', h2, e⟩ | ⟨id', _, e⟩ | ⟨h2, e⟩ <;> rw [e] at h1 <;> cases h1
    · rcases hp with hp | hp <;> cases hp
    · rcases hp with hp | hp <;> cases hp
    · rcases hp with hp | hp <;> cases hp
      exact .inr ⟨rfl, h2, h3⟩
    · rcases hp with hp | hp <;> cases hp
      exact .inl ⟨j, l, hi, rfl, .inl h2⟩
    · rcases hp with hp | hp <;> cases hp
    · exact .inl ⟨j, l, hi, rfl, hp⟩
  · exact .inl ⟨j, l', h1, rfl, hp⟩

theorem learning_ok {u : Ucd} (hu : u.Laws) {ok : Learner → Prop} {may : LearnWorld → Learner → Prop} (hok : ∀ l, ok l → Sound u l) {w : LearnWorld}
    (h : Learning u ok may w) : LearnOk u ok w := by
  induction h using learning_ind with
  | nil =>
    refine ⟨.nil, fun _ h => (by cases h), ?_, fun _ _ h => (by cases h), fun _ _ h => (by cases h)⟩
    rintro dir id ⟨_, _, h, _⟩
    cases h
  | @start w _ i l hi hl _ ih =>
    refine ⟨ensureDir_names ih.names, ?_, ?_, ?_, ?_⟩
    · intro d hd id hid
      rcases ensureDir_mem.mp hd with hd | ⟨_, rfl⟩
      · exact ih.stored d hd id hid
      · cases hid
    · rintro dir id ⟨j, l', hj, hd, hp⟩
      rcases setLearner_some hj with ⟨_, h⟩ | ⟨_, h⟩
      · cases h; rcases hp with hp | hp <;> cases hp
      · exact ih.pending dir id ⟨j, l', h, hd, hp⟩
    · intro j l' hj
      rcases setLearner_some hj with ⟨_, h⟩ | ⟨_, h⟩
      · cases h; exact ⟨l, hl, rfl⟩
      · exact ih.progs j l' h
    · intro j l' hj
      change l'.dir ∈ (ensureDir w.reg l.dir).map (·.name)
      rcases setLearner_some hj with ⟨_, h⟩ | ⟨_, h⟩
      · cases h
        rcases Classical.em (l.dir ∈ w.reg.map (·.name)) with hm | hm
        · obtain ⟨e, he, hn⟩ := List.mem_map.mp hm
          exact List.mem_map.mpr ⟨e, ensureDir_mem.mpr (.inl he), hn⟩
        · exact List.mem_map.mpr ⟨_, ensureDir_mem.mpr (.inr ⟨hm, rfl⟩), rfl⟩
      · obtain ⟨e, he, hn⟩ := List.mem_map.mp (ih.there j l' h)
        exact List.mem_map.mpr ⟨e, ensureDir_mem.mpr (.inl he), hn⟩
  | @go w _ i l hi hc ih =>
    obtain ⟨l₀, hl₀, el⟩ := ih.progs i l hi
    have hs := sound_phase el (hok _ hl₀)
    refine ⟨?_, ?_, ?_, ?_, ?_⟩
    · change ((l.advance u w.reg).1.map (·.name)).Nodup
      rw [advance_names]; exact ih.names
    · intro d hd id hid
      change d ∈ (l.advance u w.reg).1 at hd
      rcases advance_cases u w.reg l with ⟨_, e, _⟩ | ⟨_, e, _⟩ | ⟨_, e⟩ | ⟨id', _, _, e⟩ | ⟨id', _, e⟩ | ⟨id', hph, e⟩ | ⟨_, e⟩ <;> rw [e] at hd
      · exact ih.stored d hd id hid
      · exact ih.stored d hd id hid
      · exact ih.stored d hd id hid
      · exact ih.stored d hd id hid
      · obtain ⟨e₀, h0, _, _, ⟨_, h⟩ | ⟨_, rfl⟩⟩ := mem_setId hd
        · rw [h] at hid; cases hid; exact .inl rfl
        · exact ih.stored d h0 id hid
      · obtain ⟨e₀, h0, _, _, ⟨_, h⟩ | ⟨_, rfl⟩⟩ := mem_setId hd
        · rw [h] at hid; cases hid
          exact .inr (ih.pending l.dir id ⟨i, l, hi, rfl, .inr hph⟩)
        · exact ih.stored d h0 id hid
      · exact ih.stored d hd id hid
    · intro dir id hp
      rcases go_pending hi hp with h | ⟨_, _, h⟩
      · exact ih.pending dir id h
      · exact (createNewId_may hu hs h).2.1
    · intro j l' hj
      rcases setLearner_some hj with ⟨_, h⟩ | ⟨_, h⟩
      · refine ⟨l₀, hl₀, ?_⟩
        rw [advance_some h, el]
      · exact ih.progs j l' h
    · intro j l' hj
      change l'.dir ∈ (l.advance u w.reg).1.map (·.name)
      rw [advance_names]
      rcases setLearner_some hj with ⟨_, h⟩ | ⟨_, h⟩
      · rw [advance_some h]; exact ih.there i l hi
      · exact ih.there j l' h
  | @finish w _ i l hi hp n ih =>
    refine ⟨by change ((saveMerges w.reg l.dir n).map (·.name)).Nodup; rw [saveMerges_map _ (fun _ _ => rfl)]; exact ih.names, ?_, ?_, ?_, ?_⟩
    · intro d hd id hid
      obtain ⟨e₀, h0, _, h2, _⟩ := mem_saveMerges hd
      exact ih.stored e₀ h0 id (h2.trans hid)
    · rintro dir id ⟨j, l', hj, hd, hp⟩
      rcases setLearner_some hj with ⟨_, h⟩ | ⟨_, h⟩
      · cases h
      · exact ih.pending dir id ⟨j, l', h, hd, hp⟩
    · intro j l' hj
      rcases setLearner_some hj with ⟨_, h⟩ | ⟨_, h⟩
      · cases h
      · exact ih.progs j l' h
    · intro j l' hj
      change l'.dir ∈ (saveMerges w.reg l.dir n).map (·.name)
      rw [saveMerges_map _ (fun _ _ => rfl)]
      rcases setLearner_some hj with ⟨_, h⟩ | ⟨_, h⟩
      · cases h
      · exact ih.there j l' h
  | @kill w _ i ih =>
    refine ⟨ih.names, ih.stored, ?_, ?_, ?_⟩
    · rintro dir id ⟨j, l', hj, hd, hp⟩
      rcases setLearner_some hj with ⟨_, h⟩ | ⟨_, h⟩
      · cases h
      · exact ih.pending dir id ⟨j, l', h, hd, hp⟩
    · intro j l' hj
      rcases setLearner_some hj with ⟨_, h⟩ | ⟨_, h⟩
      · cases h
      · exact ih.progs j l' h
    · intro j l' hj
      rcases setLearner_some hj with ⟨_, h⟩ | ⟨_, h⟩
      · cases h
      · exact ih.there j l' h

/-- Who holds an identifier after a step, held it before, or has just chosen it. -/
theorem go_holder {u : Ucd} {w : LearnWorld} {i : Nat} {l : Learner} (hi : w.learners i = some l) {dir id : Str} (h : Holder (w.go u i l) dir id) :
    Holder w dir id ∨ (dir = l.dir ∧ l.phase = .choose ∧ createNewId u w.reg l.path l.config l.given = .ok id) := by
  rcases h with ⟨d, hd, hn, hid, hne⟩ | h
  · left
    change d ∈ (l.advance u w.reg).1 at hd
    rcases advance_cases u w.reg l with ⟨_, e, _⟩ | ⟨_, e, _⟩ | ⟨_, e⟩ | ⟨id', _, _, e⟩ | ⟨id', _, e⟩ | ⟨id', hph, e⟩ | ⟨_, e⟩ <;> rw [e] at hd
    · exact .inl ⟨d, hd, hn, hid, hne⟩
    · exact .inl ⟨d, hd, hn, hid, hne⟩
    · exact .inl ⟨d, hd, hn, hid, hne⟩
    · exact .inl ⟨d, hd, hn, hid, hne⟩
    · obtain ⟨e₀, h0, _, _, ⟨_, h⟩ | ⟨_, rfl⟩⟩ := mem_setId hd
      · rw [h] at hid; cases hid; exact absurd rfl hne
      · exact .inl ⟨d, h0, hn, hid, hne⟩
    · obtain ⟨e₀, h0, _, _, ⟨h1, h⟩ | ⟨_, rfl⟩⟩ := mem_setId hd
      · rw [h] at hid; cases hid
        exact .inr ⟨i, l, hi, h1.symm.trans hn, .inr hph⟩
      · exact .inl ⟨d, h0, hn, hid, hne⟩
    · exact .inl ⟨d, hd, hn, hid, hne⟩
  · rcases go_pending hi h with h | h
    · exact .inl (.inr h)
    · exact .inr h

theorem start_holder {w : LearnWorld} {i : Nat} {l : Learner} {dir id : Str} (h : Holder (w.start i l) dir id) : Holder w dir id := by
  rcases h with ⟨d, hd, hn, hid, hne⟩ | ⟨j, l', hj, hd, hp⟩
  · rcases ensureDir_mem.mp hd with hd | ⟨_, rfl⟩
    · exact .inl ⟨d, hd, hn, hid, hne⟩
    · cases hid
  · rcases setLearner_some hj with ⟨_, h⟩ | ⟨_, h⟩
    · cases h; rcases hp with hp | hp <;> cases hp
    · exact .inr ⟨j, l', h, hd, hp⟩

theorem finish_holder {w : LearnWorld} {i n : Nat} {l : Learner} {dir id : Str} (h : Holder (w.finish i l n) dir id) : Holder w dir id := by
  rcases h with ⟨d, hd, hn, hid, hne⟩ | ⟨j, l', hj, hd, hp⟩
  · obtain ⟨e₀, h0, h1, h2, _⟩ := mem_saveMerges hd
    exact .inl ⟨e₀, h0, h1.trans hn, h2.trans hid, hne⟩
  · rcases setLearner_some hj with ⟨_, h⟩ | ⟨_, h⟩
    · cases h
    · exact .inr ⟨j, l', h, hd, hp⟩

theorem kill_holder {w : LearnWorld} {i : Nat} {dir id : Str} (h : Holder (w.kill i) dir id) : Holder w dir id := by
  rcases h with h | ⟨j, l', hj, hd, hp⟩
  · exact .inl h
  · rcases setLearner_some hj with ⟨_, h⟩ | ⟨_, h⟩
    · cases h
    · exact .inr ⟨j, l', h, hd, hp⟩

/-- Different directories never hold the same identifier. -/
theorem holder_inj {u : Ucd} (hu : u.Laws) {ok : Learner → Prop} (hok : ∀ l, ok l → Sound u l) {w : LearnWorld} (h : Learning u ok (Clear u) w) :
    ∀ dir dir' id, Holder w dir id → Holder w dir' id → dir = dir' := by
  induction h using learning_ind with
  | nil =>
    rintro dir dir' id (⟨_, h, _⟩ | ⟨_, _, h, _⟩) _
    · cases h
    · cases h
  | start _ i l hi hl _ ih => exact fun dir dir' id h h' => ih dir dir' id (start_holder h) (start_holder h')
  | @go w hw i l hi hc ih =>
    have inv := learning_ok hu hok hw
    obtain ⟨l₀, hl₀, el⟩ := inv.progs i l hi
    have hs := sound_phase el (hok _ hl₀)
    -- whoever holds what has just been chosen is the same directory
    have key : ∀ dir id, Holder w dir id → l.phase = .choose → createNewId u w.reg l.path l.config l.given = .ok id → dir = l.dir := by
      intro dir id hh hph hcr
      obtain ⟨hmay, hst, hfresh, hgiven⟩ := createNewId_may hu hs hcr
      obtain ⟨c1, c2⟩ := hc hph hph
      rcases Classical.em (dir = l.dir) with hd | hd
      · exact hd
      · exfalso
        rcases hh with ⟨d, hm, hn, hid, hne⟩ | hp
        · rcases Classical.em (∃ k : Int, Learnt d k ∧ 0 < k ∧ k ≤ sysMaxsize) with hk | hk
          · rcases hg : l.given with _ | (_ | ⟨c, r⟩)
            · exact hfresh (.inl hg) ⟨hne, d, hm, codesId_of hid hst, hk⟩
            · exact hfresh (.inr hg) ⟨hne, d, hm, codesId_of hid hst, hk⟩
            · have := hgiven c r hg
              exact c2 id hne (by rw [hg, this]) d hm (fun h => hd (hn.symm.trans h)) (codesId_of hid hst)
          · exact c1 dir id (.inr ⟨d, hm, hn, hid, hk⟩) hd hmay
        · exact c1 dir id (.inl hp) hd hmay
    intro dir dir' id h h'
    rcases go_holder hi h with h | ⟨rfl, h1, h2⟩ <;> rcases go_holder hi h' with h' | ⟨rfl, h1', h2'⟩
    · exact ih dir dir' id h h'
    · exact key _ _ h h1' h2'
    · exact (key _ _ h' h1 h2).symm
    · rfl
  | finish _ i l hi hp n ih => exact fun dir dir' id h h' => ih dir dir' id (finish_holder h) (finish_holder h')
  | kill _ i ih => exact fun dir dir' id h h' => ih dir dir' id (kill_holder h) (kill_holder h')

theorem nodup_names_eq {reg : Registry} (h : (reg.map (·.name)).Nodup) {d e : BpeDir} (hd : d ∈ reg) (he : e ∈ reg) (hn : d.name = e.name) : d = e := by
  induction reg with
  | nil => cases hd
  | cons x r ih =>
    rw [List.map_cons, List.nodup_cons] at h
    rcases List.mem_cons.mp hd with h1 | h1 <;> rcases List.mem_cons.mp he with h2 | h2
    · rw [h1, h2]
    · have := List.mem_map_of_mem (f := (·.name)) h2
      rw [← hn, h1] at this
      exact absurd this h.1
    · have := List.mem_map_of_mem (f := (·.name)) h1
      rw [hn, h2] at this
      exact absurd this h.1
    · exact ih h.2 h1 h2

theorem codesId_holder {u : Ucd} {ok : Learner → Prop} {w : LearnWorld} (inv : LearnOk u ok w) {d : BpeDir} (hd : d ∈ w.reg) {id : Str}
    (hid : d.codesId u = some id) (hne : id ≠ []) : Holder w d.name id := by
  have h1 := hid
  unfold BpeDir.codesId at h1
  obtain ⟨t, ht, h2⟩ := Option.map_eq_some_iff.mp h1
  rcases inv.stored d hd t ht with rfl | hs
  · exact absurd (h2.symm.trans rfl) hne
  · rw [strip_storable hs] at h2
    exact .inl ⟨d, hd, rfl, by rw [ht, h2], hne⟩

/-! ## C72 -/

/-- **C72, partial** Any number of programs learn at the same time, and some of them are killed.  If no program chooses an identifier while
an unfinished run for another dataset has one that it could choose, different datasets have different identifiers, and every identifier
leads to its own dataset. -/
theorem C72_distinct_partial {u : Ucd} (hu : u.Laws) {ok : Learner → Prop} (hok : ∀ l, ok l → Sound u l) {w : LearnWorld}
    (h : Learning u ok (Clear u) w) :
    (∀ d ∈ w.reg, ∀ e ∈ w.reg, ∀ id, id ≠ [] → d.codesId u = some id → e.codesId u = some id → d = e) ∧
    ∀ d ∈ w.reg, ∀ id, id ≠ [] → d.codesId u = some id → getDatasetBpeDir u (some w.reg) id = .ok d := by
  have inv := learning_ok hu hok h
  have h1 : ∀ d ∈ w.reg, ∀ e ∈ w.reg, ∀ id, id ≠ [] → d.codesId u = some id → e.codesId u = some id → d = e := by
    intro d hd e he id hne hdi hei
    exact nodup_names_eq inv.names hd he (holder_inj hu hok h _ _ id (codesId_holder inv hd hdi hne) (codesId_holder inv he hei hne))
  refine ⟨h1, fun d hd id hne hdi => (C39_dir u w.reg id d).mpr ⟨hne, hdi, ?_⟩⟩
  obtain ⟨a, b, e⟩ := List.append_of_mem hd
  refine ⟨a, b, e, fun x hx hxi => ?_⟩
  have hx' : x ∈ w.reg := by rw [e]; exact List.mem_append_left _ hx
  have := h1 x hx' d hd id hne hxi hdi
  subst this
  have hn := inv.names
  rw [e, List.map_append, List.nodup_append] at hn
  exact hn.2.2 x.name (List.mem_map_of_mem hx) x.name (by simp) rfl

/-- For datasets whose names have nothing to do with each other nobody is ever in the way. -/
theorem clear_of_unrelated {u : Ucd} (hu : u.Laws) {ok : Learner → Prop} (hok : ∀ l, ok l → Sound u l)
    (hun : ∀ l l' id, ok l → ok l' → MayChoose l id → MayChoose l' id → l.dir = l'.dir) {w : LearnWorld}
    (h : Learning u ok (fun _ _ => True) w) : Learning u ok (Clear u) w := by
  -- whoever holds an identifier could choose it
  have key : (∀ dir id, Holder w dir id → ∃ l, ok l ∧ l.dir = dir ∧ MayChoose l id) ∧ Learning u ok (Clear u) w := by
    induction h using learning_ind with
    | nil =>
      refine ⟨?_, .refl⟩
      rintro dir id (⟨_, h, _⟩ | ⟨_, _, h, _⟩)
      · cases h
      · cases h
    | start _ i l hi hl _ ih => exact ⟨fun dir id h => ih.1 dir id (start_holder h), .tail ih.2 (.start i l hi hl fun h => nomatch h)⟩
    | @go w hw i l hi hc ih =>
      have inv := learning_ok hu hok hw
      obtain ⟨l₀, hl₀, el⟩ := inv.progs i l hi
      have hs := sound_phase el (hok _ hl₀)
      have hmay : ∀ id, MayChoose l id → MayChoose l₀ id := by
        intro id h
        rw [el] at h
        exact h
      have hdir : l.dir = l₀.dir := by rw [el]
      refine ⟨fun dir id h => ?_, .tail ih.2 (.go i l hi fun _ _ => ⟨?_, ?_⟩)⟩
      · rcases go_holder hi h with h | ⟨rfl, _, h⟩
        · exact ih.1 dir id h
        · exact ⟨l₀, hl₀, hdir.symm, hmay id (createNewId_may hu hs h).1⟩
      · intro dir id hun' hne hm
        rcases Classical.em (id = []) with he | he
        · -- an empty identifier cannot be chosen
          subst he
          unfold MayChoose at hm
          rcases hg : l.given with _ | (_ | ⟨c, r⟩) <;> simp only [hg] at hm
          · unfold Sound at hs
            simp only [hg] at hs
            rcases hm with hm | ⟨n, _, hm⟩
            · exact hs.1.1 hm.symm
            · exact absurd hm (by simp)
          · unfold Sound at hs
            simp only [hg] at hs
            rcases hm with hm | ⟨n, _, hm⟩
            · exact hs.1.1 hm.symm
            · exact absurd hm (by simp)
          · cases hm
        · have hh : Holder w dir id := by
            rcases hun' with h | ⟨d, hd, hn, hid, _⟩
            · exact .inr h
            · exact .inl ⟨d, hd, hn, hid, he⟩
          obtain ⟨l', hl', hd', hm'⟩ := ih.1 dir id hh
          exact hne (hd'.symm.trans ((hun l' l₀ id hl' hl₀ hm' (hmay id hm)).trans hdir.symm))
      · intro id he hg d hd hne hid
        obtain ⟨l', hl', hd', hm'⟩ := ih.1 d.name id (codesId_holder inv hd hid he)
        refine hne (hd'.symm.trans ((hun l' l₀ id hl' hl₀ hm' (hmay id ?_)).trans hdir.symm))
        unfold MayChoose
        rw [hg]
        cases id with
        | nil => exact absurd rfl he
        | cons c r => rfl
    | finish _ i l hi hp n ih => exact ⟨fun dir id h => ih.1 dir id (finish_holder h), .tail ih.2 (.finish i l hi hp n)⟩
    | kill _ i ih => exact ⟨fun dir id h => ih.1 dir id (kill_holder h), .tail ih.2 (.kill i)⟩
  exact key.2

/-- **C72** For datasets whose names have nothing to do with each other there is no condition: whatever the programs do at the same time
and whichever of them are killed, different datasets have different identifiers, and every identifier leads to its own dataset. -/
theorem C72_unrelated {u : Ucd} (hu : u.Laws) {ok : Learner → Prop} (hok : ∀ l, ok l → Sound u l)
    (hun : ∀ l l' id, ok l → ok l' → MayChoose l id → MayChoose l' id → l.dir = l'.dir) {w : LearnWorld}
    (h : Learning u ok (fun _ _ => True) w) :
    (∀ d ∈ w.reg, ∀ e ∈ w.reg, ∀ id, id ≠ [] → d.codesId u = some id → e.codesId u = some id → d = e) ∧
    ∀ d ∈ w.reg, ∀ id, id ≠ [] → d.codesId u = some id → getDatasetBpeDir u (some w.reg) id = .ok d :=
  C72_distinct_partial hu hok (clear_of_unrelated hu hok hun h)

/-! ## Identifiers are kept -/

/-- One program for each dataset; a dataset for which a program is about to choose or to write an identifier has none. -/
structure AloneOk (u : Ucd) (w : LearnWorld) : Prop where
  one : ∀ i j l l', w.learners i = some l → w.learners j = some l' → l.dir = l'.dir → i = j
  none : ∀ i l, w.learners i = some l → l.phase ≠ .look → l.phase ≠ .learn → ∀ d ∈ w.reg, d.name = l.dir → ∀ c r, d.codesId u ≠ some (c :: r)

theorem find_unique {reg : Registry} (h : (reg.map (·.name)).Nodup) {d : BpeDir} (hd : d ∈ reg) :
    reg.find? (fun e => decide (e.name = d.name)) = some d := by
  cases hf : reg.find? (fun e => decide (e.name = d.name)) with
  | none => exact absurd (List.find?_eq_none.mp hf d hd) (by simp)
  | some e =>
    obtain ⟨h1, h2⟩ := find_name hf
    rw [nodup_names_eq h h1 hd h2]

theorem codesId_empty (u : Ucd) (d : BpeDir) (h : d.idFile = some []) : d.codesId u = some [] := by
  unfold BpeDir.codesId
  rw [h]
  rfl

theorem alone_ok {u : Ucd} (hu : u.Laws) {ok : Learner → Prop} (hok : ∀ l, ok l → Sound u l) {w : LearnWorld} (h : Learning u ok Alone w) : AloneOk u w := by
  induction h using learning_ind with
  | nil => exact ⟨fun _ _ _ _ h => (nomatch h), fun _ _ h => (nomatch h)⟩
  | @start w hw i l hi hl hc ih =>
    refine ⟨?_, ?_⟩
    · intro j k l1 l2 h1 h2 hd
      rcases setLearner_some h1 with ⟨rfl, e1⟩ | ⟨_, e1⟩ <;> rcases setLearner_some h2 with ⟨rfl, e2⟩ | ⟨_, e2⟩
      · rfl
      · cases e1; exact absurd hd.symm (hc rfl _ _ e2)
      · cases e2; exact absurd hd (hc rfl _ _ e1)
      · exact ih.one j k l1 l2 e1 e2 hd
    · intro j l1 h1 hp1 hp2 d hd hn c r
      rcases setLearner_some h1 with ⟨_, e1⟩ | ⟨_, e1⟩
      · cases e1; exact absurd rfl hp1
      · rcases ensureDir_mem.mp hd with hd | ⟨_, rfl⟩
        · exact ih.none j l1 e1 hp1 hp2 d hd hn c r
        · exact fun h => nomatch h
  | @go w hw i l hi hc ih =>
    have inv := learning_ok hu hok hw
    refine ⟨?_, ?_⟩
    · intro j k l1 l2 h1 h2 hd
      rcases setLearner_some h1 with ⟨rfl, e1⟩ | ⟨_, e1⟩ <;> rcases setLearner_some h2 with ⟨rfl, e2⟩ | ⟨_, e2⟩
      · rfl
      · rw [advance_some e1] at hd; exact ih.one _ _ _ _ hi e2 hd
      · rw [advance_some e2] at hd; exact ih.one _ _ _ _ e1 hi hd
      · exact ih.one j k l1 l2 e1 e2 hd
    · intro j l1 h1 hp1 hp2 d hd hn c r
      change d ∈ (l.advance u w.reg).1 at hd
      rcases setLearner_some h1 with ⟨rfl, e1⟩ | ⟨hj, e1⟩
      · have hdir : l1.dir = l.dir := by rw [advance_some e1]
        rcases advance_cases u w.reg l with ⟨_, e, _⟩ | ⟨_, e, h3⟩ | ⟨_, e⟩ | ⟨id', hph, _, e⟩ | ⟨id', _, e⟩ | ⟨id', hph, e⟩ | ⟨hph, e⟩ <;>
          rw [e] at hd e1 <;> cases e1
        · exact absurd rfl hp2
        · intro hcd
          rw [← hn, find_unique inv.names hd] at h3
          exact h3 c r hcd
        · exact ih.none j l hi (by rw [hph]; simp) (by rw [hph]; simp) d hd hn c r
        · obtain ⟨e₀, h0, _, _, ⟨_, h⟩ | ⟨h, _⟩⟩ := mem_setId hd
          · rw [codesId_empty u d h]; simp
          · exact absurd hn h
        · exact absurd rfl hp2
        · exact absurd hph hp2
      · have hne : l1.dir ≠ l.dir := fun h => hj (ih.one _ _ _ _ e1 hi h)
        have : d ∈ w.reg := by
          rcases advance_cases u w.reg l with ⟨_, e, _⟩ | ⟨_, e, h3⟩ | ⟨_, e⟩ | ⟨id', hph, _, e⟩ | ⟨id', _, e⟩ | ⟨id', hph, e⟩ | ⟨hph, e⟩ <;>
            rw [e] at hd
          · exact hd
          · exact hd
          · exact hd
          · exact hd
          · obtain ⟨e₀, h0, _, _, ⟨h, _⟩ | ⟨_, h⟩⟩ := mem_setId hd
            · exact absurd (hn.symm.trans h) hne
            · exact h ▸ h0
          · obtain ⟨e₀, h0, _, _, ⟨h, _⟩ | ⟨_, h⟩⟩ := mem_setId hd
            · exact absurd (hn.symm.trans h) hne
            · exact h ▸ h0
          · exact hd
        exact ih.none j l1 e1 hp1 hp2 d this hn c r
  | @finish w hw i l hi hp n ih =>
    refine ⟨?_, ?_⟩
    · intro j k l1 l2 h1 h2 hd
      rcases setLearner_some h1 with ⟨rfl, e1⟩ | ⟨_, e1⟩ <;> rcases setLearner_some h2 with ⟨rfl, e2⟩ | ⟨_, e2⟩
      · rfl
      · cases e1
      · cases e2
      · exact ih.one j k l1 l2 e1 e2 hd
    · intro j l1 h1 hp1 hp2 d hd hn c r
      rcases setLearner_some h1 with ⟨_, e1⟩ | ⟨_, e1⟩
      · cases e1
      · obtain ⟨e₀, h0, h2, h3, _⟩ := mem_saveMerges hd
        have := ih.none j l1 e1 hp1 hp2 e₀ h0 (h2.trans hn) c r
        unfold BpeDir.codesId at this ⊢
        rw [← h3]
        exact this
  | @kill w hw i ih =>
    refine ⟨?_, ?_⟩
    · intro j k l1 l2 h1 h2 hd
      rcases setLearner_some h1 with ⟨rfl, e1⟩ | ⟨_, e1⟩ <;> rcases setLearner_some h2 with ⟨rfl, e2⟩ | ⟨_, e2⟩
      · rfl
      · cases e1
      · cases e2
      · exact ih.one j k l1 l2 e1 e2 hd
    · intro j l1 h1 hp1 hp2 d hd hn c r
      rcases setLearner_some h1 with ⟨_, e1⟩ | ⟨_, e1⟩
      · cases e1
      · exact ih.none j l1 e1 hp1 hp2 d hd hn c r

/-- **C72, partial** If no two programs work for the same dataset at the same time, a dataset keeps its identifier and its merges, whatever
happens later. -/
theorem C72_kept_partial {u : Ucd} (hu : u.Laws) {ok : Learner → Prop} (hok : ∀ l, ok l → Sound u l) {w w' : LearnWorld}
    (h : Learning u ok Alone w) (h' : Star (LearnStep u ok Alone) w w') :
    ∀ d ∈ w.reg, ∀ id, id ≠ [] → d.codesId u = some id →
      ∃ e ∈ w'.reg, e.name = d.name ∧ e.codesId u = some id ∧ ∀ s ∈ d.subdirs, s ∈ e.subdirs := by
  intro d hd id hne hid
  have key : Learning u ok Alone w' ∧ ∃ e ∈ w'.reg, e.name = d.name ∧ e.codesId u = some id ∧ ∀ s ∈ d.subdirs, s ∈ e.subdirs := by
    induction h' with
    | refl => exact ⟨h, d, hd, rfl, hid, fun _ hs => hs⟩
    | @tail w1 w2 _ hs ih =>
      obtain ⟨hl, e, he, h1, h2, h3⟩ := ih
      refine ⟨.tail hl hs, ?_⟩
      cases hs with
      | start i l hi hl' hc => exact ⟨e, ensureDir_mem.mpr (.inl he), h1, h2, h3⟩
      | go i l hi hc =>
        have keep : ∀ s, e.name ≠ l.dir → e ∈ setId w1.reg l.dir s := fun s hn => List.mem_map.mpr ⟨e, he, if_neg hn⟩
        have hno : l.phase ≠ .look → l.phase ≠ .learn → e.name ≠ l.dir := by
          intro p1 p2 hn
          obtain ⟨c, r, rfl⟩ := List.exists_cons_of_ne_nil hne
          exact (alone_ok hu hok hl).none i l hi p1 p2 e he hn c r h2
        refine ⟨e, ?_, h1, h2, h3⟩
        change e ∈ (l.advance u w1.reg).1
        rcases advance_cases u w1.reg l with ⟨_, e1, _⟩ | ⟨_, e1, _⟩ | ⟨_, e1⟩ | ⟨id', _, _, e1⟩ | ⟨id', hph, e1⟩ | ⟨id', hph, e1⟩ | ⟨_, e1⟩ <;> rw [e1]
        · exact he
        · exact he
        · exact he
        · exact he
        · exact keep [] (hno (by rw [hph]; simp) (by rw [hph]; simp))
        · exact keep id' (hno (by rw [hph]; simp) (by rw [hph]; simp))
        · exact he
      | finish i l hi hp n =>
        refine ⟨_, List.mem_map_of_mem he, ?_, ?_, ?_⟩
        · split <;> exact h1
        · split <;> exact h2
        · intro s hs
          split
          · exact List.mem_append_left _ (h3 s hs)
          · exact h3 s hs
      | kill i => exact ⟨e, he, h1, h2, h3⟩
  exact key.2

/-- A program that has learnt merges leaves them in the directory of its dataset. -/
theorem C72_saved {u : Ucd} (hu : u.Laws) {ok : Learner → Prop} {may : LearnWorld → Learner → Prop} (hok : ∀ l, ok l → Sound u l) {w : LearnWorld}
    (h : Learning u ok may w) {i : Nat} {l : Learner} (hi : w.learners i = some l) (n : Nat) :
    ∃ d ∈ (w.finish i l n).reg, d.name = l.dir ∧ natStr n ∈ d.subdirs ∧ Learnt d n := by
  obtain ⟨e, he, hn⟩ := List.mem_map.mp ((learning_ok hu hok h).there i l hi)
  have hm : natStr n ∈ (if e.name = l.dir ∧ natStr n ∉ e.subdirs then { e with subdirs := e.subdirs ++ [natStr n] } else e).subdirs := by
    split
    · simp
    · next h =>
      rcases Classical.em (natStr n ∈ e.subdirs) with h' | h'
      · exact h'
      · exact absurd ⟨hn, h'⟩ h
  refine ⟨_, List.mem_map_of_mem he, ?_, hm, natStr n, hm, pyInt_natStr n⟩
  split <;> exact hn

/-! ## What does not hold -/

/-- A program goes on if there is one. -/
def goOn (w : LearnWorld) (i : Nat) : LearnWorld :=
  match w.learners i with
  | some l => w.go asciiUcd i l
  | none => w

/-- A program saves its merges if it has come that far. -/
def saveNow (w : LearnWorld) (i n : Nat) : LearnWorld :=
  match w.learners i with
  | some l => if l.phase = .learn then w.finish i l n else w
  | none => w

/-- The program for a dataset. -/
def learnerOf (path dir : String) : Learner := ⟨path.toList, plainBpe, none, dir.toList, .look⟩

abbrev anyTime : LearnWorld → Learner → Prop := fun _ _ => True

theorem goOn_may {ok : Learner → Prop} {may : LearnWorld → Learner → Prop} (hm : ∀ w l, l.phase = .choose → may w l) {w₀ w : LearnWorld}
    (h : Star (LearnStep asciiUcd ok may) w₀ w) (i : Nat) : Star (LearnStep asciiUcd ok may) w₀ (goOn w i) := by
  unfold goOn
  cases hl : w.learners i with
  | none => exact h
  | some l => exact .tail h (.go i l hl (hm w l))

theorem goOn_star {ok : Learner → Prop} {w₀ w : LearnWorld} (h : Star (LearnStep asciiUcd ok anyTime) w₀ w) (i : Nat) :
    Star (LearnStep asciiUcd ok anyTime) w₀ (goOn w i) := goOn_may (fun _ _ _ => trivial) h i

theorem saveNow_star {ok : Learner → Prop} {w₀ w : LearnWorld} (h : Star (LearnStep asciiUcd ok anyTime) w₀ w) (i n : Nat) :
    Star (LearnStep asciiUcd ok anyTime) w₀ (saveNow w i n) := by
  unfold saveNow
  cases hl : w.learners i with
  | none => exact h
  | some l =>
    simp only
    split
    · next hp => exact .tail h (.finish i l hl hp n)
    · exact h

/-- Programs for datasets that are called `p`. -/
def CalledP (l : Learner) : Prop := ∃ path ∈ ["/x/p".toList, "/y/p".toList], ∃ d, l = ⟨path, plainBpe, none, d, .look⟩

theorem calledP_sound (l : Learner) (h : CalledP l) : Sound asciiUcd l := by
  obtain ⟨path, hp, d, rfl⟩ := h
  have e : idBase path plainBpe = "p".toList := by
    rcases List.mem_cons.mp hp with rfl | hp
    · decide +kernel
    · rcases List.mem_cons.mp hp with rfl | hp
      · decide +kernel
      · cases hp
  unfold Sound
  change Storable asciiUcd (idBase path plainBpe) ∧ NoSpecial (idBase path plainBpe)
  rw [e]
  unfold Storable NoSpecial
  exact ⟨by decide, by decide⟩

/-- Two programs start. -/
def twoStarted (d : String) : LearnWorld := ((⟨[], fun _ => none⟩ : LearnWorld).start 0 (learnerOf "/x/p" "p_1")).start 1 (learnerOf "/y/p" d)

theorem twoStarted_star (d : String) : Learning asciiUcd CalledP anyTime (twoStarted d) :=
  .tail (.tail .refl (.start 0 _ rfl ⟨_, by decide, _, rfl⟩ trivial)) (.start 1 _ rfl ⟨_, by decide, _, rfl⟩ trivial)

/-- **C72, the missing part is false** Two programs learn for two datasets with the same name at the same time: both datasets get the same
identifier, which leads to one of them; the merges of the other one cannot be used. -/
theorem C72_violated : ∃ w, Learning asciiUcd CalledP anyTime w ∧
    w.reg = [⟨"p_1".toList, some "p".toList, ["5".toList]⟩, ⟨"p_2".toList, some "p".toList, ["7".toList]⟩] ∧
    getDatasetBpeDir asciiUcd (some w.reg) "p".toList = .ok ⟨"p_1".toList, some "p".toList, ["5".toList]⟩ := by
  refine ⟨saveNow (saveNow (goOn (goOn (goOn (goOn (goOn (goOn (goOn (goOn (twoStarted "p_2") 0) 1) 0) 1) 0) 0) 1) 1) 0 5) 1 7,
    saveNow_star (saveNow_star (goOn_star (goOn_star (goOn_star (goOn_star (goOn_star (goOn_star (goOn_star (goOn_star (twoStarted_star _) 0) 1) 0) 1) 0) 0) 1) 1) 0 5) 1 7,
    by decide +kernel, ?_⟩
  decide +kernel

/-- **C72, the missing part is false** Two programs learn for the same dataset at the same time: when the first one is done, its merges are
found under `p`; then the second one, which has not found an identifier when it looked, writes another one, and `p` leads nowhere. -/
theorem C72_renamed_violated : ∃ w w', Learning asciiUcd CalledP anyTime w ∧ Star (LearnStep asciiUcd CalledP anyTime) w w' ∧
    w.reg = [⟨"p_1".toList, some "p".toList, ["5".toList]⟩] ∧
    getDatasetBpeDir asciiUcd (some w.reg) "p".toList = .ok ⟨"p_1".toList, some "p".toList, ["5".toList]⟩ ∧
    w'.reg = [⟨"p_1".toList, some "p_1".toList, ["5".toList]⟩] ∧
    getDatasetBpeDir asciiUcd (some w'.reg) "p".toList = .error .invalidBpeCodesId := by
  refine ⟨saveNow (goOn (goOn (goOn (goOn (goOn (twoStarted "p_1") 0) 1) 0) 0) 0) 0 5,
    goOn (goOn (goOn (saveNow (goOn (goOn (goOn (goOn (goOn (twoStarted "p_1") 0) 1) 0) 0) 0) 0 5) 1) 1) 1,
    saveNow_star (goOn_star (goOn_star (goOn_star (goOn_star (goOn_star (twoStarted_star _) 0) 1) 0) 0) 0) 0 5,
    goOn_star (goOn_star (goOn_star .refl 1) 1) 1, ?_, ?_, ?_, ?_⟩
  · decide +kernel
  · decide +kernel
  · decide +kernel
  · decide +kernel

/-! ## Examples -/

/-- Programs for two datasets whose names have nothing to do with each other. -/
def PorQ (l : Learner) : Prop := l = learnerOf "/x/p" "p_1" ∨ l = learnerOf "/x/q" "q_1"

theorem base_p : idBase "/x/p".toList plainBpe = "p".toList := by decide +kernel
theorem base_q : idBase "/x/q".toList plainBpe = "q".toList := by decide +kernel

theorem porQ_sound (l : Learner) (h : PorQ l) : Sound asciiUcd l := by
  rcases h with rfl | rfl
  · change Storable asciiUcd (idBase "/x/p".toList plainBpe) ∧ NoSpecial (idBase "/x/p".toList plainBpe)
    rw [base_p]
    unfold Storable NoSpecial
    exact ⟨by decide, by decide⟩
  · change Storable asciiUcd (idBase "/x/q".toList plainBpe) ∧ NoSpecial (idBase "/x/q".toList plainBpe)
    rw [base_q]
    unfold Storable NoSpecial
    exact ⟨by decide, by decide⟩

theorem porQ_unrelated (l l' : Learner) (id : Str) (h : PorQ l) (h' : PorQ l') (hm : MayChoose l id) (hm' : MayChoose l' id) : l.dir = l'.dir := by
  have hp : ∀ id, MayChoose (learnerOf "/x/p" "p_1") id → id.head? = some 'p' := by
    intro id h
    change id = idBase "/x/p".toList plainBpe ∨ ∃ n, 1 ≤ n ∧ id = idBase "/x/p".toList plainBpe ++ '_' :: natStr n at h
    rw [base_p] at h
    rcases h with rfl | ⟨n, _, rfl⟩ <;> rfl
  have hq : ∀ id, MayChoose (learnerOf "/x/q" "q_1") id → id.head? = some 'q' := by
    intro id h
    change id = idBase "/x/q".toList plainBpe ∨ ∃ n, 1 ≤ n ∧ id = idBase "/x/q".toList plainBpe ++ '_' :: natStr n at h
    rw [base_q] at h
    rcases h with rfl | ⟨n, _, rfl⟩ <;> rfl
  rcases h with rfl | rfl <;> rcases h' with rfl | rfl
  · rfl
  · exact absurd ((hp _ hm).symm.trans (hq _ hm')) (by decide)
  · exact absurd ((hp _ hm').symm.trans (hq _ hm)) (by decide)
  · rfl

/-- Both programs are in the middle of their work; the first one is killed after it has written its identifier. -/
def pqWorld : LearnWorld :=
  (goOn (goOn (goOn (goOn (goOn (goOn (goOn (((⟨[], fun _ => none⟩ : LearnWorld).start 0 (learnerOf "/x/p" "p_1")).start 1 (learnerOf "/x/q" "q_1"))
    0) 1) 0) 1) 0) 1) 0).kill 0

theorem pq_star : Learning asciiUcd PorQ anyTime pqWorld :=
  .tail (goOn_star (goOn_star (goOn_star (goOn_star (goOn_star (goOn_star (goOn_star
    (.tail (.tail .refl (.start 0 _ rfl (.inl rfl) trivial)) (.start 1 _ rfl (.inr rfl) trivial)) 0) 1) 0) 1) 0) 1) 0) (.kill 0)

example : pqWorld.reg = [⟨"p_1".toList, some "p".toList, []⟩, ⟨"q_1".toList, some [], []⟩] := by decide +kernel

example : getDatasetBpeDir asciiUcd (some pqWorld.reg) "p".toList = .ok ⟨"p_1".toList, some "p".toList, []⟩ :=
  (C72_unrelated asciiUcd_laws porQ_sound porQ_unrelated pq_star).2 _
    (by rw [show pqWorld.reg = [⟨"p_1".toList, some "p".toList, []⟩, ⟨"q_1".toList, some [], []⟩] from by decide +kernel]; exact List.mem_cons_self)
    _ (by decide) (by decide)

-- the condition of `C72_distinct_partial` holds in this history
example : Learning asciiUcd PorQ (Clear asciiUcd) pqWorld := clear_of_unrelated asciiUcd_laws porQ_sound porQ_unrelated pq_star

theorem alone_choose (w : LearnWorld) (l : Learner) (h : l.phase = .choose) : Alone w l := fun h' => nomatch h.symm.trans h'

/-- Two programs, for two datasets, at the same time. -/
theorem pq_alone : Learning asciiUcd PorQ Alone pqWorld := by
  refine .tail (goOn_may alone_choose (goOn_may alone_choose (goOn_may alone_choose (goOn_may alone_choose (goOn_may alone_choose
    (goOn_may alone_choose (goOn_may alone_choose (.tail (.tail .refl (.start 0 _ rfl (.inl rfl) ?_)) (.start 1 _ rfl (.inr rfl) ?_))
    0) 1) 0) 1) 0) 1) 0) (.kill 0)
  · exact fun _ _ _ h => nomatch h
  · intro _ i l h
    rcases setLearner_some h with ⟨_, e⟩ | ⟨_, e⟩
    · cases e; decide
    · cases e

theorem goOn_other {w : LearnWorld} {i j : Nat} (h : i ≠ j) : (goOn w j).learners i = w.learners i := by
  unfold goOn
  cases w.learners j with
  | none => rfl
  | some l => exact if_neg h

-- the killed program is started again, and the dataset keeps its identifier
example : ∃ e ∈ (goOn (pqWorld.start 0 (learnerOf "/x/p" "p_1")) 0).reg, e.name = "p_1".toList ∧ e.codesId asciiUcd = some "p".toList ∧
    ∀ s ∈ ([] : List Str), s ∈ e.subdirs :=
  C72_kept_partial asciiUcd_laws porQ_sound pq_alone
    (goOn_may alone_choose (.tail .refl (.start 0 _ rfl (.inl rfl) (by
      intro _ i l h
      by_cases h0 : i = 0
      · subst h0; cases h
      · by_cases h1 : i = 1
        · subst h1
          have : (pqWorld.learners 1).map (·.dir) = some "q_1".toList := by decide +kernel
          rw [h] at this
          change l.dir ≠ "p_1".toList
          rw [show l.dir = "q_1".toList from Option.some.inj this]
          decide
        · unfold pqWorld LearnWorld.kill at h
          change setLearner _ 0 none i = some l at h
          unfold setLearner at h
          rw [if_neg h0] at h
          simp only [goOn_other h0, goOn_other h1] at h
          change setLearner (setLearner _ 0 _) 1 _ i = some l at h
          unfold setLearner at h
          rw [if_neg h1, if_neg h0] at h
          cases h))) 0)
    ⟨"p_1".toList, some "p".toList, []⟩
    (by rw [show pqWorld.reg = [⟨"p_1".toList, some "p".toList, []⟩, ⟨"q_1".toList, some [], []⟩] from by decide +kernel]; exact List.mem_cons_self)
    _ (by decide) (by decide)

end Verif.Props
