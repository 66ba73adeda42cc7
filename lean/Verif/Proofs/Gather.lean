import Verif.Spec.Gather
import Verif.Proofs.Workers
import Verif.Props.Workers
import Verif.Props.Files
/-!
# Collecting the tokens that are not split: invariants
-/
namespace Verif.Pool
open Verif

/-! ## The set of tokens -/

theorem mem_setAdd (s : List Str) (w x : Str) : x ∈ setAdd s w ↔ x ∈ s ∨ x = w := by
  unfold setAdd
  split
  · next h => exact ⟨.inl, fun h' => h'.elim id (fun e => e ▸ h)⟩
  · simp

theorem nodup_setAdd {s : List Str} (h : s.Nodup) (w : Str) : (setAdd s w).Nodup := by
  unfold setAdd
  split
  · exact h
  · next hn => exact List.nodup_append.mpr ⟨h, by simp, by rintro a ha b hb rfl; simp at hb; exact hn (hb ▸ ha)⟩

theorem mem_foldl_setAdd (ws s : List Str) (x : Str) : x ∈ ws.foldl setAdd s ↔ x ∈ s ∨ x ∈ ws := by
  induction ws generalizing s with
  | nil => simp
  | cons w ws ih => rw [List.foldl_cons, ih, mem_setAdd, List.mem_cons, or_assoc]

theorem nodup_foldl_setAdd (ws : List Str) {s : List Str} (h : s.Nodup) : (ws.foldl setAdd s).Nodup := by
  induction ws generalizing s with
  | nil => exact h
  | cons w ws ih => exact ih (nodup_setAdd h w)

theorem gatherLoop_ok (texts : List Str) {s set : List Str} (h : gatherLoop s texts = .ok set) :
    (∀ t ∈ texts, ∃ ws, loadVocabSet t = .ok ws) ∧ (s.Nodup → set.Nodup) ∧
    ∀ x, x ∈ set ↔ x ∈ s ∨ ∃ t ∈ texts, ∃ ws, loadVocabSet t = .ok ws ∧ x ∈ ws := by
  induction texts generalizing s with
  | nil => cases h; simp
  | cons t texts ih =>
    unfold gatherLoop at h
    cases hl : loadVocabSet t with
    | error e => rw [hl] at h; cases h
    | ok ws =>
      rw [hl] at h
      obtain ⟨i1, i2, i3⟩ := ih h
      refine ⟨?_, fun hs => i2 (nodup_foldl_setAdd ws hs), fun x => ?_⟩
      · intro u hu
        rcases List.mem_cons.mp hu with rfl | hu
        · exact ⟨ws, hl⟩
        · exact i1 u hu
      · rw [i3, mem_foldl_setAdd]
        constructor
        · rintro ((h | h) | ⟨u, hu, h⟩)
          · exact .inl h
          · exact .inr ⟨t, by simp, ws, hl, h⟩
          · exact .inr ⟨u, by simp [hu], h⟩
        · rintro (h | ⟨u, hu, ws', h1, h2⟩)
          · exact .inl (.inl h)
          · rcases List.mem_cons.mp hu with rfl | hu
            · rw [hl] at h1; cases h1; exact .inl (.inr h2)
            · exact .inr ⟨u, hu, ws', h1, h2⟩

theorem gatherTokens_ok {texts set : List Str} (h : gatherTokens texts = .ok set) :
    (∀ t ∈ texts, ∃ ws, loadVocabSet t = .ok ws) ∧ set.Nodup ∧
    ∀ x, x ∈ set ↔ (∃ t ∈ texts, ∃ ws, loadVocabSet t = .ok ws ∧ x ∈ ws) ∨ x ∈ Ph.all := by
  unfold gatherTokens at h
  cases hl : gatherLoop [] texts with
  | error e => rw [hl] at h; cases h
  | ok s =>
    rw [hl] at h
    have h : Ph.all.foldl setAdd s = set := Except.ok.inj h
    subst h
    obtain ⟨i1, i2, i3⟩ := gatherLoop_ok texts hl
    exact ⟨i1, nodup_foldl_setAdd _ (i2 .nil), fun x => by rw [mem_foldl_setAdd, i3]; simp⟩

theorem gatherLoop_total (texts : List Str) (s : List Str) (h : ∀ t ∈ texts, ∃ ws, loadVocabSet t = .ok ws) : ∃ set, gatherLoop s texts = .ok set := by
  induction texts generalizing s with
  | nil => exact ⟨s, rfl⟩
  | cons t texts ih =>
    obtain ⟨ws, hw⟩ := h t (by simp)
    unfold gatherLoop
    rw [hw]
    exact ih _ (fun u hu => h u (by simp [hu]))

/-! ## What can happen to the pool -/

/-- Instead of coming to its end the program could have been killed. -/
theorem reachable_crash {c : Setup} {jobs : List Job} {n : Nat} {d : Disk} (h : Reachable c jobs n ⟨d, true, none⟩) : Reachable c jobs n ⟨d, false, none⟩ := by
  unfold Reachable at h
  generalize hw : (⟨d, true, none⟩ : World) = w at h
  cases h with
  | refl => cases hw
  | tail hu hs =>
    cases hs with
    | finish _ _ => cases hw; exact .tail hu .crash
    | _ => cases hw

/-- The collected tokens contain all tokens of the files. -/
def Covers (toks : Job → List Str) (jobs : List Job) (f : Str) : Prop :=
  ∃ ws, loadVocabSet f = .ok ws ∧ (∀ j ∈ jobs, ∀ x ∈ toks j, x ∈ ws) ∧ ∀ x ∈ Ph.all, x ∈ ws

/-- What holds if there is no crash while the collected tokens are written. -/
structure GOk (toks : Job → List Str) (jobs : List Job) (n : Nat) (w : GWorld) : Prop where
  early : w.phase = .workers → w.final = none → Reachable ⟨.repr, true, true⟩ jobs n w.pool
  writing : ∀ text pos, w.phase = .writing text pos → w.final = some (text.take pos) ∧ Covers toks jobs text
  late : (w.phase = .removing ∨ w.phase = .done ∨ w.phase = .workers) → ∀ f, w.final = some f → Covers toks jobs f
  some : w.phase ≠ .workers → w.final ≠ none

theorem gather_ok {toks : Job → List Str} {jobs : List Job} {n : Nat} (hg : GoodJobs jobs) (ht : SavesTokens toks jobs) {w w' : GWorld}
    (h : GOk toks jobs n w) (hs : GStep true jobs n w w') (hk : KeepsFinal w w') : GOk toks jobs n w' := by
  cases hs with
  | @pool u v f hst =>
    refine ⟨fun _ hf => ?_, by simp, fun _ f' hf => h.late (.inr (.inr rfl)) f' hf, by simp⟩
    simp only at hf
    subst hf
    exact .tail (h.early rfl rfl) hst
  | known => exact ⟨by simp, by simp, fun _ f hf => h.late (.inr (.inr rfl)) f hf, by simp⟩
  | @gather d files set ws hn hl hc hset hp =>
    refine ⟨by simp, fun text pos he => ?_, by simp, by simp⟩
    simp only [Phase.writing.injEq] at he
    obtain ⟨rfl, rfl⟩ := he
    refine ⟨rfl, ws, ?_, ?_, ?_⟩
    · exact Props.C13_token_set_roundtrip ws (hp.nodup_iff.mpr (gatherTokens_ok hset).2.1)
    · intro j hj x hx
      have hr := h.early rfl rfl
      have hd := Props.C33_ready hg hr rfl j hj
      have hdn : d.dir (.out j.dest) ≠ none := by
        rcases hd with ⟨s, t, -, i, hi, -⟩ | ⟨-, e, -⟩
        · simp only at hi; rw [hi]; simp
        · cases e
      obtain ⟨s, t, p, hres, i, hi, hdata⟩ := Props.C33_tokens rfl rfl hg hr j hj hdn
      obtain ⟨e, he, hep⟩ := List.mem_map.mp (hl p (by simp only at hi; rw [hi]; simp))
      obtain ⟨i', hi', hdata'⟩ := hc e he
      rw [hep] at hi'
      simp only at hi hdata
      rw [hi] at hi'
      cases hi'
      rw [hp.mem_iff, (gatherTokens_ok hset).2.2]
      refine .inl ⟨e.2, List.mem_map_of_mem he, toks j, ?_, hx⟩
      rw [← hdata', hdata, (ht j hj).2 s t hres]
      exact Props.C13_token_set_roundtrip _ (ht j hj).1
    · intro x hx
      rw [hp.mem_iff, (gatherTokens_ok hset).2.2]
      exact .inr hx
  | gatherFails hn hl hc hset => exact ⟨fun _ _ => reachable_crash (h.early rfl rfl), by simp, by simp, by simp⟩
  | @write u f text pos k hk0 hp =>
    refine ⟨by simp, fun t p he => ?_, by simp, by simp⟩
    simp only [Phase.writing.injEq] at he
    obtain ⟨rfl, rfl⟩ := he
    exact ⟨rfl, (h.writing text pos rfl).2⟩
  | @close u f text =>
    obtain ⟨h1, h2⟩ := h.writing text _ rfl
    refine ⟨by simp, by simp, fun _ f' hf => ?_, fun _ => h.some (by simp)⟩
    simp only at hf h1
    rw [hf, List.take_length] at h1
    cases h1
    exact h2
  | @remove d f p => exact ⟨by simp, by simp, fun _ f' hf => h.late (.inl rfl) f' hf, fun _ => h.some (by simp)⟩
  | @finish d f hd => exact ⟨by simp, by simp, fun _ f' hf => h.late (.inl rfl) f' hf, fun _ => h.some (by simp)⟩
  | @crash d f ph hph =>
    refine ⟨fun _ hf => ?_, by simp, fun _ f' hf => ?_, by simp⟩
    · simp only at hf
      subst hf
      cases ph with
      | workers => exact reachable_crash (h.early rfl rfl)
      | _ => exact absurd rfl (h.some (by simp))
    · cases ph with
      | workers => exact h.late (.inr (.inr rfl)) f' hf
      | writing text pos => exact absurd rfl (hk text pos rfl)
      | removing => exact h.late (.inl rfl) f' hf
      | done => exact absurd rfl hph

theorem greachable_ok {toks : Job → List Str} {jobs : List Job} {n : Nat} (hg : GoodJobs jobs) (ht : SavesTokens toks jobs) {w : GWorld}
    (h : GReachable true jobs n KeepsFinal w) : GOk toks jobs n w := by
  induction h with
  | refl => exact ⟨fun _ _ => .refl, by simp [GWorld.init], by simp [GWorld.init], by simp [GWorld.init]⟩
  | tail _ h ih => exact gather_ok hg ht ih h.1 h.2

/-! ## Without crashes while a line is written -/

/-- The files with tokens, other than those that are being written, have tokens of a file in them. -/
def SideOk (toks : Job → List Str) (jobs : List Job) (w : World) : Prop :=
  ∀ p i, w.disk.dir (.side p) = some i → (∃ r, w.run = some r ∧ Busy r i) ∨ ∃ j ∈ jobs, ∃ k, w.disk.data i = dumpTokenSet ((toks j).take k)

theorem wstep_side {c : Setup} {d d' : Disk} {s s' : WSt} (hd : DiskOk d) (h : WStep c d s d' s') {p : Str} {i : Nat} (hi : d'.dir (.side p) = some i) :
    d.dir (.side p) = some i ∨ tok s' = some i := by
  cases h with
  | @openPart j _ =>
    left
    rw [(create_spec d hd (partOf j.dest)).2.2.1 _ (by intro h; cases h)] at hi
    exact hi
  | @openTokens j time hf =>
    by_cases he : Path.side p = tokensName j.dest time
    · right
      rw [he, (create_spec d hd (tokensName j.dest time)).1] at hi
      exact hi
    · left
      rw [(create_spec d hd (tokensName j.dest time)).2.2.1 _ he] at hi
      exact hi
  | rename =>
    left
    unfold Disk.rename at hi
    simp only at hi
    rwa [if_neg (by intro h; cases h), if_neg (by intro h; cases h)] at hi
  | _ => exact .inl hi

theorem side_step {toks : Job → List Str} {jobs : List Job} {n : Nat} (hg : GoodJobs jobs) (ht : SavesTokens toks jobs) {w w' : World}
    (hr : Reachable ⟨.repr, true, true⟩ jobs n w) (h : SideOk toks jobs w) (hs : Step ⟨.repr, true, true⟩ jobs n w w')
    (hk : ∀ r, w.run = some r → w'.run = none → w'.ready = false → ∀ x j i pos, r.workers x = .tokens j i pos →
      ∃ k, (dumpTokenSet (toks j)).take pos = dumpTokenSet ((toks j).take k)) : SideOk toks jobs w' := by
  have hok := reachable_ok hg hr
  cases hs with
  | start =>
    intro p i hi
    rcases h p i hi with ⟨r, e, -⟩ | h
    · cases e
    · exact .inr h
  | @take d r x j a b hw hidle hp =>
    intro p i hi
    rcases h p i hi with ⟨r, e, y, hy⟩ | h
    · cases e
      refine .inl ⟨_, rfl, y, ?_⟩
      rw [set_workers]
      split
      · next e => subst e; rw [hidle] at hy; cases hy
      · exact hy
    · exact .inr h
  | @work d d' r x s hw hst =>
    have hrun := hok.running r rfl
    obtain ⟨j, hj⟩ := hst.held
    have hjm := (hrun.heldIn x j hj).1
    have hfr := (wstep_spec hrun.disk hj (hrun.ok x) hst).2
    intro p i hi
    simp only at hi ⊢
    by_cases hb : Busy (r.set x s) i
    · exact .inl ⟨_, rfl, hb⟩
    right
    have hs' : tok s ≠ some i := fun e => hb ⟨x, by rw [set_workers, if_pos rfl]; exact e⟩
    rcases wstep_side hrun.disk hst hi with hi | e
    · by_cases hx : tok (r.workers x) = some i
      · -- the file is closed
        have hwok := hrun.ok x
        generalize r.workers x = s0 at hst hj hwok hx
        cases hst with
        | @closeTokens j' i' pos s t hres hpos =>
          obtain rfl := Option.some.inj hj
          obtain rfl := Option.some.inj hx
          refine ⟨j', hjm, (toks j').length, ?_⟩
          rw [(hwok.2.2.2 rfl s t hres).2, hpos, List.take_length, List.take_length, (ht j' hjm).2 s t hres]
        | writeTokens => exact absurd hx hs'
        | _ => cases hx
      · rcases h p i hi with ⟨r', e, y, hy⟩ | ⟨j', hj', k, hk'⟩
        · cases e
          refine absurd ⟨y, ?_⟩ hb
          rw [set_workers, if_neg]
          · exact hy
          · rintro rfl; exact hx hy
        · exact ⟨j', hj', k, (hfr.sideData _ _ rfl hi hx).trans hk'⟩
    · exact absurd e hs'
  | @crash d r =>
    intro p i hi
    rcases h p i hi with ⟨r', e, y, hy⟩ | h
    · cases e
      right
      have hrun := hok.running r rfl
      have hwok := hrun.ok y
      cases hst : r.workers y with
      | tokens j i' pos =>
        rw [hst] at hy hwok
        obtain rfl := Option.some.inj hy
        have hjm := (hrun.heldIn y j (by rw [hst]; rfl)).1
        obtain ⟨k, hk'⟩ := hk r rfl rfl rfl y j i' pos hst
        obtain ⟨i2, s, t, hres, -, -⟩ := hwok.2.1
        refine ⟨j, hjm, k, ?_⟩
        simp only
        rw [(hwok.2.2.2 rfl s t hres).2, (ht j hjm).2 s t hres, hk']
      | _ => rw [hst] at hy; cases hy
    · exact .inr h
  | @finish d r hp hidle =>
    intro p i hi
    rcases h p i hi with ⟨r', e, y, hy⟩ | h
    · cases e
      have hrun := hok.running r rfl
      have hne : r.workers y ≠ .idle := by intro e; rw [e] at hy; cases hy
      exact absurd (hidle y (hrun.few y hne)) hne
    · exact .inr h

/-- The collected tokens are the tokens of the files and the placeholders. -/
def Exact (toks : Job → List Str) (jobs : List Job) (f : Str) : Prop :=
  ∃ ws, loadVocabSet f = .ok ws ∧ ∀ x, x ∈ ws ↔ (∃ j ∈ jobs, x ∈ toks j) ∨ x ∈ Ph.all

/-- What holds if there is no crash while a line with a token is written. -/
structure GExact (toks : Job → List Str) (jobs : List Job) (w : GWorld) : Prop where
  early : w.phase = .workers → w.final = none → SideOk toks jobs w.pool
  writing : ∀ text pos, w.phase = .writing text pos → Exact toks jobs text
  late : (w.phase = .removing ∨ w.phase = .done ∨ w.phase = .workers) → ∀ f, w.final = some f → Exact toks jobs f

/-- The texts of the files with tokens. -/
theorem side_texts {toks : Job → List Str} {jobs : List Job} (ht : SavesTokens toks jobs) {d : Disk} (h : SideOk toks jobs ⟨d, true, none⟩)
    {files : List (Str × Str)} (hc : ∀ e ∈ files, ∃ i, d.dir (.side e.1) = some i ∧ d.data i = e.2) :
    ∀ t ∈ files.map (·.2), ∃ j ∈ jobs, ∃ k, t = dumpTokenSet ((toks j).take k) ∧ loadVocabSet t = .ok ((toks j).take k) := by
  intro t htm
  obtain ⟨e, he, rfl⟩ := List.mem_map.mp htm
  obtain ⟨i, hi, hdata⟩ := hc e he
  rcases h e.1 i hi with ⟨r, e, -⟩ | ⟨j, hj, k, hk⟩
  · cases e
  · refine ⟨j, hj, k, hdata ▸ hk, ?_⟩
    rw [← hdata, hk]
    exact Props.C13_token_set_roundtrip _ ((ht j hj).1.sublist (List.take_sublist _ _))

theorem side_crash {toks : Job → List Str} {jobs : List Job} {d : Disk} (h : SideOk toks jobs ⟨d, true, none⟩) : SideOk toks jobs ⟨d, false, none⟩ := by
  intro p i hi
  rcases h p i hi with ⟨r, e, -⟩ | h
  · cases e
  · exact .inr h

theorem exact_step {toks : Job → List Str} {jobs : List Job} {n : Nat} (hg : GoodJobs jobs) (ht : SavesTokens toks jobs) {w w' : GWorld}
    (h : GOk toks jobs n w) (he : GExact toks jobs w) (hs : GStep true jobs n w w') (hk : KeepsFinal w w') (hkt : KeepsTokens toks w w') :
    GExact toks jobs w' := by
  have hcov := gather_ok hg ht h hs hk
  cases hs with
  | @pool u v f hst =>
    refine ⟨fun _ hf => ?_, by simp, fun _ f' hf => he.late (.inr (.inr rfl)) f' hf⟩
    simp only at hf
    subst hf
    exact side_step hg ht (h.early rfl rfl) (he.early rfl rfl) hst hkt
  | known => exact ⟨by simp, by simp, fun _ f hf => he.late (.inr (.inr rfl)) f hf⟩
  | @gather d files set ws hn hl hc hset hp =>
    refine ⟨by simp, fun text pos heq => ?_, by simp⟩
    simp only [Phase.writing.injEq] at heq
    obtain ⟨rfl, rfl⟩ := heq
    obtain ⟨-, ws', hw1, hw2, hw3⟩ := hcov.writing _ _ rfl
    refine ⟨ws', hw1, fun x => ⟨fun hx => ?_, ?_⟩⟩
    · rw [Props.C13_token_set_roundtrip ws (hp.nodup_iff.mpr (gatherTokens_ok hset).2.1)] at hw1
      cases hw1
      rw [hp.mem_iff, (gatherTokens_ok hset).2.2] at hx
      rcases hx with ⟨t, htm, ws', hw, hx⟩ | hx
      · obtain ⟨j, hj, k, -, hload⟩ := side_texts ht (he.early rfl rfl) hc t htm
        rw [hload] at hw
        cases hw
        exact .inl ⟨j, hj, List.mem_of_mem_take hx⟩
      · exact .inr hx
    · rintro (⟨j, hj, hx⟩ | hx)
      · exact hw2 j hj x hx
      · exact hw3 x hx
  | gatherFails hn hl hc hset => exact ⟨fun _ _ => side_crash (he.early rfl rfl), by simp, by simp⟩
  | @write u f text pos k hk0 hp =>
    refine ⟨by simp, fun t p heq => ?_, by simp⟩
    simp only [Phase.writing.injEq] at heq
    obtain ⟨rfl, rfl⟩ := heq
    exact he.writing text pos rfl
  | @close u f text =>
    obtain ⟨h1, h2⟩ := h.writing text _ rfl
    refine ⟨by simp, by simp, fun _ f' hf => ?_⟩
    simp only at hf h1
    rw [hf, List.take_length] at h1
    cases h1
    exact he.writing _ _ rfl
  | @remove d f p => exact ⟨by simp, by simp, fun _ f' hf => he.late (.inl rfl) f' hf⟩
  | @finish d f hd => exact ⟨by simp, by simp, fun _ f' hf => he.late (.inl rfl) f' hf⟩
  | @crash d f ph hph =>
    refine ⟨fun _ hf => ?_, by simp, fun _ f' hf => ?_⟩
    · simp only at hf
      subst hf
      cases ph with
      | workers => exact side_crash (he.early rfl rfl)
      | _ => exact absurd rfl (h.some (by simp))
    · cases ph with
      | workers => exact he.late (.inr (.inr rfl)) f' hf
      | writing text pos => exact absurd rfl (hk text pos rfl)
      | removing => exact he.late (.inl rfl) f' hf
      | done => exact absurd rfl hph

theorem greachable_exact {toks : Job → List Str} {jobs : List Job} {n : Nat} (hg : GoodJobs jobs) (ht : SavesTokens toks jobs) {w : GWorld}
    (h : GReachable true jobs n (fun u v => KeepsFinal u v ∧ KeepsTokens toks u v) w) : GOk toks jobs n w ∧ GExact toks jobs w := by
  induction h with
  | refl => exact ⟨⟨fun _ _ => .refl, by simp [GWorld.init], by simp [GWorld.init], by simp [GWorld.init]⟩,
      fun _ _ p i hi => by simp [GWorld.init, World.init] at hi, by simp [GWorld.init], by simp [GWorld.init]⟩
  | tail _ h ih => exact ⟨gather_ok hg ht ih.1 h.1 h.2.1, exact_step hg ht ih.1 ih.2 h.1 h.2.1 h.2.2⟩

/-! ## A file with tokens that cannot be read -/

/-- A file with tokens that cannot be read and that nobody is writing to. -/
structure Broken (jobs : List Job) (n : Nat) (p : Str) (w : GWorld) : Prop where
  phase : w.phase = .workers
  final : w.final = none
  pool : Reachable ⟨.repr, true, true⟩ jobs n w.pool
  bad : ∃ i e, w.pool.disk.dir (.side p) = some i ∧ loadVocabSet (w.pool.disk.data i) = .error e ∧ ∀ r, w.pool.run = some r → ¬ Busy r i

theorem gatherLoop_bad {texts : List Str} {t : Str} {e : PyErr} (ht : t ∈ texts) (h : loadVocabSet t = .error e) (s : List Str) : ∃ e', gatherLoop s texts = .error e' := by
  cases hl : gatherLoop s texts with
  | error e' => exact ⟨e', rfl⟩
  | ok set =>
    obtain ⟨ws, hw⟩ := (gatherLoop_ok texts hl).1 t ht
    rw [h] at hw
    cases hw

theorem broken_step {jobs : List Job} {n : Nat} (hg : GoodJobs jobs) {p : Str} {w w' : GWorld} (h : Broken jobs n p w) (hs : GStep true jobs n w w') :
    Broken jobs n p w' := by
  obtain ⟨hph, hfin, hr, i, e, hi, hload, hb⟩ := h
  cases hs with
  | @pool u v f hst =>
    simp only at hfin
    subst hfin
    simp only at hr hi hload hb
    refine ⟨rfl, rfl, .tail hr hst, ?_⟩
    have hok := reachable_ok hg hr
    cases hst with
    | start => exact ⟨i, e, hi, hload, by rintro r ⟨⟩ ⟨y, hy⟩; cases hy⟩
    | @take d r x j a b hw hidle hp =>
      refine ⟨i, e, hi, hload, ?_⟩
      rintro r' ⟨⟩ ⟨y, hy⟩
      rw [set_workers] at hy
      split at hy
      · cases hy
      · exact hb r rfl ⟨y, hy⟩
    | @work d d' r x s hw hst =>
      have hrun := hok.running r rfl
      obtain ⟨j, hj⟩ := hst.held
      have hfr := (wstep_spec hrun.disk hj (hrun.ok x) hst).2
      have hx : tok (r.workers x) ≠ some i := fun e => hb r rfl ⟨x, e⟩
      refine ⟨i, e, hfr.side _ _ hi, by simp only; rw [hfr.sideData _ _ rfl hi hx]; exact hload, ?_⟩
      rintro r' ⟨⟩ ⟨y, hy⟩
      rw [set_workers] at hy
      split at hy
      · rcases wstep_tok hrun.disk hst hy with h1 | h1
        · exact hx h1
        · exact h1 rfl p hi
      · exact hb r rfl ⟨y, hy⟩
    | crash => exact ⟨i, e, hi, hload, by simp⟩
    | finish _ _ => exact ⟨i, e, hi, hload, by simp⟩
  | known => cases hfin
  | @gather d files set ws hn hl hc hset hp =>
    exfalso
    obtain ⟨x, hx, hxp⟩ := List.mem_map.mp (hl p (by simp only at hi; rw [hi]; simp))
    obtain ⟨i', hi', hdata⟩ := hc x hx
    simp only at hi hload
    rw [hxp, hi] at hi'
    cases hi'
    obtain ⟨ws', hw⟩ := (gatherTokens_ok hset).1 x.2 (List.mem_map_of_mem hx)
    rw [← hdata, hload] at hw
    cases hw
  | gatherFails _ _ _ _ => exact ⟨rfl, rfl, reachable_crash hr, i, e, hi, hload, by simp⟩
  | @crash d f ph hph =>
    simp only at hfin hph
    subst hfin
    exact ⟨rfl, rfl, reachable_crash hr, i, e, hi, hload, by simp⟩
  | _ => cases hph

/-! ## The tokens can be collected -/

/-- The files with tokens can be listed. -/
theorem listing_exists {d : Disk} (hd : DiskOk d) : ∃ files : List (Str × Str), (files.map (·.1)).Nodup ∧
    (∀ p, d.dir (.side p) ≠ none → p ∈ files.map (·.1)) ∧ ∀ e ∈ files, ∃ i, d.dir (.side e.1) = some i ∧ d.data i = e.2 := by
  suffices H : ∀ m, ∃ files : List (Str × Str), (files.map (·.1)).Nodup ∧
      (∀ p i, d.dir (.side p) = some i → i < m → p ∈ files.map (·.1)) ∧ ∀ e ∈ files, ∃ i, d.dir (.side e.1) = some i ∧ d.data i = e.2 ∧ i < m by
    obtain ⟨files, h1, h2, h3⟩ := H d.next
    refine ⟨files, h1, fun p hp => ?_, fun e he => ?_⟩
    · cases hi : d.dir (.side p) with
      | none => exact absurd hi hp
      | some i => exact h2 p i hi (hd.lt _ _ hi)
    · obtain ⟨i, a, b, -⟩ := h3 e he
      exact ⟨i, a, b⟩
  intro m
  induction m with
  | zero => exact ⟨[], .nil, fun _ _ _ h => absurd h (Nat.not_lt_zero _), by simp⟩
  | succ m ih =>
    obtain ⟨files, h1, h2, h3⟩ := ih
    by_cases hm : ∃ p, d.dir (.side p) = some m
    · obtain ⟨p, hp⟩ := hm
      refine ⟨(p, d.data m) :: files, ?_, fun q i hq hi => ?_, fun e he => ?_⟩
      · rw [List.map_cons, List.nodup_cons]
        refine ⟨fun hmem => ?_, h1⟩
        obtain ⟨e, he, hep⟩ := List.mem_map.mp hmem
        obtain ⟨i, hi, -, hlt⟩ := h3 e he
        rw [show e.1 = p from hep, hp] at hi
        have := Option.some.inj hi
        omega
      · rw [List.map_cons, List.mem_cons]
        by_cases him : i = m
        · subst him
          exact .inl (Path.side.inj (hd.inj _ _ _ hq hp))
        · exact .inr (h2 q i hq (by omega))
      · rcases List.mem_cons.mp he with rfl | he
        · exact ⟨m, hp, rfl, Nat.lt_succ_self m⟩
        · obtain ⟨i, a, b, c⟩ := h3 e he
          exact ⟨i, a, b, by omega⟩
    · refine ⟨files, h1, fun q i hq hi => h2 q i hq ?_, fun e he => ?_⟩
      · rcases Nat.lt_succ_iff_lt_or_eq.mp hi with h | h
        · exact h
        · subst h; exact absurd ⟨q, hq⟩ hm
      · obtain ⟨i, a, b, c⟩ := h3 e he
        exact ⟨i, a, b, by omega⟩

/-- A step after which the workers have finished: it is no crash. -/
def GOn (fresh : Bool) (jobs : List Job) (n : Nat) (w w' : GWorld) : Prop := GStep fresh jobs n w w' ∧ w'.pool.ready = true

theorem gon_star {fresh : Bool} {jobs : List Job} {n : Nat} {w w' : GWorld} (h : Spec.Star (GOn fresh jobs n) w w') :
    Spec.Star (GStep fresh jobs n) w w' := by
  induction h with
  | refl => exact .refl
  | tail _ h ih => exact .tail ih h.1

theorem gon_keeps {fresh : Bool} {jobs : List Job} {n : Nat} {w w' : GWorld} (toks : Job → List Str) (h : GOn fresh jobs n w w') :
    KeepsFinal w w' ∧ KeepsTokens toks w w' := by
  obtain ⟨h, hr⟩ := h
  refine ⟨fun text pos hp hw => ?_, fun r _ _ hf => by rw [hr] at hf; cases hf⟩
  cases h with
  | crash _ => cases hr
  | _ => first | cases hp; done | cases hw; done | (simp at hp hw; done)

theorem gon_star_keeps {fresh : Bool} {jobs : List Job} {n : Nat} {w w' : GWorld} (toks : Job → List Str)
    (h : Spec.Star (GOn fresh jobs n) w w') : Spec.Star (fun u v => GStep fresh jobs n u v ∧ KeepsFinal u v ∧ KeepsTokens toks u v) w w' := by
  induction h with
  | refl => exact .refl
  | tail _ h ih => exact .tail ih ⟨h.1, gon_keeps toks h⟩

theorem remove_all {fresh : Bool} {jobs : List Job} {n : Nat} (f : Option Str) (names : List Str) (d : Disk)
    (h : ∀ p, d.dir (.side p) ≠ none → p ∈ names) :
    ∃ d' : Disk, (∀ q, d'.dir (.out q) = d.dir (.out q)) ∧ d'.data = d.data ∧
      Spec.Star (GOn fresh jobs n) ⟨⟨d, true, none⟩, f, .removing⟩ ⟨⟨d', true, none⟩, f, .done⟩ := by
  induction names generalizing d with
  | nil =>
    refine ⟨d, fun _ => rfl, rfl, .tail .refl ⟨.finish fun p => ?_, rfl⟩⟩
    cases hp : d.dir (.side p) with
    | none => rfl
    | some i => exact absurd (h p (by rw [hp]; simp)) (by simp)
  | cons p names ih =>
    obtain ⟨d', h1, h2, h3⟩ := ih (d.remove (.side p)) (by
      intro q hq
      unfold Disk.remove at hq
      simp only at hq
      split at hq
      · exact absurd rfl hq
      · next hne =>
        rcases List.mem_cons.mp (h q hq) with rfl | h'
        · exact absurd rfl hne
        · exact h')
    refine ⟨d', fun q => ?_, h2, star_trans (.tail .refl ⟨.remove p, rfl⟩) h3⟩
    rw [h1]
    unfold Disk.remove
    simp only
    rw [if_neg (by intro h; cases h)]

/-- If all files with tokens can be read, the tokens are collected. -/
theorem gather_finishes {fresh : Bool} {jobs : List Job} {n : Nat} {d : Disk} (hd : DiskOk d)
    (hl : ∀ p i, d.dir (.side p) = some i → ∃ ws, loadVocabSet (d.data i) = .ok ws) :
    ∃ (d' : Disk) (set : List Str), (∀ q, d'.dir (.out q) = d.dir (.out q)) ∧ d'.data = d.data ∧ set.Nodup ∧
      (∀ x, x ∈ set ↔ (∃ p i ws, d.dir (.side p) = some i ∧ loadVocabSet (d.data i) = .ok ws ∧ x ∈ ws) ∨ x ∈ Ph.all) ∧
      Spec.Star (GOn fresh jobs n) ⟨⟨d, true, none⟩, none, .workers⟩ ⟨⟨d', true, none⟩, some (dumpTokenSet set), .done⟩ := by
  obtain ⟨files, f1, f2, f3⟩ := listing_exists hd
  have htot : ∀ t ∈ files.map (·.2), ∃ ws, loadVocabSet t = .ok ws := by
    intro t ht
    obtain ⟨e, he, rfl⟩ := List.mem_map.mp ht
    obtain ⟨i, a, b⟩ := f3 e he
    rw [← b]
    exact hl e.1 i a
  obtain ⟨s, hs⟩ := gatherLoop_total (files.map (·.2)) [] htot
  have hset : gatherTokens (files.map (·.2)) = .ok (Ph.all.foldl setAdd s) := by
    unfold gatherTokens
    rw [hs]
    rfl
  generalize Ph.all.foldl setAdd s = set at hset
  obtain ⟨-, g2, g3⟩ := gatherTokens_ok hset
  obtain ⟨d', h1, h2, h3⟩ := remove_all (fresh := fresh) (jobs := jobs) (n := n) (some (dumpTokenSet set)) (files.map (·.1)) d f2
  refine ⟨d', set, h1, h2, g2, fun x => ?_, ?_⟩
  · rw [g3]
    refine or_congr ⟨?_, ?_⟩ Iff.rfl
    · rintro ⟨t, ht, ws, hw, hx⟩
      obtain ⟨e, he, rfl⟩ := List.mem_map.mp ht
      obtain ⟨i, a, b⟩ := f3 e he
      exact ⟨e.1, i, ws, a, b ▸ hw, hx⟩
    · rintro ⟨p, i, ws, a, hw, hx⟩
      obtain ⟨e, he, hep⟩ := List.mem_map.mp (f2 p (by rw [a]; simp))
      obtain ⟨i', a', b'⟩ := f3 e he
      rw [show e.1 = p from hep, a] at a'
      cases a'
      exact ⟨e.2, List.mem_map_of_mem he, ws, b' ▸ hw, hx⟩
  · have s1 : Spec.Star (GOn fresh jobs n) ⟨⟨d, true, none⟩, none, .workers⟩ ⟨⟨d, true, none⟩, some [], .writing (dumpTokenSet set) 0⟩ :=
      .tail .refl ⟨.gather f1 f2 f3 hset (List.Perm.refl _), rfl⟩
    have s2 : Spec.Star (GOn fresh jobs n) ⟨⟨d, true, none⟩, none, .workers⟩
        ⟨⟨d, true, none⟩, some (dumpTokenSet set), .writing (dumpTokenSet set) (dumpTokenSet set).length⟩ := by
      by_cases h0 : (dumpTokenSet set).length = 0
      · have : dumpTokenSet set = [] := List.length_eq_zero_iff.mp h0
        rw [this] at s1 ⊢
        exact s1
      · have := s1.tail ⟨.write (dumpTokenSet set).length (by omega) (by omega), rfl⟩
        rwa [Nat.zero_add, List.take_length] at this
    exact star_trans (s2.tail ⟨.close, rfl⟩) h3

end Verif.Pool
