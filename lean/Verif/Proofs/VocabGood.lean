import Verif.Proofs.VocabWorld
/-!
# Calculations without crashes
-/
namespace Verif
open Spec

/-! ### The statistics file -/

theorem PStep.stats {C W dk q p dk' q' p' l r b} (h : RunInv C W dk q (l ++ (p, b) :: r)) (hi : StatsInv C W dk)
    (hp : PStep dk q p dk' q' p') : StatsInv C W dk' := by
  cases hp with
  | combined => intro n ls hn; cases hn
  | @statsWritten v n ls hst =>
    intro m ls' hm
    cases hm
    cases h with
    | normal tokens h1 _ _ => exact absurd (h1.early (.writingStats v, b) (by simp)) (by simp [PState.early, PState.hungry])
    | finish l' r' p0 b0 he hend hf hs _ =>
      obtain ⟨rfl, e, rfl⟩ := unique_split he hend (by simp)
      obtain ⟨rfl, rfl⟩ := Prod.mk.inj e
      have hss := (hs rfl).split
      have hok := (hss.1.ok (.done v) (by simp [PState.items])).2.2
      simp only [hf.2, procItems_ended hend, PState.items, List.append_nil] at hss
      exact ⟨v, Tot.total hss.1 hss.2, fun w => by simpa [MState.count] using hss.2.count w, hok, hst⟩
  | _ => exact hi

theorem WStep.stats {C W parts n w w'} (h : PhaseInv C W w.disk w.phase) (hi : StatsInv C W w.disk)
    (hs : WStep parts n w w') : StatsInv C W w'.disk := by
  cases hs with
  | run hr =>
    cases hr with
    | step hp => exact hp.stats h hi
  | _ => exact hi

theorem WFault.stats {C W w w'} (hi : StatsInv C W w.disk) (hs : WFault w w') : StatsInv C W w'.disk := by
  cases hs with
  | run hr =>
    cases hr with
    | die => exact hi
    | giveBack _ => exact hi
  | restart => exact hi

/-! ### Without crashes -/

/-- No file is cut off so that loading it raises something else than `EOFError`. -/
def NoBad (dir : DumpDir) : Prop := ∀ e ∈ dir, e.2 ≠ .truncated false

/-- What holds in addition if nothing goes wrong.  `E` says that the vocabulary may be there from an earlier calculation. -/
def WGood (E : Prop) (C : Tally → Nat) (W : Str → Prop) (parts : List (Dict Str Nat × Nat)) (dk : Disk) : Phase → Prop
  | .start => (dk.vocab = none ∨ Complete C W dk ∧ E) ∧ (readyName ∈ dk.dir.keys → NoBad dk.dir)
  | .recovering _ _ => NoBad dk.dir
  | .running _ ps => ∀ p ∈ ps, p.2 = true
  | .returned => Complete C W dk ∧ (dk.dir = [] ∨ E) ∨ parts = []
  | _ => True

theorem NoBad.del {dir : DumpDir} (h : NoBad dir) (k : Str) : NoBad (dir.del k) := fun e he => h e (by
  unfold Dict.del at he
  exact (List.mem_filter.mp he).1)

theorem finStep_noBad {name st dir dir'} (h : NoBad dir)
    (hs : (∃ st', finStep name st dir = .next dir' st') ∨ finStep name st dir = .finished dir') : NoBad dir' := by
  have hrm : ∀ k, NoBad (removeIfExists dir k) := by
    intro k
    unfold removeIfExists
    split
    · exact h.del k
    · exact h
  cases st with
  | check =>
    simp only [finStep] at hs
    split at hs
    · rcases hs with ⟨_, hs⟩ | hs <;> cases hs
    · split at hs
      · rcases hs with ⟨_, hs⟩ | hs <;> cases hs
        exact h.del _
      · rcases hs with ⟨_, hs⟩ | hs <;> cases hs
      · split at hs
        · rcases hs with ⟨_, hs⟩ | hs <;> cases hs
        · rcases hs with ⟨_, hs⟩ | hs <;> cases hs
          exact h
  | first =>
    simp only [finStep] at hs
    split at hs
    · rcases hs with ⟨_, hs⟩ | hs <;> cases hs
    · rcases hs with ⟨_, hs⟩ | hs <;> cases hs
      exact hrm _
  | second =>
    simp only [finStep] at hs
    split at hs
    · rcases hs with ⟨_, hs⟩ | hs <;> cases hs
    · rcases hs with ⟨_, hs⟩ | hs <;> cases hs
      exact hrm _
  | rename =>
    simp only [finStep] at hs
    split at hs
    · rcases hs with ⟨_, hs⟩ | hs <;> cases hs
    · rcases hs with ⟨_, hs⟩ | hs <;> cases hs
    · rename_i f _ hg
      rcases hs with ⟨_, hs⟩ | hs <;> cases hs
      intro e he
      rcases Dict.mem_set' he with he | rfl
      · exact h.del _ e he
      · exact h (name, f) (Dict.get?_some_mem hg)

theorem WGood.step {E C W parts n w w'} (h : PhaseInv C W w.disk w.phase) (hg : WGood E C W parts w.disk w.phase)
    (hs : WStep parts n w w') : WGood E C W parts w'.disk w'.phase := by
  cases hs with
  | @exists_ dk h1 h2 =>
    rcases hg.1 with hv | hc
    · simp only at hv h2
      rw [hv] at h2; cases h2
    · exact .inl ⟨hc.1, .inr hc.2⟩
  | recover h1 h2 hp => exact hg.2 (Dict.has_iff.mp h2)
  | fromScratch _ _ => trivial
  | clear _ => trivial
  | cleared _ _ => trivial
  | noFiles _ hp => exact .inr hp
  | dump _ => trivial
  | dumped => trivial
  | created =>
    intro p hp
    rw [List.eq_of_mem_replicate hp]
  | recoverFile => exact hg
  | recoverNext hf => exact finStep_noBad hg (.inl ⟨_, hf⟩)
  | recoverLast hf => exact finStep_noBad hg (.inr hf)
  | @recoverRaised dk name st todo e hf =>
    obtain ⟨h1, items, h2, h3, it, rest, h4, h5, h6⟩ := h
    rcases rec_step (h3.reorder h4) h6 with ⟨dir'', st'', it', e, _⟩ | ⟨dir'', it', e, _⟩ | ⟨_, hm⟩
    · rw [hf] at e; cases e
    · rw [hf] at e; cases e
    · exact absurd rfl (hg _ hm)
  | loaded _ _ =>
    intro p hp
    rw [List.eq_of_mem_replicate hp]
  | @loadRaised dk names e hp hl =>
    obtain ⟨h1, items, h2, h3, h4⟩ := h
    have hf : ∀ it ∈ items, it.opens = [] := by
      have : ((items.map MState.opens).flatten) = [] := List.Perm.eq_nil h4
      rw [List.flatten_eq_nil_iff] at this
      exact fun it hit => this _ (List.mem_map_of_mem hit)
    obtain ⟨ts, e', _⟩ := loadAll_ok (flat_holds h3.1 hf) hp
    rw [hl] at e'; cases e'
  | run hr =>
    cases hr with
    | step hp =>
      intro x hx
      simp only [WGood, List.mem_append, List.mem_cons] at hg hx
      rcases hx with hx | rfl | hx
      · exact hg x (.inl hx)
      · rfl
      · exact hg x (.inr (.inr hx))
  | @joined dk q ps hj =>
    suffices hend : ∀ p ∈ ps, p.1 = .ended from
      have hc := RunInv.complete h hend
      .inl ⟨hc.1, .inl hc.2⟩
    intro p hp
    rcases hj p hp with e | e
    · exact e
    · rw [hg p hp] at e; cases e

theorem WGood.progress {E C W parts n w} (h : PhaseInv C W w.disk w.phase) (hg : WGood E C W parts w.disk w.phase) :
    w.phase = .returned ∨ ∃ w', WStep parts n w w' := by
  obtain ⟨dk, ph⟩ := w
  cases ph with
  | returned => exact .inl rfl
  | start =>
    right
    by_cases he : dk.stats.isSome = true ∧ dk.vocab.isSome = true
    · exact ⟨_, .exists_ he.1 he.2⟩
    · cases hr : dk.dir.has readyName with
      | true => exact ⟨_, .recover he hr (List.Perm.refl _)⟩
      | false => exact ⟨_, .fromScratch he hr⟩
  | clearing =>
    right
    obtain ⟨dir, st, vo⟩ := dk
    cases dir with
    | cons e t => exact ⟨_, .clear (l := []) (e := e) (r := t) rfl⟩
    | nil =>
      cases parts with
      | nil => exact ⟨_, .noFiles rfl rfl⟩
      | cons a b => exact ⟨_, .cleared rfl (by simp)⟩
  | creating todo busy done =>
    right
    cases todo with
    | cons t ts =>
      obtain ⟨id, hid⟩ := exists_fresh dk.dir
      exact ⟨_, .dump (l := []) (d := t.1) (c := t.2) (r := ts) (eof := true) hid⟩
    | nil =>
      cases busy with
      | cons b bs => exact ⟨_, .dumped (l := []) (v := b) (r := bs)⟩
      | nil => exact ⟨_, .created⟩
  | recovering todo cur =>
    right
    obtain ⟨h1, items, h2, h3, h4⟩ := h
    cases cur with
    | some c =>
      obtain ⟨name, st⟩ := c
      obtain ⟨it, rest, h4, h5, h6⟩ := h4
      rcases rec_step (h3.reorder h4) h6 with ⟨dir', st', it', e, _⟩ | ⟨dir', it', e, _⟩ | ⟨e, hm⟩
      · exact ⟨_, .recoverNext e⟩
      · exact ⟨_, .recoverLast e⟩
      · exact ⟨_, .recoverRaised e⟩
    | none =>
      cases todo with
      | cons a b => exact ⟨_, .recoverFile⟩
      | nil =>
        have hf : ∀ it ∈ items, it.opens = [] := by
          have : ((items.map MState.opens).flatten) = [] := List.Perm.eq_nil h4
          rw [List.flatten_eq_nil_iff] at this
          exact fun it hit => this _ (List.mem_map_of_mem hit)
        obtain ⟨ts, e', _⟩ := loadAll_ok (flat_holds h3.1 hf) (List.Perm.refl _)
        exact ⟨_, .loaded (List.Perm.refl _) e'⟩
  | running q ps =>
    right
    rcases RunInv.progress h hg with he | ⟨⟨dk', q', ps'⟩, hr⟩
    · exact ⟨_, .joined fun p hp => .inl (he p hp)⟩
    · exact ⟨_, .run hr⟩

/-! ### Every calculation ends -/

/-- How far looking at a file is from its end. -/
def FinSt.rank : FinSt → Nat
  | .check => 5
  | .first => 4
  | .second => 3
  | .rename => 2

/-- The phases in their order. -/
def Phase.rank : Phase → Nat
  | .start => 4
  | .clearing => 3
  | .recovering _ _ => 3
  | .creating _ _ _ => 2
  | .running _ _ => 1
  | .returned => 0

/-- What is left in a phase. -/
def World.inner (w : World) : Nat × Nat × Nat × Nat :=
  match w.phase with
  | .clearing => (0, 0, 0, w.disk.dir.length)
  | .creating todo busy _ => (0, 0, 0, 2 * todo.length + busy.length)
  | .recovering todo cur => (0, 0, 0, 6 * todo.length + match cur with | none => 0 | some (_, st) => st.rank)
  | .running q ps => Run.measure ⟨w.disk, q, ps⟩
  | _ => (0, 0, 0, 0)

/-- The order of phases and measures. -/
abbrev lex5 : Nat × (Nat × Nat × Nat × Nat) → Nat × (Nat × Nat × Nat × Nat) → Prop := Prod.Lex (· < ·) lex4

theorem lex5_wf : WellFounded lex5 := (Prod.lex Nat.lt_wfRel ⟨lex4, lex4_wf⟩).wf

theorem finStep_rank {name st dir dir' st'} (h : finStep name st dir = .next dir' st') : st'.rank < st.rank := by
  cases st with
  | check =>
    simp only [finStep] at h
    repeat' split at h
    all_goals first | cases h | skip
    simp [FinSt.rank]
  | first =>
    simp only [finStep] at h
    split at h
    all_goals cases h
    simp [FinSt.rank]
  | second =>
    simp only [finStep] at h
    split at h
    all_goals cases h
    simp [FinSt.rank]
  | rename =>
    simp only [finStep] at h
    split at h
    all_goals cases h

theorem WStep.measure_lt {parts n w w'} (h : WStep parts n w w') :
    lex5 (w'.phase.rank, w'.inner) (w.phase.rank, w.inner) := by
  simp only [lex5, Prod.lex_def]
  cases h with
  | clear hd => right; simp [Phase.rank, World.inner, hd]
  | dump _ => right; simp [Phase.rank, World.inner]; omega
  | dumped => right; simp [Phase.rank, World.inner]
  | recoverFile => right; simp [Phase.rank, World.inner, FinSt.rank]; omega
  | recoverNext hf => right; simp [Phase.rank, World.inner]; exact finStep_rank hf
  | @recoverLast dk name st todo dir' hf =>
    right
    simp only [Phase.rank, World.inner, true_and, Nat.lt_irrefl, false_or]
    cases st <;> simp [FinSt.rank]
  | run hr =>
    have := hr.measure_lt
    simp only [lex4, Prod.lex_def] at this
    exact .inr ⟨rfl, this⟩
  | _ => left; simp [Phase.rank]

end Verif
