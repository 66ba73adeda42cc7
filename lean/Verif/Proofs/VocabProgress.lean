import Verif.Proofs.VocabStart
/-!
# The merger processes can always go on, and not for ever
-/
namespace Verif
open Spec

/-! ### New identifiers -/

theorem pySplit_length_le {sep : Char} {s p : Str} (h : p ∈ pySplit sep s) : p.length ≤ s.length := by
  have hj := pyJoin_pySplit sep s
  have : ∀ (l : List Str), p ∈ l → p.length ≤ (pyJoin [sep] l).length := by
    intro l
    induction l with
    | nil => simp
    | cons a t ih =>
      intro hm
      cases t with
      | nil => simp at hm; simp [pyJoin, hm]
      | cons b t =>
        simp only [pyJoin, List.length_append]
        rcases List.mem_cons.mp hm with rfl | hm
        · omega
        · have := ih hm
          omega
  have h2 := this _ h
  rw [hj] at h2
  exact h2

theorem exists_fresh (dir : DumpDir) : ∃ id, FreshId dir id := by
  have hb : ∃ n, ∀ name ∈ dir.keys, name.length ≤ n := by
    generalize dir.keys = ks
    induction ks with
    | nil => exact ⟨0, by simp⟩
    | cons a t ih =>
      obtain ⟨n, hn⟩ := ih
      refine ⟨max a.length n, fun x hx => ?_⟩
      rcases List.mem_cons.mp hx with rfl | hx
      · exact Nat.le_max_left _ _
      · exact Nat.le_trans (hn x hx) (Nat.le_max_right _ _)
  obtain ⟨n, hn⟩ := hb
  refine ⟨List.replicate (n + 1) '0', ⟨by simp [List.replicate_succ], ?_⟩, ?_⟩
  · intro c hc
    rw [List.eq_of_mem_replicate hc]; decide
  · intro name hname stem hs hm
    have h1 := pySplit_length_le hm
    have h2 := pySplit_length_le hs
    have h3 := hn name hname
    simp at h1
    omega

/-! ### Going on -/

theorem merging_progress {C W dk q l r c m} (hk : c ∈ q.tasks.keys)
    (hs : Stored C W dk (owned q.tasks (l ++ (.merging c m, true) :: r))) :
    ∃ R', RunStep ⟨dk, q, l ++ (.merging c m, true) :: r⟩ R' := by
  rcases MStep.progress (hs.split).1 (exists_fresh dk.dir) with ⟨v, rfl⟩ | ⟨dir', m', hm⟩
  · obtain ⟨x, hx⟩ := mem_keys_get? hk
    exact ⟨_, .step (.put hx)⟩
  · exact ⟨_, .step (.merge hm)⟩

theorem counting_progress {tokens dk q l r c f s} (h : Normal tokens q (l ++ (.counting c f s, true) :: r)) :
    ∃ R', RunStep ⟨dk, q, l ++ (.counting c f s, true) :: r⟩ R' := by
  have := h.left
  simp only [show (PState.counting c f s).uncounted = true from rfl, if_true] at this
  exact ⟨_, .step (.count (n := tokens.length + (l ++ r).countP (fun p => p.1.uncounted)) this)⟩

theorem busy_progress {C W tokens dk q ps c} (h : Normal tokens q ps) (hs : Stored C W dk (owned q.tasks ps))
    (halive : ∀ p ∈ ps, p.2 = true) (hb : 0 < ps.countP fun p => p.1.merges c) :
    ∃ R', RunStep ⟨dk, q, ps⟩ R' := by
  obtain ⟨⟨p, b⟩, hp, hm⟩ := List.countP_pos_iff.mp hb
  have hbt := halive _ hp
  simp only at hbt hm
  subst hbt
  obtain ⟨l, r, rfl⟩ := List.append_of_mem hp
  cases p with
  | counting c f s => exact counting_progress h
  | merging c m => exact merging_progress (h.procsIn _ hp c rfl) hs
  | _ => simp [PState.merges] at hm

theorem Normal.progress {C W tokens dk q ps} (h : Normal tokens q ps) (hs : Stored C W dk (owned q.tasks ps))
    (halive : ∀ p ∈ ps, p.2 = true) : ∃ R', RunStep ⟨dk, q, ps⟩ R' := by
  have hpos : 0 < ps.countP fun p => p.1.notEnded := by rw [← h.counter]; exact h.active
  obtain ⟨⟨p, b⟩, hp, hne⟩ := List.countP_pos_iff.mp hpos
  have hbt := halive _ hp
  simp only at hbt hne
  subst hbt
  have hearly := h.early _ hp
  have hin := h.procsIn _ hp
  obtain ⟨l, r, rfl⟩ := List.append_of_mem hp
  cases p with
  | idle =>
    cases hq : q.chunkQ with
    | nil =>
      have := h.replicate
      simp [hq, PState.hungry] at this
    | cons t ts =>
      cases t with
      | none => exact ⟨_, .step (.takeEnd hq)⟩
      | some c => exact ⟨_, .step (.take hq)⟩
  | assigned c =>
    obtain ⟨x, hx⟩ := mem_keys_get? (hin c rfl)
    cases x with
    | cons v t => exact ⟨_, .step (.first hx)⟩
    | nil =>
      have := h.balance c [] hx
      exact busy_progress (c := c) h hs halive (by simp only [List.length_nil] at this; omega)
  | holding c f =>
    obtain ⟨x, hx⟩ := mem_keys_get? (hin c rfl)
    cases x with
    | cons v t => exact ⟨_, .step (.second hx)⟩
    | nil =>
      have := h.balance c [] hx
      exact busy_progress (c := c) h hs halive (by simp only [List.length_nil] at this; omega)
  | counting c f s => exact counting_progress h
  | merging c m => exact merging_progress (hin c rfl) hs
  | stopping =>
    have ha := h.active
    cases hc : q.counter with
    | zero => omega
    | succ n =>
      cases n with
      | zero => exact ⟨_, .step (.lastProcess hc)⟩
      | succ n => exact ⟨_, .step (.notLast hc (by omega))⟩
  | ended => simp [PState.notEnded] at hne
  | _ => simp [PState.early, PState.hungry] at hearly

theorem FinOk.progress {C W dk q l p r} (h : FinOk C W dk q p)
    (hs : p.after = false → Stored C W dk (owned q.tasks (l ++ (p, true) :: r))) :
    p = .ended ∨ ∃ R', RunStep ⟨dk, q, l ++ (p, true) :: r⟩ R' := by
  cases p with
  | collecting todo got =>
    obtain ⟨h1, h2, ks, h3, h4, h5, h6, h7⟩ := h
    cases todo with
    | cons c t =>
      obtain ⟨v, hv⟩ := h7 c (by simp)
      exact .inr ⟨_, .step (.collect hv)⟩
    | nil =>
      have hgot : got ≠ [] := by
        intro e
        subst e
        have : ks = [] := List.eq_nil_of_length_eq_zero (by simpa using h4.symm)
        rw [h3, this] at h5
        exact h5 rfl
      obtain ⟨g, v, rfl⟩ : ∃ g v, got = g ++ [v] := ⟨got.dropLast, got.getLast hgot, (List.dropLast_concat_getLast hgot).symm⟩
      exact .inr ⟨_, .step .collected⟩
  | combining m rest =>
    rcases MStep.progress ((hs rfl).split).1 (exists_fresh dk.dir) with ⟨v, rfl⟩ | ⟨dir', m', hm⟩
    · cases rest with
      | nil => exact .inr ⟨_, .step .combined⟩
      | cons a t => exact .inr ⟨_, .step .combine⟩
    · exact .inr ⟨_, .step (.combineStep hm)⟩
  | writingStats v =>
    obtain ⟨ls, hls⟩ := writeStats_ok (((hs rfl).split).1.ok (.done v) (by simp [PState.items])).2.2
    exact .inr ⟨_, .step (.statsWritten hls)⟩
  | openVocab v => exact .inr ⟨_, .step .vocabOpened⟩
  | writingVocab v rest =>
    obtain ⟨h1, h2, t, h3, h4⟩ := h
    cases rest with
    | nil => exact .inr ⟨_, .step .written⟩
    | cons a b => exact .inr ⟨_, .step (.write (a := [a]) (b := b) (by simp) h3)⟩
  | removing =>
    obtain ⟨dir, st, vo⟩ := dk
    cases dir with
    | nil => exact .inr ⟨_, .step (.removed rfl)⟩
    | cons e t => exact .inr ⟨_, .step (.remove (l := []) (e := e) (r := t) rfl)⟩
  | ended => exact .inl rfl
  | _ => exact h.elim

theorem RunInv.progress {C W dk q ps} (h : RunInv C W dk q ps) (halive : ∀ p ∈ ps, p.2 = true) :
    (∀ p ∈ ps, p.1 = .ended) ∨ ∃ R', RunStep ⟨dk, q, ps⟩ R' := by
  cases h with
  | normal tokens h1 h2 h3 => exact .inr (h1.progress h3 halive)
  | finish l r p b he hend hf hs _ =>
    subst he
    have hb : b = true := halive (p, b) (by simp)
    subst hb
    rcases hf.progress hs with rfl | h
    · left
      intro x hx
      simp only [List.mem_append, List.mem_cons] at hx hend
      rcases hx with hx | rfl | hx
      · exact hend x (.inl hx)
      · rfl
      · exact hend x (.inr hx)
    · exact .inr h

theorem RunInv.complete {C W dk q ps} (h : RunInv C W dk q ps) (hend : ∀ p ∈ ps, p.1 = .ended) : Complete C W dk ∧ dk.dir = [] := by
  cases h with
  | normal tokens h1 h2 h3 =>
    have hpos : 0 < ps.countP fun p => p.1.notEnded := by rw [← h1.counter]; exact h1.active
    obtain ⟨p, hp, hne⟩ := List.countP_pos_iff.mp hpos
    rw [hend p hp] at hne
    simp [PState.notEnded] at hne
  | finish l r p b he _ hf hs _ =>
    have : p = .ended := hend (p, b) (by rw [he]; simp)
    subst this
    exact hf

/-! ### Not for ever -/

/-- How far a merge is from its end. -/
def MState.rank : MState → Nat
  | .ready _ _ => 6
  | .dumping _ _ _ _ => 5
  | .finishing _ _ _ .check => 4
  | .finishing _ _ _ .first => 3
  | .finishing _ _ _ .second => 2
  | .finishing _ _ _ .rename => 1
  | .done _ => 0

/-- How far a process is from having no more to do with single merges. -/
def PState.rank : PState → Nat
  | .idle => 2
  | .assigned _ => 13
  | .holding _ _ => 12
  | .counting _ _ _ => 11
  | .merging _ m => 3 + m.rank
  | .stopping => 1
  | _ => 0

/-- The stage of finishing the merges. -/
def PState.stage : PState → Nat
  | .collecting _ _ => 6
  | .combining _ _ => 5
  | .writingStats _ => 4
  | .openVocab _ => 3
  | .writingVocab _ _ => 2
  | .removing => 1
  | _ => 0

/-- What is to be done in a stage. -/
def PState.inner : PState → Nat
  | .collecting todo _ => todo.length
  | .combining m rest => m.rank + 10 * rest.length
  | .writingVocab _ rest => rest.length
  | _ => 0

/-- Four numbers that get smaller with every step, in the lexicographic order. -/
def Run.measure (R : Run) : Nat × Nat × Nat × Nat :=
  (20 * R.queues.chunkQ.countP Option.isSome + (R.procs.map fun p => p.1.rank).sum,
    (R.procs.map fun p => p.1.stage).sum, (R.procs.map fun p => p.1.inner).sum, R.disk.dir.length)

/-- The lexicographic order. -/
abbrev lex4 : Nat × Nat × Nat × Nat → Nat × Nat × Nat × Nat → Prop :=
  Prod.Lex (· < ·) (Prod.Lex (· < ·) (Prod.Lex (· < ·) (· < ·)))

theorem lex4_wf : WellFounded lex4 :=
  (Prod.lex Nat.lt_wfRel (Prod.lex Nat.lt_wfRel (Prod.lex Nat.lt_wfRel Nat.lt_wfRel))).wf

theorem lex4_iff {a b c d a' b' c' d' : Nat} : lex4 (a, b, c, d) (a', b', c', d') ↔
    a < a' ∨ a = a' ∧ (b < b' ∨ b = b' ∧ (c < c' ∨ c = c' ∧ d < d')) := by
  simp only [lex4, Prod.lex_def]

theorem MStep.rank_lt {dir m dir' m'} (h : MStep dir m dir' m') : m'.rank < m.rank := by
  cases h with
  | create _ => simp [MState.rank]
  | complete => simp [MState.rank]
  | @next f s res st _ st' hf =>
    cases st with
    | check =>
      simp only [finStep] at hf
      repeat' split at hf
      all_goals first | cases hf | skip
      simp [MState.rank]
    | first =>
      simp only [finStep] at hf
      split at hf
      all_goals cases hf
      simp [MState.rank]
    | second =>
      simp only [finStep] at hf
      split at hf
      all_goals cases hf
      simp [MState.rank]
    | rename =>
      simp only [finStep] at hf
      split at hf
      all_goals cases hf
  | @last f s res st _ hf =>
    cases st <;> simp [MState.rank]

theorem RunStep.measure_lt {R R'} (h : RunStep R R') : lex4 R'.measure R.measure := by
  cases h with
  | @step dk q l p r dk' q' p' hp =>
    simp only [Run.measure, lex4_iff, List.map_append, List.map_cons, List.sum_append, List.sum_cons]
    cases hp with
    | take hq => left; simp [hq, PState.rank]; omega
    | takeEnd hq => left; simp [hq, PState.rank]
    | first _ => left; simp [PState.rank]
    | second _ => left; simp [PState.rank]
    | count _ => left; simp [PState.rank, MState.rank]
    | merge hm => left; have := hm.rank_lt; simp [PState.rank]; omega
    | put _ => left; simp [PState.rank, MState.rank]
    | lastProcess _ => left; simp [PState.rank]
    | notLast _ _ => left; simp [PState.rank]
    | collect _ => right; simp [PState.rank, PState.stage, PState.inner]
    | collected => right; simp [PState.rank, PState.stage]
    | combine => right; simp [PState.rank, PState.stage, PState.inner, MState.rank]; omega
    | combineStep hm => right; have := hm.rank_lt; simp [PState.rank, PState.stage, PState.inner]; omega
    | combined => right; simp [PState.rank, PState.stage]
    | statsWritten _ => right; simp [PState.rank, PState.stage]
    | vocabOpened => right; simp [PState.rank, PState.stage]
    | @write v a b t ha _ =>
      right
      have := List.length_pos_iff.mpr ha
      simp [PState.rank, PState.stage, PState.inner]; omega
    | written => right; simp [PState.rank, PState.stage]
    | remove hd => right; simp [PState.rank, PState.stage, PState.inner, hd]
    | removed _ => right; simp [PState.rank, PState.stage]

end Verif
