import Verif.Spec.Overlap
import Verif.Proofs.Workers
/-!
# Programs that overlap: the invariants
-/
namespace Verif.Overlap
open Verif Verif.Pool

/-- The worker has opened the unfinished file for a job. -/
def Past (s : WSt) (j : Job) : Prop := (∃ i pos, s = .writing j i pos) ∨ s = .saving j ∨ (∃ i pos, s = .tokens j i pos) ∨ s = .moving j

theorem Past.held {s : WSt} {j : Job} (h : Past s j) : Pool.held s = some j := by
  rcases h with ⟨_, _, rfl⟩ | rfl | ⟨_, _, rfl⟩ | rfl <;> rfl

/-- What holds whatever happens. -/
structure Inv (jobs : List Job) (d : Disk) (ws : Nat → WSt) : Prop where
  ok : DiskOk d
  mem : ∀ n j, held (ws n) = some j → j ∈ jobs
  wr : ∀ n j i pos, ws n = .writing j i pos → i < d.next ∧ (∀ p, d.dir p = some i → p = .out j.dest ∨ p = partOf j.dest) ∧
    ∀ s t, j.res = .ok s t → pos ≤ s.length
  same : ∀ n m j j' i pos pos', ws n = .writing j i pos → ws m = .writing j' i pos' → j = j'
  tk : ∀ n j i pos, ws n = .tokens j i pos → i < d.next ∧ (∀ q, d.dir (.out q) ≠ some i) ∧ ∀ m j' pos', ws m ≠ .writing j' i pos'
  there : ∀ n j, Past (ws n) j → d.dir (partOf j.dest) ≠ none ∨ d.dir (.out j.dest) ≠ none

theorem dest_job {jobs : List Job} (hg : GoodJobs jobs) {j j' : Job} (hj : j ∈ jobs) (hj' : j' ∈ jobs) (h : j.dest = j'.dest) : j = j' := by
  have := hg.distinct
  clear hg
  induction jobs with
  | nil => cases hj
  | cons a l ih =>
    rw [List.map_cons, List.nodup_cons] at this
    rcases List.mem_cons.1 hj with e | hj <;> rcases List.mem_cons.1 hj' with e' | hj'
    · rw [e, e']
    · rw [e] at h; exact absurd (by rw [h]; exact List.mem_map_of_mem (f := (·.dest)) hj') this.1
    · rw [e'] at h; exact absurd (by rw [← h]; exact List.mem_map_of_mem (f := (·.dest)) hj) this.1
    · exact ih hj hj' this.2

theorem part_out {jobs : List Job} (hg : GoodJobs jobs) {j : Job} (hj : j ∈ jobs) (x : Bytes) : partOf x ≠ .out j.dest := by
  intro h
  exact hg.notPart j hj ⟨x, Path.out.inj h⟩

theorem part_inj {x y : Bytes} (h : partOf x = partOf y) : x = y := List.append_cancel_right (Path.out.inj h)

/-- The workers after one of them has changed. -/
def upd (ws : Nat → WSt) (n : Nat) (s : WSt) : Nat → WSt := fun x => if x = n then s else ws x

theorem upd_self (ws : Nat → WSt) (n : Nat) (s : WSt) : upd ws n s n = s := if_pos rfl

theorem upd_or {ws : Nat → WSt} {n m : Nat} {s x : WSt} (h : upd ws n s m = x) : (m = n ∧ s = x) ∨ (m ≠ n ∧ ws m = x) := by
  unfold upd at h
  split at h
  · exact .inl ⟨‹_›, h⟩
  · exact .inr ⟨‹_›, h⟩

theorem upd_past {ws : Nat → WSt} {n m : Nat} {s : WSt} {j : Job} (h : Past (upd ws n s m) j) : (m = n ∧ Past s j) ∨ (m ≠ n ∧ Past (ws m) j) := by
  unfold upd at h
  split at h
  · exact .inl ⟨‹_›, h⟩
  · exact .inr ⟨‹_›, h⟩

/-- Steps that do not change the directory and open nothing. -/
theorem Inv.keep {jobs : List Job} {d d' : Disk} {ws : Nat → WSt} (hi : Inv jobs d ws) (hd : d'.dir = d.dir) (hx : d'.next = d.next)
    {n : Nat} {s : WSt} (hh : ∀ j, held s = some j → j ∈ jobs)
    (hw : ∀ j i pos, s = .writing j i pos → (∃ p, ws n = .writing j i p) ∧ ∀ a t, j.res = .ok a t → pos ≤ a.length)
    (ht : ∀ j i pos, s = .tokens j i pos → ∃ p, ws n = .tokens j i p) (hp : ∀ j, Past s j → Past (ws n) j) : Inv jobs d' (upd ws n s) := by
  have back : ∀ m j i pos, upd ws n s m = .writing j i pos → ∃ p, ws m = .writing j i p := by
    intro m j i pos h
    replace h := upd_or h; rcases h with ⟨rfl, h⟩ | ⟨-, h⟩
    · exact (hw _ _ _ h).1
    · exact ⟨_, h⟩
  refine ⟨⟨by rw [hd]; exact hi.ok.inj, by rw [hd, hx]; exact hi.ok.lt⟩, ?_, ?_, ?_, ?_, ?_⟩
  · intro m j h
    unfold upd at h
    split at h
    · exact hh _ h
    · exact hi.mem _ _ h
  · intro m j i pos h
    rw [hd, hx]
    replace h := upd_or h; rcases h with ⟨rfl, h⟩ | ⟨-, h⟩
    · obtain ⟨⟨p, hp⟩, h2⟩ := hw _ _ _ h
      exact ⟨(hi.wr _ _ _ _ hp).1, (hi.wr _ _ _ _ hp).2.1, h2⟩
    · exact hi.wr _ _ _ _ h
  · intro m m' j j' i pos pos' h h'
    obtain ⟨_, e⟩ := back _ _ _ _ h
    obtain ⟨_, e'⟩ := back _ _ _ _ h'
    exact hi.same _ _ _ _ _ _ _ e e'
  · intro m j i pos h
    rw [hd, hx]
    have key : ∃ p, ws m = .tokens j i p := by
      replace h := upd_or h; rcases h with ⟨rfl, h⟩ | ⟨-, h⟩
      · exact ht _ _ _ h
      · exact ⟨_, h⟩
    obtain ⟨p, hp⟩ := key
    refine ⟨(hi.tk _ _ _ _ hp).1, (hi.tk _ _ _ _ hp).2.1, fun m' j' pos' h' => ?_⟩
    obtain ⟨_, e⟩ := back _ _ _ _ h'
    exact (hi.tk _ _ _ _ hp).2.2 _ _ _ e
  · intro m j h
    rw [hd]
    replace h := upd_past h; rcases h with ⟨rfl, h⟩ | ⟨-, h⟩
    · exact hi.there _ _ (hp _ h)
    · exact hi.there _ _ h

theorem Inv.stop {jobs : List Job} {d : Disk} {ws : Nat → WSt} (hi : Inv jobs d ws) (P : Nat → Prop) [DecidablePred P] :
    Inv jobs d (fun x => if P x then .idle else ws x) := by
  have back : ∀ m s, s ≠ .idle → (if P m then .idle else ws m) = s → ws m = s := by
    intro m s hs h
    split at h
    · exact absurd h.symm hs
    · exact h
  refine ⟨hi.ok, ?_, ?_, ?_, ?_, ?_⟩
  · intro m j h
    try dsimp only at h
    split at h
    · cases h
    · exact hi.mem _ _ h
  · intro m j i pos h
    exact hi.wr _ _ _ _ (back _ _ (by simp) h)
  · intro m m' j j' i pos pos' h h'
    exact hi.same _ _ _ _ _ _ _ (back _ _ (by simp) h) (back _ _ (by simp) h')
  · intro m j i pos h
    have := hi.tk _ _ _ _ (back _ _ (by simp) h)
    exact ⟨this.1, this.2.1, fun m' j' pos' h' => this.2.2 m' j' pos' (back _ _ (by simp) h')⟩
  · intro m j h
    refine hi.there m j ?_
    try dsimp only at h
    split at h
    · cases h.held
    · exact h

/-- Opening the unfinished file. -/
theorem Inv.openPart {jobs : List Job} (hg : GoodJobs jobs) {d : Disk} {ws : Nat → WSt} (hi : Inv jobs d ws) {n : Nat} {j : Job} (hj : j ∈ jobs) :
    Inv jobs (d.create (partOf j.dest)).1 (upd ws n (.writing j (d.create (partOf j.dest)).2 0)) := by
  obtain ⟨c1, -, c3, -, c5, c6, c7⟩ := create_spec d hi.ok (partOf j.dest)
  have hle : d.next ≤ (d.create (partOf j.dest)).1.next := by
    unfold Disk.create; split <;> simp [Disk.put]
  generalize (d.create (partOf j.dest)).1 = d' at *
  generalize (d.create (partOf j.dest)).2 = i at *
  -- a worker that is writing to this file has the same job
  have wsame : ∀ m j' pos, ws m = .writing j' i pos → j' = j := by
    intro m j' pos h
    cases hp : d.dir (partOf j.dest) with
    | none => have := (hi.wr _ _ _ _ h).1; have := c6 hp; omega
    | some k =>
      have hk := c5 _ hp
      subst hk
      have hj' := hi.mem m j' (by rw [h]; rfl)
      rcases (hi.wr _ _ _ _ h).2.1 _ hp with e | e
      · exact absurd e (part_out hg hj' _)
      · exact dest_job hg hj' hj (part_inj e).symm
  have tsame : ∀ m j' pos, ws m ≠ .tokens j' i pos := by
    intro m j' pos h
    cases hp : d.dir (partOf j.dest) with
    | none => have := (hi.tk _ _ _ _ h).1; have := c6 hp; omega
    | some k =>
      have hk := c5 _ hp
      subst hk
      exact (hi.tk _ _ _ _ h).2.1 _ hp
  refine ⟨c7, ?_, ?_, ?_, ?_, ?_⟩
  · intro m j' h
    unfold upd at h
    split at h
    · cases h; exact hj
    · exact hi.mem _ _ h
  · intro m j' k pos h
    replace h := upd_or h; rcases h with ⟨rfl, h⟩ | ⟨-, h⟩
    · cases h
      exact ⟨c7.lt _ _ c1, fun p hp => .inr (c7.inj _ _ _ hp c1), fun _ _ _ => Nat.zero_le _⟩
    · obtain ⟨h1, h2, h3⟩ := hi.wr _ _ _ _ h
      refine ⟨by omega, fun p hp => ?_, h3⟩
      by_cases hq : p = partOf j.dest
      · subst hq
        rw [c1] at hp
        cases hp
        exact .inr (by rw [wsame _ _ _ h])
      · exact h2 p (by rw [← c3 p hq]; exact hp)
  · intro m m' a b k pos pos' h h'
    rcases upd_or h with ⟨-, h⟩ | ⟨-, h⟩ <;> rcases upd_or h' with ⟨-, h'⟩ | ⟨-, h'⟩
    · cases h; cases h'; rfl
    · cases h; exact (wsame _ _ _ h').symm
    · cases h'; exact wsame _ _ _ h
    · exact hi.same _ _ _ _ _ _ _ h h'
  · intro m a k pos h
    rcases upd_or h with ⟨-, h⟩ | ⟨-, h⟩
    · cases h
    · obtain ⟨h1, h2, h3⟩ := hi.tk _ _ _ _ h
      refine ⟨by omega, fun q hq => ?_, fun m' b pos' h' => ?_⟩
      · by_cases e : Path.out q = partOf j.dest
        · rw [e, c1] at hq; cases hq; exact tsame _ _ _ h
        · exact h2 q (by rw [← c3 _ e]; exact hq)
      · rcases upd_or h' with ⟨-, h'⟩ | ⟨-, h'⟩
        · cases h'; exact tsame _ _ _ h
        · exact h3 _ _ _ h'
  · intro m a h
    by_cases e : a.dest = j.dest
    · rw [e]; exact .inl (by rw [c1]; simp)
    · rcases upd_past h with ⟨-, h⟩ | ⟨-, h⟩
      · have := h.held; cases this; exact absurd rfl e
      · have ha := hi.mem _ _ h.held
        rw [c3 _ (fun e' => e (part_inj e')), c3 _ (fun e' => part_out hg ha _ e'.symm)]
        exact hi.there _ _ h

/-- Opening a file with tokens. -/
theorem Inv.openTokens {jobs : List Job} {d : Disk} {ws : Nat → WSt} (hi : Inv jobs d ws) {n : Nat} {j : Job} (hj : j ∈ jobs) (x : Str)
    (hp : Past (ws n) j) : Inv jobs (d.create (.side x)).1 (upd ws n (.tokens j (d.create (.side x)).2 0)) := by
  obtain ⟨c1, -, c3, -, c5, c6, c7⟩ := create_spec d hi.ok (.side x)
  have hle : d.next ≤ (d.create (.side x)).1.next := by
    unfold Disk.create; split <;> simp [Disk.put]
  generalize (d.create (.side x)).1 = d' at *
  generalize (d.create (.side x)).2 = i at *
  have out : ∀ q, d'.dir (.out q) = d.dir (.out q) := fun q => c3 _ (by simp)
  have wno : ∀ m j' pos, ws m ≠ .writing j' i pos := by
    intro m j' pos h
    cases hp : d.dir (.side x) with
    | none => have := (hi.wr _ _ _ _ h).1; have := c6 hp; omega
    | some k =>
      have hk := c5 _ hp
      subst hk
      rcases (hi.wr _ _ _ _ h).2.1 _ hp with e | e <;> cases e
  refine ⟨c7, ?_, ?_, ?_, ?_, ?_⟩
  · intro m j' h
    unfold upd at h
    split at h
    · cases h; exact hj
    · exact hi.mem _ _ h
  · intro m j' k pos h
    rcases upd_or h with ⟨-, h⟩ | ⟨-, h⟩
    · cases h
    · obtain ⟨h1, h2, h3⟩ := hi.wr _ _ _ _ h
      refine ⟨by omega, fun p hp => ?_, h3⟩
      by_cases hq : p = .side x
      · subst hq
        rw [c1] at hp
        cases hp
        exact absurd h (wno _ _ _)
      · exact h2 p (by rw [← c3 p hq]; exact hp)
  · intro m m' a b k pos pos' h h'
    rcases upd_or h with ⟨-, h⟩ | ⟨-, h⟩ <;> rcases upd_or h' with ⟨-, h'⟩ | ⟨-, h'⟩
    · cases h
    · cases h
    · cases h'
    · exact hi.same _ _ _ _ _ _ _ h h'
  · intro m a k pos h
    have nw : ∀ k', (∀ m' b pos', ws m' ≠ .writing b k' pos') →
        ∀ m' b pos', upd ws n (.tokens j i 0) m' ≠ .writing b k' pos' := by
      intro k' hk m' b pos' h'
      rcases upd_or h' with ⟨-, h'⟩ | ⟨-, h'⟩
      · cases h'
      · exact hk _ _ _ h'
    rcases upd_or h with ⟨-, h⟩ | ⟨-, h⟩
    · cases h
      refine ⟨c7.lt _ _ c1, fun q hq => ?_, nw _ wno⟩
      cases c7.inj _ _ _ hq c1
    · obtain ⟨h1, h2, h3⟩ := hi.tk _ _ _ _ h
      exact ⟨by omega, fun q => by rw [out]; exact h2 q, nw _ h3⟩
  · intro m a h
    unfold partOf
    rw [out, out]
    rcases upd_past h with ⟨-, h⟩ | ⟨-, h⟩
    · have := h.held; cases this; exact hi.there _ _ hp
    · exact hi.there _ _ h

/-- Renaming. -/
theorem Inv.rename {jobs : List Job} (hg : GoodJobs jobs) {d : Disk} {ws : Nat → WSt} (hi : Inv jobs d ws) {n : Nat} {j : Job} (hj : j ∈ jobs)
    (hp : d.dir (partOf j.dest) ≠ none) : Inv jobs (d.rename (partOf j.dest) (.out j.dest)) (upd ws n .idle) := by
  have from_ : ∀ p k, (d.rename (partOf j.dest) (.out j.dest)).dir p = some k →
      (p = .out j.dest ∧ d.dir (partOf j.dest) = some k) ∨ (p ≠ .out j.dest ∧ p ≠ partOf j.dest ∧ d.dir p = some k) := by
    intro p k h
    unfold Disk.rename at h
    dsimp only at h
    split at h
    · exact .inl ⟨‹_›, h⟩
    · split at h
      · cases h
      · exact .inr ⟨‹_›, ‹_›, h⟩
  have old : ∀ m s, s ≠ .idle → upd ws n .idle m = s → ws m = s := by
    intro m s hs h
    rcases upd_or h with ⟨-, h⟩ | ⟨-, h⟩
    · exact absurd h.symm hs
    · exact h
  refine ⟨rename_ok hi.ok, ?_, ?_, ?_, ?_, ?_⟩
  · intro m a h
    unfold upd at h
    split at h
    · cases h
    · exact hi.mem _ _ h
  · intro m a k pos h
    have h := old _ _ (by simp) h
    obtain ⟨h1, h2, h3⟩ := hi.wr _ _ _ _ h
    refine ⟨h1, fun p hpk => ?_, h3⟩
    rcases from_ _ _ hpk with ⟨rfl, hk⟩ | ⟨-, -, hk⟩
    · have ha := hi.mem m a (by rw [h]; rfl)
      rcases h2 _ hk with e | e
      · exact absurd e (part_out hg ha _)
      · rw [part_inj e]; exact .inl rfl
    · exact h2 _ hk
  · intro m m' a b k pos pos' h h'
    exact hi.same _ _ _ _ _ _ _ (old _ _ (by simp) h) (old _ _ (by simp) h')
  · intro m a k pos h
    obtain ⟨h1, h2, h3⟩ := hi.tk _ _ _ _ (old _ _ (by simp) h)
    refine ⟨h1, fun q hq => ?_, fun m' b pos' h' => h3 _ _ _ (old _ _ (by simp) h')⟩
    rcases from_ _ _ hq with ⟨-, hk⟩ | ⟨-, -, hk⟩
    · exact h2 _ hk
    · exact h2 _ hk
  · intro m a h
    rcases upd_past h with ⟨-, h⟩ | ⟨-, h⟩
    · cases h.held
    · have ha := hi.mem _ _ h.held
      by_cases e : a.dest = j.dest
      · rw [e]
        refine .inr ?_
        unfold Disk.rename
        dsimp only
        rw [if_pos rfl]
        exact hp
      · unfold Disk.rename
        dsimp only
        rw [if_neg (part_out hg hj _), if_neg (fun e' => e (part_inj e')), if_neg (fun e' => e (Path.out.inj e')),
          if_neg (fun e' => part_out hg ha _ e'.symm)]
        exact hi.there _ _ h

/-- Every step of a worker keeps the invariant. -/
theorem Inv.step {c : Setup} {jobs : List Job} (hg : GoodJobs jobs) {d d' : Disk} {ws : Nat → WSt} (hi : Inv jobs d ws) {n : Nat} {s : WSt}
    (h : OStep c d (ws n) d' s) : Inv jobs d' (upd ws n s) := by
  generalize hs : ws n = s0 at h
  have hm : ∀ j, held s0 = some j → j ∈ jobs := fun j h => hi.mem n j (by rw [hs]; exact h)
  cases h with
  | gone h =>
    exact hi.keep rfl rfl (fun j h => hm j h) (fun _ _ _ h => by cases h) (fun _ _ _ h => by cases h)
      (fun j h => by rcases h with ⟨_, _, h⟩ | h | ⟨_, _, h⟩ | h <;> cases h)
  | work h hmv =>
    cases h with
    | skip _ =>
      exact hi.keep rfl rfl (fun j h => by cases h) (fun _ _ _ h => by cases h) (fun _ _ _ h => by cases h) (fun j h => by cases h.held)
    | ignore _ _ _ =>
      exact hi.keep (put_dir _ _ _) rfl (fun j h => by cases h) (fun _ _ _ h => by cases h) (fun _ _ _ h => by cases h) (fun j h => by cases h.held)
    | check _ | noSource _ _ | fail _ =>
      exact hi.keep rfl rfl (fun j h => hm j h) (fun _ _ _ h => by cases h) (fun _ _ _ h => by cases h)
        (fun j h => by rcases h with ⟨_, _, h⟩ | h | ⟨_, _, h⟩ | h <;> cases h)
    | openPart _ => exact hi.openPart hg (hm _ rfl)
    | write k hr hk hp =>
      refine hi.keep (put_dir _ _ _) rfl (fun j h => hm j h) (fun _ _ _ h => ?_) (fun _ _ _ h => by cases h) (fun j h => ?_)
      · cases h
        exact ⟨⟨_, hs⟩, fun a t e => by rw [hr] at e; cases e; exact hp⟩
      · have := h.held; cases this
        exact .inl ⟨_, _, hs⟩
    | close hr hp =>
      split
      · exact hi.keep rfl rfl (fun j h => hm j h) (fun _ _ _ h => by cases h) (fun _ _ _ h => by cases h)
          (fun j h => by have := h.held; cases this; exact .inl ⟨_, _, hs⟩)
      · exact hi.keep rfl rfl (fun j h => hm j h) (fun _ _ _ h => by cases h) (fun _ _ _ h => by cases h)
          (fun j h => by have := h.held; cases this; exact .inl ⟨_, _, hs⟩)
    | openTokens time _ => exact hi.openTokens (hm _ rfl) _ (.inr (.inl hs))
    | writeTokens k hr hk hp =>
      exact hi.keep (put_dir _ _ _) rfl (fun j h => hm j h) (fun _ _ _ h => by cases h) (fun _ _ _ h => by cases h; exact ⟨_, hs⟩)
        (fun j h => by have := h.held; cases this; exact .inr (.inr (.inl ⟨_, _, hs⟩)))
    | closeTokens hr hp =>
      exact hi.keep rfl rfl (fun j h => hm j h) (fun _ _ _ h => by cases h) (fun _ _ _ h => by cases h)
        (fun j h => by have := h.held; cases this; exact .inr (.inr (.inl ⟨_, _, hs⟩)))
    | rename => exact hi.rename hg (hm _ rfl) (hmv _ rfl)

theorem Inv.take {jobs : List Job} {d : Disk} {ws : Nat → WSt} (hi : Inv jobs d ws) {n : Nat} {j : Job} (hj : j ∈ jobs) :
    Inv jobs d (upd ws n (.start j)) :=
  hi.keep rfl rfl (fun _ h => by cases h; exact hj) (fun _ _ _ h => by cases h) (fun _ _ _ h => by cases h)
    (fun j h => by rcases h with ⟨_, _, h⟩ | h | ⟨_, _, h⟩ | h <;> cases h)

/-- What holds for the world. -/
def WInv (jobs : List Job) (w : World) : Prop := Inv jobs w.disk w.workers

theorem WInv.go {c : Setup} {jobs : List Job} (hg : GoodJobs jobs) {w w' : World} (hi : WInv jobs w) (h : Go c jobs w w') : WInv jobs w' := by
  cases h with
  | take _ hj => exact Inv.take hi hj
  | work h => exact Inv.step hg hi h

theorem WInv.any {c : Setup} {jobs : List Job} {prog : Nat → Nat} (hg : GoodJobs jobs) {w w' : World} (hi : WInv jobs w)
    (h : Any c jobs prog w w') : WInv jobs w' := by
  cases h with
  | act h =>
    cases h with
    | go h => exact hi.go hg h
    | abort _ => exact Inv.stop hi _
  | kill p => exact Inv.stop hi _

theorem WInv.begin {jobs : List Job} {w : World} (h : Begins jobs w) : WInv jobs w := by
  refine ⟨⟨h.files, h.numbers⟩, ?_, ?_, ?_, ?_, ?_⟩
  · intro n j e; rw [h.idle] at e; cases e
  · intro n j i pos e; rw [h.idle] at e; cases e
  · intro n m j j' i pos pos' e; rw [h.idle] at e; cases e
  · intro n j i pos e; rw [h.idle] at e; cases e
  · intro n j e; rw [h.idle] at e; cases e.held

/-! ## The contents -/

/-- A file has what it should have, up to what a worker is going to write. -/
def Fits (ws : Nat → WSt) (j : Job) (i : Nat) (x s : Str) : Prop :=
  x.length ≤ s.length ∧ ∀ k, k < s.length → x[k]? = s[k]? ∨ ∃ n pos, ws n = .writing j i pos ∧ pos ≤ k

/-- The results, and the unfinished files somebody has opened, fit. -/
def Fine (jobs : List Job) (d : Disk) (ws : Nat → WSt) : Prop := ∀ j ∈ jobs, ∀ s t, j.res = .ok s t → ∀ i,
  (d.dir (.out j.dest) = some i ∨ (d.dir (partOf j.dest) = some i ∧ ∃ n, Past (ws n) j)) → Fits ws j i (d.data i) s

theorem pwrite_get (x : Str) (pos : Nat) (ch : Str) (k : Nat) : (pwrite x pos ch)[k]? =
    if k < pos then (if k < x.length then x[k]? else some (Char.ofNat 0)) else if k < pos + ch.length then ch[k - pos]? else x[k]? := by
  unfold pwrite
  have hl : (x.take pos ++ List.replicate (pos - x.length) (Char.ofNat 0)).length = pos := by
    rw [List.length_append, List.length_take, List.length_replicate]; omega
  rw [List.append_assoc (x.take pos ++ _)]
  by_cases h1 : k < pos
  · rw [if_pos h1, List.getElem?_append_left (by omega)]
    by_cases h2 : k < x.length
    · rw [if_pos h2, List.getElem?_append_left (by rw [List.length_take]; omega), List.getElem?_take_of_lt h1]
    · rw [if_neg h2, List.getElem?_append_right (by rw [List.length_take]; omega), List.getElem?_replicate,
        if_pos (by rw [List.length_take]; omega)]
  · rw [if_neg h1, List.getElem?_append_right (by omega), hl]
    by_cases h2 : k < pos + ch.length
    · rw [if_pos h2, List.getElem?_append_left (by omega)]
    · rw [if_neg h2, List.getElem?_append_right (by omega), List.getElem?_drop]
      congr 1; omega

theorem pwrite_len (x : Str) (pos : Nat) (ch : Str) : (pwrite x pos ch).length = max x.length (pos + ch.length) := by
  unfold pwrite
  simp only [List.length_append, List.length_take, List.length_replicate, List.length_drop]
  omega

/-- Writing a part keeps the file fitting. -/
theorem Fits.write {ws : Nat → WSt} {n : Nat} {j : Job} {i pos k : Nat} {x s : Str} (h : Fits ws j i x s) (hw : ws n = .writing j i pos)
    (hp : pos + k ≤ s.length) : Fits (upd ws n (.writing j i (pos + k))) j i (pwrite x pos ((s.drop pos).take k)) s := by
  have hl : ((s.drop pos).take k).length = k := by rw [List.length_take, List.length_drop]; omega
  refine ⟨by rw [pwrite_len, hl]; have := h.1; omega, fun m hm => ?_⟩
  rw [pwrite_get, hl]
  have other : (∃ n' p, ws n' = .writing j i p ∧ p ≤ m) → ¬ (pos ≤ m ∧ m < pos + k) →
      ∃ n' p, upd ws n (.writing j i (pos + k)) n' = .writing j i p ∧ p ≤ m := by
    rintro ⟨n', p, e, hpm⟩ hnot
    by_cases hn : n' = n
    · subst hn
      rw [hw] at e; cases e
      exact ⟨n', pos + k, upd_self _ _ _, by omega⟩
    · exact ⟨n', p, by unfold upd; rw [if_neg hn]; exact e, hpm⟩
  by_cases h1 : m < pos
  · rw [if_pos h1]
    rcases h.2 m hm with e | e
    · refine .inl ?_
      have : m < x.length := by
        rcases Nat.lt_or_ge m x.length with h | h
        · exact h
        · rw [List.getElem?_eq_none h, List.getElem?_eq_getElem hm] at e; cases e
      rw [if_pos this]; exact e
    · exact .inr (other e (by omega))
  · rw [if_neg h1]
    by_cases h2 : m < pos + k
    · rw [if_pos h2]
      refine .inl ?_
      rw [List.getElem?_take_of_lt (by omega), List.getElem?_drop]
      congr 1; omega
    · rw [if_neg h2]
      rcases h.2 m hm with e | e
      · exact .inl e
      · exact .inr (other e (by omega))

/-- A worker that is not writing, or has written everything, is not needed. -/
theorem Fits.leave {ws : Nat → WSt} {n : Nat} {s' : WSt} {j : Job} {i : Nat} {x s : Str} (h : Fits ws j i x s)
    (hw : ∀ pos, ws n = .writing j i pos → s.length ≤ pos) : Fits (upd ws n s') j i x s := by
  refine ⟨h.1, fun m hm => ?_⟩
  rcases h.2 m hm with e | ⟨n', p, e, hp⟩
  · exact .inl e
  · by_cases hn : n' = n
    · subst hn
      have := hw _ e; omega
    · exact .inr ⟨n', p, by unfold upd; rw [if_neg hn]; exact e, hp⟩

/-- Steps that change neither the directory nor the files of results. -/
theorem Fine.keep {jobs : List Job} {d d' : Disk} {ws : Nat → WSt} (hf : Fine jobs d ws) (hd : d'.dir = d.dir)
    {n : Nat} {s' : WSt} (hdata : ∀ q i, d.dir (.out q) = some i → d'.data i = d.data i) (hp : ∀ j, Past s' j → Past (ws n) j)
    (hw : ∀ j i pos s t, j.res = .ok s t → ws n = .writing j i pos → s.length ≤ pos) : Fine jobs d' (upd ws n s') := by
  intro j hj s t hr i hi
  rw [hd] at hi
  have hx : d'.data i = d.data i := by
    rcases hi with h | ⟨h, -⟩
    · exact hdata _ _ h
    · exact hdata _ _ h
  rw [hx]
  refine (hf j hj s t hr i ?_).leave (fun pos e => hw _ _ _ _ _ hr e)
  rcases hi with h | ⟨h, m, hm⟩
  · exact .inl h
  · refine .inr ⟨h, ?_⟩
    replace hm := upd_past hm; rcases hm with ⟨rfl, hm⟩ | ⟨-, hm⟩
    · exact ⟨_, hp _ hm⟩
    · exact ⟨_, hm⟩

/-- Every step of a worker keeps the files fitting. -/
theorem Fine.step {c : Setup} {jobs : List Job} (hg : GoodJobs jobs) {d d' : Disk} {ws : Nat → WSt} (hi : Inv jobs d ws) (hf : Fine jobs d ws)
    {n : Nat} {s : WSt} (h : OStep c d (ws n) d' s) : Fine jobs d' (upd ws n s) := by
  generalize hs : ws n = s0 at h
  have hm : ∀ j, held s0 = some j → j ∈ jobs := fun j h => hi.mem n j (by rw [hs]; exact h)
  have nopast : ∀ s', (∀ j, s' = .idle ∨ s' = .opening j ∨ s' = .raised j → ∀ j', ¬ Past s' j') := by
    rintro s' j (rfl | rfl | rfl) j' hp <;> rcases hp with ⟨_, _, h⟩ | h | ⟨_, _, h⟩ | h <;> cases h
  cases h with
  | @gone j h =>
    exact hf.keep rfl (fun _ _ _ => rfl) (fun j' h => absurd h (nopast _ j (.inr (.inr rfl)) j')) (fun _ _ _ _ _ _ e => by rw [hs] at e; cases e)
  | work h hmv =>
    cases h with
    | @skip j _ => exact hf.keep rfl (fun _ _ _ => rfl) (fun j' h => absurd h (nopast _ j (.inl rfl) j')) (fun _ _ _ _ _ _ e => by rw [hs] at e; cases e)
    | @check j _ => exact hf.keep rfl (fun _ _ _ => rfl) (fun j' h => absurd h (nopast _ j (.inr (.inl rfl)) j')) (fun _ _ _ _ _ _ e => by rw [hs] at e; cases e)
    | @noSource j _ _ => exact hf.keep rfl (fun _ _ _ => rfl) (fun j' h => absurd h (nopast _ j (.inr (.inr rfl)) j')) (fun _ _ _ _ _ _ e => by rw [hs] at e; cases e)
    | @fail j i hr =>
      exact hf.keep rfl (fun _ _ _ => rfl) (fun j' h => absurd h (nopast _ j (.inr (.inr rfl)) j'))
        (fun _ _ _ _ _ hr' e => by rw [hs] at e; cases e; rw [hr] at hr'; cases hr')
    | @ignore j i _ hr junk =>
      intro a ha s t hra k hk
      obtain ⟨-, h2, -⟩ := hi.wr _ _ _ _ hs
      have hne : k ≠ i := by
        rintro rfl
        have hj := hm j rfl
        have : a = j := by
          rcases hk with e | ⟨e, -⟩
          · rcases h2 _ e with e | e
            · exact dest_job hg ha hj (Path.out.inj e)
            · exact absurd e.symm (part_out hg ha _)
          · rcases h2 _ e with e | e
            · exact absurd e (part_out hg hj _)
            · exact dest_job hg ha hj (part_inj e)
        rw [this, hr] at hra; cases hra
      rw [put_data, if_neg hne]
      refine (hf a ha s t hra k ?_).leave (fun pos e => by rw [hs] at e; cases e; exact absurd rfl hne)
      rcases hk with e | ⟨e, m, hmm⟩
      · exact .inl e
      · rcases upd_past hmm with ⟨-, hmm⟩ | ⟨-, hmm⟩
        · cases hmm.held
        · exact .inr ⟨e, m, hmm⟩
    | @openPart j _ =>
      intro a ha s t hra k hk
      obtain ⟨c1, c2, c3, c4, c5, c6, c7⟩ := create_spec d hi.ok (partOf j.dest)
      generalize (d.create (partOf j.dest)).1 = d' at *
      generalize (d.create (partOf j.dest)).2 = i at *
      have hj := hm j rfl
      by_cases hki : k = i
      · subst hki
        have haj : a = j := by
          rcases hk with e | ⟨e, -⟩
          · exact absurd (c7.inj _ _ _ c1 e) (part_out hg ha _)
          · exact dest_job hg ha hj (part_inj (c7.inj _ _ _ e c1))
        subst haj
        rw [c2]
        exact ⟨Nat.zero_le _, fun m _ => .inr ⟨n, 0, upd_self _ _ _, Nat.zero_le _⟩⟩
      · rw [c4 _ hki]
        refine (hf a ha s t hra k ?_).leave (fun pos e => by rw [hs] at e; cases e)
        rcases hk with e | ⟨e, m, hmm⟩
        · exact .inl (by rw [← c3 _ (fun e' => part_out hg ha _ e'.symm)]; exact e)
        · by_cases hp : partOf a.dest = partOf j.dest
          · rw [hp, c1] at e; cases e; exact absurd rfl hki
          · refine .inr ⟨by rw [← c3 _ hp]; exact e, m, ?_⟩
            rcases upd_past hmm with ⟨-, hmm⟩ | ⟨-, hmm⟩
            · have := hmm.held; cases this; exact absurd rfl hp
            · exact hmm
    | @write j i pos s0 t0 k hr hk hp =>
      intro a ha s t hra m hmk
      obtain ⟨-, h2, -⟩ := hi.wr _ _ _ _ hs
      have hj := hm j rfl
      have was : d.dir (.out a.dest) = some m ∨ (d.dir (partOf a.dest) = some m ∧ ∃ n, Past (ws n) a) := by
        rcases hmk with e | ⟨e, m', hmm⟩
        · exact .inl e
        · refine .inr ⟨e, ?_⟩
          rcases upd_past hmm with ⟨-, hmm⟩ | ⟨-, hmm⟩
          · have := hmm.held; cases this
            exact ⟨n, .inl ⟨_, _, hs⟩⟩
          · exact ⟨m', hmm⟩
      by_cases hmi : m = i
      · subst hmi
        have haj : a = j := by
          rcases was with e | ⟨e, -⟩
          · rcases h2 _ e with e | e
            · exact dest_job hg ha hj (Path.out.inj e)
            · exact absurd e.symm (part_out hg ha _)
          · rcases h2 _ e with e | e
            · exact absurd e (part_out hg hj _)
            · exact dest_job hg ha hj (part_inj e)
        subst haj
        rw [hr] at hra; cases hra
        rw [put_data, if_pos rfl]
        exact (hf a ha _ _ hr m was).write hs hp
      · rw [put_data, if_neg hmi]
        exact (hf a ha s t hra m was).leave (fun pos e => by rw [hs] at e; cases e; exact absurd rfl hmi)
    | @close j i pos s0 t0 hr hp =>
      refine hf.keep rfl (fun _ _ _ => rfl) (fun a ha => ?_) (fun a i' pos' s t hra e => ?_)
      · have : a = j := by
          have := ha.held
          split at this <;> (cases this; rfl)
        subst this
        exact .inl ⟨_, _, hs⟩
      · rw [hs] at e; cases e
        rw [hr] at hra; cases hra
        exact Nat.le_of_eq hp.symm
    | @openTokens j time _ =>
      obtain ⟨c1, c2, c3, c4, c5, c6, c7⟩ := create_spec d hi.ok (tokensName j.dest time)
      intro a ha s t hra k hk
      unfold tokensName at *
      have hne : k ≠ (d.create (.side (bytesRepr ((j.dest.reverse.takeWhile (· ≠ 47)).reverse) ++ "_-_".toList ++ time))).2 := by
        rintro rfl
        rcases hk with e | ⟨e, -⟩ <;> cases c7.inj _ _ _ e c1
      rw [c4 _ hne]
      unfold partOf at hk
      rw [c3 _ (by simp), c3 _ (by simp)] at hk
      refine (hf a ha s t hra k ?_).leave (fun pos e => by rw [hs] at e; cases e)
      rcases hk with e | ⟨e, m, hmm⟩
      · exact .inl e
      · refine .inr ⟨e, ?_⟩
        rcases upd_past hmm with ⟨-, hmm⟩ | ⟨-, hmm⟩
        · have := hmm.held; cases this
          exact ⟨n, .inr (.inl hs)⟩
        · exact ⟨m, hmm⟩
    | @writeTokens j i pos s0 t0 k hr hk hp =>
      refine hf.keep (put_dir _ _ _) (fun q m e => ?_) (fun a ha => ?_) (fun _ _ _ _ _ _ e => by rw [hs] at e; cases e)
      · rw [put_data, if_neg]
        rintro rfl
        exact (hi.tk _ _ _ _ hs).2.1 _ e
      · have := ha.held; cases this
        exact .inr (.inr (.inl ⟨_, _, hs⟩))
    | @closeTokens j i pos s0 t0 hr hp =>
      refine hf.keep rfl (fun _ _ _ => rfl) (fun a ha => ?_) (fun _ _ _ _ _ _ e => by rw [hs] at e; cases e)
      have := ha.held; cases this
      exact .inr (.inr (.inl ⟨_, _, hs⟩))
    | @rename j =>
      intro a ha s t hra k hk
      have hj := hm j rfl
      refine (hf a ha s t hra k ?_).leave (fun pos e => by rw [hs] at e; cases e)
      unfold Disk.rename at hk
      dsimp only at hk
      by_cases e : a.dest = j.dest
      · have : a = j := dest_job hg ha hj e
        subst this
        rw [if_pos rfl, if_neg (partOf_ne _), if_pos rfl] at hk
        rcases hk with h | ⟨h, -⟩
        · exact .inr ⟨h, n, .inr (.inr (.inr hs))⟩
        · cases h
      · rw [if_neg (fun e' => e (Path.out.inj e')), if_neg (fun e' => part_out hg ha _ e'.symm), if_neg (part_out hg hj _),
          if_neg (fun e' => e (part_inj e'))] at hk
        rcases hk with h | ⟨h, m, hmm⟩
        · exact .inl h
        · rcases upd_past hmm with ⟨-, hmm⟩ | ⟨-, hmm⟩
          · cases hmm.held
          · exact .inr ⟨h, m, hmm⟩

/-- What holds for the world if programs end only while they are not writing. -/
theorem fine_careful {c : Setup} {jobs : List Job} {prog : Nat → Nat} (hg : GoodJobs jobs) {w w' : World}
    (hi : WInv jobs w ∧ Fine jobs w.disk w.workers) (h : Careful c jobs prog w w') : WInv jobs w' ∧ Fine jobs w'.disk w'.workers := by
  cases h with
  | go h =>
    refine ⟨hi.1.go hg h, ?_⟩
    cases h with
    | @take n j hn hj =>
      exact hi.2.keep rfl (fun _ _ _ => rfl) (fun j h => by rcases h with ⟨_, _, h⟩ | h | ⟨_, _, h⟩ | h <;> cases h)
        (fun _ _ _ _ _ _ e => by rw [hn] at e; cases e)
    | work h => exact Fine.step hg hi.1 hi.2 h
  | stop p hn =>
    refine ⟨Inv.stop hi.1 _, ?_⟩
    intro j hj s t hr i hk
    have := hi.2 j hj s t hr i (by
      rcases hk with h | ⟨h, m, hm⟩
      · exact .inl h
      · refine .inr ⟨h, m, ?_⟩
        unfold World.stop at hm
        dsimp only at hm
        split at hm
        · cases hm.held
        · exact hm)
    refine ⟨this.1, fun k hk => ?_⟩
    rcases this.2 k hk with e | ⟨m, pos, e, hp⟩
    · exact .inl e
    · refine .inr ⟨m, pos, ?_, hp⟩
      unfold World.stop
      dsimp only
      rw [if_neg]
      · exact e
      · intro hmp
        exact hn m j hmp ⟨_, _, e⟩

theorem fine_begin {jobs : List Job} {w : World} (h : Begins jobs w) : Fine jobs w.disk w.workers := by
  intro j hj s t hr i hk
  rcases hk with e | ⟨-, m, hm⟩
  · rcases h.complete j hj s t hr with e' | ⟨k, e', hd⟩
    · rw [e'] at e; cases e
    · rw [e'] at e; cases e
      rw [hd]
      exact ⟨Nat.le_refl _, fun _ _ => .inl rfl⟩
  · rw [h.idle] at hm; cases hm.held

end Verif.Overlap
