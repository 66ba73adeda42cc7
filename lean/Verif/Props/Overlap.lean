import Verif.Proofs.Overlap
import Verif.Proofs.WorkersProgress
import Verif.Props.Workers
/-!
# Properties of programs that preprocess the same dataset at the same time (C64)
-/
namespace Verif.Props.Overlap
open Verif Pool Verif.Overlap

theorem reach_inv {c : Setup} {jobs : List Job} {prog : Nat → Nat} (hg : GoodJobs jobs) {w₀ w : Overlap.World} (hb : Begins jobs w₀)
    (h : Spec.Star (Any c jobs prog) w₀ w) : WInv jobs w := by
  induction h with
  | refl => exact WInv.begin hb
  | tail _ h ih => exact ih.any hg h

theorem careful_inv {c : Setup} {jobs : List Job} {prog : Nat → Nat} (hg : GoodJobs jobs) {w₀ w : Overlap.World} (hb : Begins jobs w₀)
    (h : Spec.Star (Overlap.Careful c jobs prog) w₀ w) : WInv jobs w ∧ Overlap.Fine jobs w.disk w.workers := by
  induction h with
  | refl => exact ⟨WInv.begin hb, fine_begin hb⟩
  | tail _ h ih => exact fine_careful hg ih h

/-- **C64** However many programs work on the same files, and in whatever order: if none of them ends while it is writing a result, a
result that is there and that nobody is writing has exactly the content it should have. -/
theorem C64_complete {c : Setup} {jobs : List Job} {prog : Nat → Nat} (hg : GoodJobs jobs) {w₀ w : Overlap.World} (hb : Begins jobs w₀)
    (h : Spec.Star (Overlap.Careful c jobs prog) w₀ w) {j : Job} (hj : j ∈ jobs) {s t : Str} (hr : j.res = .ok s t)
    (hd : w.disk.dir (.out j.dest) ≠ none) (hn : ∀ n, ¬ Writes (w.workers n) j) : w.disk.Has (.out j.dest) s := by
  have hf := careful_inv hg hb h
  obtain ⟨i, hi⟩ := Option.ne_none_iff_exists'.1 hd
  refine ⟨i, hi, ?_⟩
  have := hf.2 j hj s t hr i (.inl hi)
  apply List.ext_getElem?
  intro k
  rcases Nat.lt_or_ge k s.length with hk | hk
  · rcases this.2 k hk with e | ⟨n, pos, e, -⟩
    · exact e
    · exact absurd ⟨_, _, e⟩ (hn n)
  · rw [List.getElem?_eq_none hk, List.getElem?_eq_none (by have := this.1; omega)]

/-- A step keeps a result. -/
theorem any_keeps {c : Setup} {jobs : List Job} {prog : Nat → Nat} (hg : GoodJobs jobs) {w w' : Overlap.World} (hi : WInv jobs w)
    (h : Any c jobs prog w w') {j : Job} (hj : j ∈ jobs) (hd : w.disk.dir (.out j.dest) ≠ none) : w'.disk.dir (.out j.dest) ≠ none := by
  cases h with
  | kill p => exact hd
  | act h =>
    cases h with
    | abort _ => exact hd
    | go h =>
      cases h with
      | take _ _ => exact hd
      | @work n d s h =>
        change d.dir (.out j.dest) ≠ none
        generalize hs : w.workers n = s0 at h
        cases h with
        | gone _ => exact hd
        | work h hm =>
          cases h with
          | @openPart a _ =>
            rw [(create_spec _ hi.ok _).2.2.1 _ (fun e => part_out hg hj _ e.symm)]; exact hd
          | @openTokens a time _ =>
            rw [(create_spec _ hi.ok _).2.2.1 _ (by unfold tokensName; simp)]; exact hd
          | @rename a =>
            unfold Disk.rename
            dsimp only
            split
            · exact hm _ rfl
            · rw [if_neg (fun e => part_out hg hj _ e.symm)]; exact hd
          | _ => exact hd

/-- **C64** Whatever happens, programs being killed at any time included, a result that is there does not vanish. -/
theorem C64_stays {c : Setup} {jobs : List Job} {prog : Nat → Nat} (hg : GoodJobs jobs) {w₀ w w' : Overlap.World} (hb : Begins jobs w₀)
    (h : Spec.Star (Any c jobs prog) w₀ w) (h' : Spec.Star (Any c jobs prog) w w') {j : Job} (hj : j ∈ jobs)
    (hd : w.disk.dir (.out j.dest) ≠ none) : w'.disk.dir (.out j.dest) ≠ none := by
  have : WInv jobs w' ∧ w'.disk.dir (.out j.dest) ≠ none := by
    induction h' with
    | refl => exact ⟨reach_inv hg hb h, hd⟩
    | tail _ h ih => exact ⟨ih.1.any hg h, any_keeps hg ih.1 h hj ih.2⟩
  exact this.2

/-- **C64** When a worker is done with a file that can be processed, because the result was there, because it has written it, or because of
an exception, the result is there. -/
theorem C64_done {c : Setup} {jobs : List Job} {prog : Nat → Nat} (hg : GoodJobs jobs) {w₀ w : Overlap.World} (hb : Begins jobs w₀)
    (h : Spec.Star (Any c jobs prog) w₀ w) {n : Nat} {j : Job} (hn : held (w.workers n) = some j) {s t : Str} (hr : j.res = .ok s t)
    {d : Disk} {x : WSt} (hs : OStep c w.disk (w.workers n) d x) (hx : x = .idle ∨ x = .raised j) : d.dir (.out j.dest) ≠ none := by
  have hi := reach_inv hg hb h
  generalize hw : w.workers n = s0 at hs hn
  cases hs with
  | gone h =>
    cases hn
    rcases hi.there n _ (.inr (.inr (.inr hw))) with e | e
    · exact absurd h e
    · exact e
  | work h hm =>
    cases h with
    | skip h => cases hn; exact h
    | rename =>
      cases hn
      unfold Disk.rename
      dsimp only
      rw [if_pos rfl]
      exact hm _ rfl
    | noSource _ e => cases hn; rw [e] at hr; cases hr
    | ignore _ e _ => cases hn; rw [e] at hr; cases hr
    | fail e => cases hn; rw [e] at hr; cases hr
    | close _ _ => rcases hx with e | e <;> split at e <;> cases e
    | _ => rcases hx with e | e <;> cases e

/-- **C64** A worker does at most as many steps for a file as there are characters to write and eight more, whatever the other workers do
in between. -/
theorem C64_ends {c : Setup} {j : Job} {s t : Str} (hr : j.res = .ok s t) (f : Nat → WSt) (d d' : Nat → Disk) (m : Nat) (h0 : f 0 = .start j)
    (h : ∀ k, k < m → OStep c (d k) (f k) (d' k) (f (k + 1))) : m ≤ s.length + t.length + 8 := by
  have step : ∀ {d d' : Disk} {x y : WSt}, OStep c d x d' y → Pool.left y < Pool.left x := by
    intro d d' x y h
    cases h with
    | gone _ => simp [Pool.left]
    | work h _ => exact wstep_left h
  have : ∀ k, k ≤ m → Pool.left (f k) + k ≤ Pool.left (f 0) := by
    intro k
    induction k with
    | zero => intro _; omega
    | succ k ih => intro hk; have := ih (by omega); have := step (h k (by omega)); omega
  have := this m (Nat.le_refl _)
  rw [h0] at this
  simp only [Pool.left, hr, lens] at this
  omega

/-- Nothing is written beyond the end of a file with tokens. -/
theorem tokens_le {c : Setup} {jobs : List Job} {prog : Nat → Nat} {w₀ w : Overlap.World} (hb : Begins jobs w₀)
    (h : Spec.Star (Any c jobs prog) w₀ w) : ∀ n j i pos s t, w.workers n = .tokens j i pos → j.res = .ok s t → pos ≤ t.length := by
  induction h with
  | refl => intro n j i pos s t e; rw [hb.idle] at e; cases e
  | @tail u v _ h ih =>
    intro m j i pos s t e hr
    have stop : ∀ p, (u.stop prog p).workers m = .tokens j i pos → pos ≤ t.length := by
      intro p e
      unfold World.stop at e
      dsimp only at e
      split at e
      · cases e
      · exact ih _ _ _ _ _ _ e hr
    cases h with
    | kill p => exact stop p e
    | act h =>
      cases h with
      | abort _ => exact stop _ e
      | go h =>
        cases h with
        | @take n a hn ha =>
          rcases upd_or e with ⟨-, e⟩ | ⟨-, e⟩
          · cases e
          · exact ih _ _ _ _ _ _ e hr
        | @work n d x h =>
          rcases upd_or e with ⟨-, e⟩ | ⟨-, e⟩
          · subst e
            generalize u.workers n = s0 at h
            generalize hx : WSt.tokens j i pos = x at h
            cases h with
            | gone _ => cases hx
            | work h _ =>
              cases h with
              | openTokens _ _ => cases hx; exact Nat.zero_le _
              | writeTokens k hr' _ hp => cases hx; rw [hr] at hr'; cases hr'; exact hp
              | close _ _ => split at hx <;> cases hx
              | _ => cases hx
          · exact ih _ _ _ _ _ _ e hr

/-- A disk has finitely many files, so there is always a name for a file of tokens that is not taken. -/
theorem free_name {d : Disk} (hd : DiskOk d) (dest : Bytes) : ∃ time, d.dir (tokensName dest time) = none := by
  by_cases h : ∃ time, d.dir (tokensName dest time) = none
  · exact h
  · exfalso
    have ex : ∀ k : Nat, ∃ i, d.dir (tokensName dest (List.replicate k '0')) = some i := by
      intro k
      cases e : d.dir (tokensName dest (List.replicate k '0')) with
      | none => exact absurd ⟨_, e⟩ h
      | some i => exact ⟨i, rfl⟩
    obtain ⟨f, hf⟩ : ∃ f : Nat → Nat, ∀ k, d.dir (tokensName dest (List.replicate k '0')) = some (f k) :=
      ⟨fun k => (ex k).choose, fun k => (ex k).choose_spec⟩
    have hinj : ∀ a b, f a = f b → a = b := by
      intro a b e
      have := hd.inj _ _ _ (hf a) (by rw [e]; exact hf b)
      have := congrArg List.length (Path.side.inj this)
      simpa using this
    have hn : ((List.range (d.next + 1)).map f).Nodup := by
      rw [List.Nodup, List.pairwise_map]
      exact List.Pairwise.imp (fun h e => h (hinj _ _ e)) List.nodup_range
    have := hn.length_le_of_subset (l₂ := List.range d.next) fun x hx => by
      obtain ⟨k, -, rfl⟩ := List.mem_map.mp hx
      exact List.mem_range.mpr (hd.lt _ _ (hf k))
    simp only [List.length_map, List.length_range] at this
    omega

/-- **C64** No worker waits for another one: a worker that has a file that can be processed can do its next step, whatever the others do,
until it is done with it or has raised an exception. -/
theorem C64_progress {c : Setup} {jobs : List Job} {prog : Nat → Nat} (hg : GoodJobs jobs) {w₀ w : Overlap.World}
    (hb : Begins jobs w₀) (h : Spec.Star (Any c jobs prog) w₀ w) {n : Nat} {j : Job} (hn : held (w.workers n) = some j)
    (hr : ∃ s t, j.res = .ok s t) : w.workers n = .raised j ∨ ∃ d x, OStep c w.disk (w.workers n) d x := by
  obtain ⟨s, t, hr⟩ := hr
  have hi := reach_inv hg hb h
  have htk := tokens_le hb h n
  have hwr := hi.wr n
  generalize w.workers n = s0 at *
  cases s0 with
  | idle => cases hn
  | raised a => cases hn; exact .inl rfl
  | start a =>
    cases hn
    by_cases hd : w.disk.dir (.out j.dest) = none
    · exact .inr ⟨_, _, .work (.check hd) (by simp)⟩
    · exact .inr ⟨_, _, .work (.skip hd) (by simp)⟩
  | opening a =>
    cases hn
    exact .inr ⟨_, _, .work (.openPart (by rw [hr]; simp)) (by simp)⟩
  | writing a i pos =>
    cases hn
    have := (hwr j i pos rfl).2.2 s t hr
    by_cases hp : pos = s.length
    · exact .inr ⟨_, _, .work (.close hr hp) (by simp)⟩
    · exact .inr ⟨_, _, .work (.write 1 hr (by omega) (by omega)) (by simp)⟩
  | saving a =>
    cases hn
    obtain ⟨time, ht⟩ := free_name hi.ok j.dest
    exact .inr ⟨_, _, .work (.openTokens time (fun _ => ht)) (by simp)⟩
  | tokens a i pos =>
    cases hn
    have := htk j i pos s t rfl hr
    by_cases hp : pos = t.length
    · exact .inr ⟨_, _, .work (.closeTokens hr hp) (by simp)⟩
    · exact .inr ⟨_, _, .work (.writeTokens 1 hr (by omega) (by omega)) (by simp)⟩
  | moving a =>
    cases hn
    by_cases hd : w.disk.dir (partOf j.dest) = none
    · exact .inr ⟨_, _, .gone hd⟩
    · exact .inr ⟨_, _, .work .rename (by intro a e; cases e; exact hd)⟩

/-- **C64** When all results are there and nothing is going on, nothing is written any more, whatever programs are started. -/
theorem C64_over {c : Setup} {jobs : List Job} {prog : Nat → Nat} {w w' : Overlap.World} (hi : ∀ n, w.workers n = .idle)
    (hd : ∀ j ∈ jobs, w.disk.dir (.out j.dest) ≠ none) (h : Spec.Star (Any c jobs prog) w w') : w'.disk = w.disk := by
  have : w'.disk = w.disk ∧ ∀ n, w'.workers n = .idle ∨ ∃ j ∈ jobs, w'.workers n = .start j := by
    induction h with
    | refl => exact ⟨rfl, fun n => .inl (hi n)⟩
    | @tail u v _ h ih =>
      obtain ⟨e, ih⟩ := ih
      have stop : ∀ p, (u.stop prog p).disk = w.disk ∧ ∀ n, (u.stop prog p).workers n = .idle ∨ ∃ j ∈ jobs, (u.stop prog p).workers n = .start j := by
        intro p
        refine ⟨e, fun n => ?_⟩
        unfold World.stop
        dsimp only
        split
        · exact .inl rfl
        · exact ih n
      cases h with
      | kill p => exact stop p
      | act h =>
        cases h with
        | abort _ => exact stop _
        | go h =>
          cases h with
          | @take n j hn hj =>
            refine ⟨e, fun m => ?_⟩
            unfold World.set
            dsimp only
            split
            · exact .inr ⟨j, hj, rfl⟩
            · exact ih m
          | @work n d s h =>
            have hw := ih n
            generalize hs : u.workers n = s0 at h hw
            have rest : ∀ s', s' = WSt.idle → ∀ m, ({ u with disk := u.disk }.set n s').workers m = .idle ∨
                ∃ j ∈ jobs, ({ u with disk := u.disk }.set n s').workers m = .start j := by
              rintro s' rfl m
              unfold World.set
              dsimp only
              split
              · exact .inl rfl
              · exact ih m
            rcases hw with rfl | ⟨j, hj, rfl⟩
            · cases h with
              | work h _ => cases h
            · cases h with
              | work h _ =>
                cases h with
                | skip _ => exact ⟨e, rest _ rfl⟩
                | check h => rw [e] at h; exact absurd h (hd j hj)
  exact this.1

/-! ## What goes wrong -/

/-- Two files. -/
def twoJobs : List Job := [shortJob "p".toList "ab".toList [], shortJob "q".toList "c".toList []]

theorem twoJobs_good : GoodJobs twoJobs := ⟨by decide, by decide +kernel⟩

/-- Nothing has been written yet. -/
def empty : Overlap.World := ⟨⟨fun _ => none, fun _ => [], 0⟩, fun _ => .idle⟩

theorem empty_begins : Begins twoJobs empty := ⟨fun _ => rfl, fun _ _ _ h => (nomatch h), fun _ _ h => (nomatch h), fun _ _ _ _ _ => .inl rfl⟩

/-- The settings. -/
def plainSetup : Setup := ⟨.repr, false, false⟩

/-- The first worker is a program, the others are another one. -/
def twoPrograms (n : Nat) : Nat := if n = 0 then 0 else 1

/-- Is the worker about to rename? -/
def notMoving : WSt → Bool
  | .moving _ => false
  | _ => true

theorem ostep {c : Setup} {d d' : Disk} {s s' : WSt} (h : WStep c d s d' s') (hm : notMoving s = true) : OStep c d s d' s' :=
  .work h (by rintro j rfl; cases hm)

theorem orename {c : Setup} {d : Disk} {j : Job} (h : d.dir (partOf j.dest) ≠ none) :
    OStep c d (.moving j) (d.rename (partOf j.dest) (.out j.dest)) .idle :=
  .work .rename (by intro j' e; cases e; exact h)

/-- The first program has written a result and renamed it, after the second one has opened it too. -/
theorem race : ∃ w, Spec.Star (Go plainSetup twoJobs) empty w ∧ w.workers 0 = .idle ∧ w.workers 1 = .writing (shortJob "p".toList "ab".toList []) 0 0 ∧
    w.disk.Has (.out (encodeUtf8 "p".toList)) [] ∧ w.disk.dir (partOf (encodeUtf8 "p".toList)) = none ∧ ∀ n, 1 < n → w.workers n = .idle := by
  have s0 : Spec.Star (Go plainSetup twoJobs) empty empty := .refl
  have s1 := s0.tail (.take (n := 0) (j := shortJob "p".toList "ab".toList []) rfl (by simp [twoJobs]))
  have s2 := s1.tail (.take (n := 1) (j := shortJob "p".toList "ab".toList []) rfl (by simp [twoJobs]))
  have s3 := s2.tail (.work (n := 0) (ostep (.check rfl) rfl))
  have s4 := s3.tail (.work (n := 1) (ostep (.check rfl) rfl))
  have s5 := s4.tail (.work (n := 0) (ostep (.openPart (by decide)) rfl))
  have s6 := s5.tail (.work (n := 0) (ostep (.write 2 rfl (by decide) (by decide)) rfl))
  have s7 := s6.tail (.work (n := 0) (ostep (.close rfl (by decide)) rfl))
  have s8 := s7.tail (.work (n := 1) (ostep (.openPart (by decide)) rfl))
  have s9 := s8.tail (.work (n := 0) (orename (by decide +kernel)))
  refine ⟨_, s9, rfl, rfl, ⟨0, by decide +kernel, by decide +kernel⟩, by decide +kernel, fun n hn => ?_⟩
  have h0 : n ≠ 0 := by omega
  have h1 : n ≠ 1 := by omega
  simp [World.set, h0, h1, empty]

/-- **C64, the missing part is false** A program that has done its work, with no program killed and no exception, can leave a result that
is there but empty, as long as another program is still writing it. -/
theorem C64_early_violated : ∃ w, Spec.Star (Go plainSetup twoJobs) empty w ∧ w.workers 0 = .idle ∧
    w.disk.Has (.out (encodeUtf8 "p".toList)) [] := by
  obtain ⟨w, h1, h2, -, h3, -, -⟩ := race
  exact ⟨w, h1, h2, h3⟩

/-- **C64, the missing part is false** The other program then ends with an exception, although every file can be processed. -/
theorem C64_exception_violated : ∃ w, Spec.Star (Go plainSetup twoJobs) empty w ∧ w.workers 1 = .raised (shortJob "p".toList "ab".toList []) := by
  obtain ⟨w, h1, -, h3, -, h5, -⟩ := race
  have s1 := h1.tail (.work (n := 1) (by rw [h3]; exact ostep (.write 2 rfl (by decide) (by decide)) rfl))
  have s2 := s1.tail (.work (n := 1) (ostep (.close rfl (by decide)) rfl))
  have s3 := s2.tail (.work (n := 1) (.gone (by exact h5)))
  exact ⟨_, s3, rfl⟩

/-- **C64, the missing part is false** Although no program is killed, results can be incomplete for good: an exception in one worker of a
program stops another worker of it, which has just emptied a result of the other program.  All results are there, so no program
writes them again. -/
theorem C64_abort_violated : ∃ w, Spec.Star (Act plainSetup twoJobs twoPrograms) empty w ∧
    ∀ w', Spec.Star (Any plainSetup twoJobs twoPrograms) w w' → w'.disk.Has (.out (encodeUtf8 "p".toList)) [] := by
  have s0 : Spec.Star (Act plainSetup twoJobs twoPrograms) empty empty := .refl
  have s1 := s0.tail (.go (.take (n := 0) (j := shortJob "q".toList "c".toList []) rfl (by simp [twoJobs])))
  have s2 := s1.tail (.go (.take (n := 1) (j := shortJob "q".toList "c".toList []) rfl (by simp [twoJobs])))
  have s3 := s2.tail (.go (.work (n := 0) (ostep (.check rfl) rfl)))
  have s4 := s3.tail (.go (.work (n := 1) (ostep (.check rfl) rfl)))
  have s5 := s4.tail (.go (.work (n := 0) (ostep (.openPart (by decide)) rfl)))
  have s6 := s5.tail (.go (.work (n := 1) (ostep (.openPart (by decide)) rfl)))
  have s7 := s6.tail (.go (.work (n := 0) (ostep (.write 1 rfl (by decide) (by decide)) rfl)))
  have s8 := s7.tail (.go (.work (n := 0) (ostep (.close rfl (by decide)) rfl)))
  have s9 := s8.tail (.go (.work (n := 0) (orename (by decide +kernel))))
  have s10 := s9.tail (.go (.work (n := 1) (ostep (.write 1 rfl (by decide) (by decide)) rfl)))
  have s11 := s10.tail (.go (.work (n := 1) (ostep (.close rfl (by decide)) rfl)))
  have s12 := s11.tail (.go (.take (n := 0) (j := shortJob "p".toList "ab".toList []) rfl (by simp [twoJobs])))
  have s13 := s12.tail (.go (.take (n := 2) (j := shortJob "p".toList "ab".toList []) rfl (by simp [twoJobs])))
  have s14 := s13.tail (.go (.work (n := 0) (ostep (.check (by decide +kernel)) rfl)))
  have s15 := s14.tail (.go (.work (n := 2) (ostep (.check (by decide +kernel)) rfl)))
  have s16 := s15.tail (.go (.work (n := 0) (ostep (.openPart (by decide)) rfl)))
  have s17 := s16.tail (.go (.work (n := 0) (ostep (.write 2 rfl (by decide) (by decide)) rfl)))
  have s18 := s17.tail (.go (.work (n := 0) (ostep (.close rfl (by decide)) rfl)))
  have s19 := s18.tail (.go (.work (n := 2) (ostep (.openPart (by decide)) rfl)))
  have s20 := s19.tail (.go (.work (n := 0) (orename (by decide +kernel))))
  have s21 := s20.tail (.go (.work (n := 1) (.gone (by decide +kernel))))
  have s22 := s21.tail (.abort (n := 1) (j := shortJob "q".toList "c".toList []) rfl)
  refine ⟨_, s22, fun w' hw' => ?_⟩
  rw [C64_over (fun n => ?_) (fun j hj => ?_) hw']
  · exact ⟨1, by decide +kernel, by decide +kernel⟩
  · match n with
    | 0 => rfl
    | 1 => rfl
    | n + 2 => rfl
  · simp only [twoJobs, List.mem_cons, List.not_mem_nil, or_false] at hj
    rcases hj with rfl | rfl
    · decide +kernel
    · decide +kernel

/-! ## The theorems apply -/

/-- Both programs have written the same file, one of them ends with an exception, and the result is complete. -/
example : ∃ w, Spec.Star (Overlap.Careful plainSetup twoJobs twoPrograms) empty w ∧ w.disk.Has (.out (encodeUtf8 "p".toList)) "ab".toList ∧
    w.workers 1 = .raised (shortJob "p".toList "ab".toList []) := by
  obtain ⟨w, h1, h2, h3, h4, h5, h6⟩ := race
  have s1 := h1.tail (.work (n := 1) (by rw [h3]; exact ostep (.write 2 rfl (by decide) (by decide)) rfl))
  have s2 := s1.tail (.work (n := 1) (ostep (.close rfl (by decide)) rfl))
  have s3 := s2.tail (.work (n := 1) (.gone (by exact h5)))
  have lift : ∀ {u v}, Spec.Star (Go plainSetup twoJobs) u v → Spec.Star (Overlap.Careful plainSetup twoJobs twoPrograms) u v := by
    intro u v h
    induction h with
    | refl => exact .refl
    | tail _ h ih => exact ih.tail (.go h)
  refine ⟨_, lift s3, C64_complete twoJobs_good empty_begins (lift s3) (j := shortJob "p".toList "ab".toList []) (by simp [twoJobs]) rfl ?_ ?_, rfl⟩
  · obtain ⟨i, e, -⟩ := h4
    exact fun h => by have := e.symm.trans h; cases this
  · rintro n ⟨i, pos, e⟩
    match n with
    | 0 => simp [World.set, h2] at e
    | 1 => simp [World.set] at e
    | n + 2 => simp [World.set, h6 (n + 2) (by omega)] at e

/-- **C64** As long as no program is killed, a worker stops before it has come to the end of its file only if a worker of its own program
has raised an exception; then all workers of that program stop, and no others. -/
theorem C64_stopped {c : Setup} {jobs : List Job} {prog : Nat → Nat} {w w' : Overlap.World} (h : Act c jobs prog w w') (m : Nat)
    (hm : w'.workers m ≠ w.workers m) (hi : w'.workers m = .idle) : OStep c w.disk (w.workers m) w'.disk .idle ∨
      ∃ n j, prog n = prog m ∧ w.workers n = .raised j ∧
        ∀ k, w'.workers k = if prog k = prog m then .idle else w.workers k := by
  cases h with
  | go h =>
    cases h with
    | @take n j hn hj =>
      by_cases e : m = n
      · subst e; simp [World.set] at hi
      · simp [World.set, e] at hm
    | @work n d s h =>
      by_cases e : m = n
      · subst e
        have : s = .idle := by simpa [World.set] using hi
        subst this
        exact .inl h
      · simp [World.set, e] at hm
  | @abort n j h =>
    by_cases e : prog m = prog n
    · exact .inr ⟨n, j, e.symm, h, fun k => by simp [World.stop, e]⟩
    · simp [World.stop, e] at hm

end Verif.Props.Overlap
