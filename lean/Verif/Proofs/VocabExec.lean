import Verif.Proofs.VocabGood
import Verif.Spec.VocabExec
/-!
# Executions of the calculation of a vocabulary
-/
namespace Verif
open Spec

/-- What is counted in all partial vocabularies together. -/
def countAll (parts : List (Dict Str Nat × Nat)) (w : Tally) : Nat := (parts.map fun p => (PVocab.init p.1 p.2 []).tally w).sum

/-- The words. -/
def wordAny (parts : List (Dict Str Nat × Nat)) (w : Str) : Prop := ∃ p ∈ parts, w ∈ Dict.keys p.1

theorem parts_tot (parts : List (Dict Str Nat × Nat)) : Tot (countAll parts) (wordAny parts) (parts.map partItem) where
  count w := by
    rw [List.map_map]
    rfl
  word w := by
    constructor
    · rintro ⟨it, hit, hw⟩
      obtain ⟨p, hp, rfl⟩ := List.mem_map.mp hit
      exact ⟨p, hp, hw⟩
    · rintro ⟨p, hp, hw⟩
      exact ⟨_, List.mem_map_of_mem hp, hw⟩

theorem IsTotal.isSum {parts : List (Dict Str Nat × Nat)} {d : Dict Str Nat} (h : IsTotal (countAll parts) (wordAny parts) d) :
    IsSum (parts.map (·.1)) d where
  once := h.wf
  words w := by
    refine (h.word w).trans ?_
    constructor
    · rintro ⟨p, hp, hw⟩; exact ⟨_, List.mem_map_of_mem hp, hw⟩
    · rintro ⟨t, ht, hw⟩
      obtain ⟨p, hp, rfl⟩ := List.mem_map.mp ht
      exact ⟨p, hp, hw⟩
  counts w := by
    rw [h.count w, countAll, List.map_map]
    rfl

theorem Spec.IsSum.isTotal {parts : List (Dict Str Nat × Nat)} {d : Dict Str Nat} (h : IsSum (parts.map (·.1)) d) :
    IsTotal (countAll parts) (wordAny parts) d where
  wf := h.once
  word w := by
    refine (h.words w).trans ?_
    constructor
    · rintro ⟨t, ht, hw⟩
      obtain ⟨p, hp, rfl⟩ := List.mem_map.mp ht
      exact ⟨p, hp, hw⟩
    · rintro ⟨p, hp, hw⟩; exact ⟨_, List.mem_map_of_mem hp, hw⟩
  count w := by
    rw [h.counts w, countAll, List.map_map]
    rfl

theorem countIn_perm {a b : List (Str × Nat)} (h : a.Perm b) (w : Str) : countIn a w = countIn b w :=
  ((h.filter _).map _).sum_nat

theorem Spec.IsSum.perm {tables : List (List (Str × Nat))} {a b : List (Str × Nat)} (h : IsSum tables a) (hp : a.Perm b) :
    IsSum tables b where
  once := (hp.map _).nodup_iff.mp h.once
  words w := by rw [← h.words w]; exact (hp.map _).mem_iff.symm
  counts w := by rw [← h.counts w]; exact countIn_perm hp.symm w

theorem concat_flatten (l : List Str) : concat l = l.flatten := by
  induction l with
  | nil => rfl
  | cons a l ih => simp [concat, ih]

theorem writeVocab_text (d : Dict Str Nat) :
    writeVocab d = ((sortDesc d).map fun e => e.1 ++ '\t' :: (natStr e.2 ++ ['\n'])).flatten := by
  unfold writeVocab dumpVocabDict
  rw [concat_flatten]
  congr 1
  apply List.map_congr_left
  intro e _
  simp [vocabLine]

theorem writeVocab_isVocabFile {tables : List (List (Str × Nat))} {d : Dict Str Nat} (h : IsSum tables d) :
    IsVocabFile tables (writeVocab d) :=
  ⟨sortDesc d, h.perm (sortDesc_perm d).symm, sortDesc_sorted d, writeVocab_text d⟩

theorem insertDesc_le {e : Str × Nat} {l : List (Str × Nat)} (h : ∀ x ∈ l, x.2 ≤ e.2) : insertDesc e l = e :: l := by
  cases l with
  | nil => rfl
  | cons x l =>
    have := h x (by simp)
    simp only [insertDesc]
    rw [if_pos (by omega)]

theorem sortDesc_sorted_eq {l : List (Str × Nat)} (h : l.Pairwise fun a b => b.2 ≤ a.2) : sortDesc l = l := by
  induction l with
  | nil => rfl
  | cons e l ih =>
    rw [List.pairwise_cons] at h
    rw [sortDesc, ih h.2, insertDesc_le h.1]

theorem Spec.IsVocabFile.eq_writeVocab {tables : List (List (Str × Nat))} {text : Str} (h : IsVocabFile tables text) :
    ∃ d, IsSum tables d ∧ text = writeVocab d := by
  obtain ⟨d, h1, h2, h3⟩ := h
  exact ⟨d, h1, by rw [h3, writeVocab_text, sortDesc_sorted_eq h2]⟩

theorem Complete.text {parts : List (Dict Str Nat × Nat)} {dk : Disk} (h : Complete (countAll parts) (wordAny parts) dk) :
    ∃ d ls text, IsSum (parts.map (·.1)) d ∧ dk.stats = some (.complete d.length ls) ∧ dk.vocab = some text ∧
      IsVocabFile (parts.map (·.1)) text := by
  obtain ⟨d, ls, h1, h2, h3⟩ := h
  exact ⟨d, ls, _, h1.isSum, h2, h3, writeVocab_isVocabFile h1.isSum⟩

/-! ### Invariants of executions -/

theorem reach_inv {parts : List (Dict Str Nat × Nat)} {n : Nat} (hn : 0 < n) (hwf : ∀ p ∈ parts, Dict.WF p.1) {a w : World}
    (h : Star (AnyStep parts n) a w) (ha : PhaseInv (countAll parts) (wordAny parts) a.disk a.phase)
    (hsa : StatsInv (countAll parts) (wordAny parts) a.disk) :
    PhaseInv (countAll parts) (wordAny parts) w.disk w.phase ∧ StatsInv (countAll parts) (wordAny parts) w.disk := by
  induction h with
  | refl => exact ⟨ha, hsa⟩
  | tail _ hs ih =>
    rcases hs with hs | hs
    · exact ⟨ih.1.step hn hwf (parts_tot parts) hs, hs.stats ih.1 ih.2⟩
    · exact ⟨ih.1.fault hs, hs.stats ih.2⟩

theorem first_inv {C W} {dir : DumpDir} (h : readyName ∉ dir.keys) :
    PhaseInv C W (World.first dir).disk (World.first dir).phase ∧ StatsInv C W (World.first dir).disk :=
  ⟨.inl ⟨rfl, fun hr => absurd hr h⟩, fun _ _ he => by cases he⟩

theorem reach_first {parts : List (Dict Str Nat × Nat)} {n : Nat} (hn : 0 < n) (hwf : ∀ p ∈ parts, Dict.WF p.1) {dir : DumpDir}
    (hd : readyName ∉ dir.keys) {w : World} (h : Star (AnyStep parts n) (World.first dir) w) :
    PhaseInv (countAll parts) (wordAny parts) w.disk w.phase ∧ StatsInv (countAll parts) (wordAny parts) w.disk :=
  reach_inv hn hwf h (first_inv hd).1 (first_inv hd).2

theorem Spec.Star.mono {α : Type} {r s : α → α → Prop} (h : ∀ a b, r a b → s a b) {a b : α} (hs : Star r a b) : Star s a b := by
  induction hs with
  | refl => exact .refl
  | tail _ h1 ih => exact .tail ih (h _ _ h1)

theorem Spec.Star.trans {α : Type} {r : α → α → Prop} {a b c : α} (h1 : Star r a b) (h2 : Star r b c) : Star r a c := by
  induction h2 with
  | refl => exact h1
  | tail _ h ih => exact .tail ih h

theorem reach_good {E parts n} (hn : 0 < n) (hwf : ∀ p ∈ parts, Dict.WF p.1) {a w : World}
    (h : Star (WStep parts n) a w) (ha : PhaseInv (countAll parts) (wordAny parts) a.disk a.phase)
    (hg : WGood E (countAll parts) (wordAny parts) parts a.disk a.phase) :
    PhaseInv (countAll parts) (wordAny parts) w.disk w.phase ∧ WGood E (countAll parts) (wordAny parts) parts w.disk w.phase := by
  induction h with
  | refl => exact ⟨ha, hg⟩
  | tail _ hs ih => exact ⟨ih.1.step hn hwf (parts_tot parts) hs, ih.2.step ih.1 hs⟩

/-! ### Crashes while nobody writes the vocabulary -/

theorem QuietStep.any {parts n a b} (h : QuietStep parts n a b) : AnyStep parts n a b := h.imp id And.left

/-- The vocabulary file is complete or is not there. -/
def Settled (C : Tally → Nat) (W : Str → Prop) (dk : Disk) : Prop := dk.vocab = none ∨ Complete C W dk

/-- The vocabulary is complete except while it is being written, and a process that is writing it is alive. -/
def QuietInv (C : Tally → Nat) (W : Str → Prop) (dk : Disk) : Phase → Prop
  | .running _ ps => ∀ p ∈ ps, p.2 = false → ∀ v rest, p.1 ≠ .writingVocab v rest
  | _ => Settled C W dk

theorem RunInv.settled {C W dk q ps} (h : RunInv C W dk q ps) (hw : ∀ p ∈ ps, ∀ v rest, p.1 ≠ .writingVocab v rest) :
    Settled C W dk := by
  cases h with
  | normal _ _ h _ => exact .inl h
  | finish l r p b he _ hf _ _ =>
    subst he
    cases p with
    | writingVocab v rest => exact absurd rfl (hw (.writingVocab v rest, b) (by simp) v rest)
    | collecting _ _ => exact .inl hf.1
    | combining _ _ => exact .inl hf.1
    | writingStats _ => exact .inl hf.1
    | openVocab _ => exact .inl hf.1
    | removing => exact .inr hf
    | ended => exact .inr hf.1
    | _ => exact hf.elim

theorem QuietInv.step {C W parts n w w'} (h : PhaseInv C W w.disk w.phase) (hi : QuietInv C W w.disk w.phase)
    (hs : WStep parts n w w') : QuietInv C W w'.disk w'.phase := by
  cases hs with
  | created => intro p hp hf; rw [List.eq_of_mem_replicate hp] at hf; cases hf
  | loaded _ _ => intro p hp hf; rw [List.eq_of_mem_replicate hp] at hf; cases hf
  | run hr =>
    cases hr with
    | step hp =>
      intro x hx hf
      simp only [QuietInv, List.mem_append, List.mem_cons] at hi hx
      rcases hx with hx | rfl | hx
      · exact hi x (.inl hx) hf
      · cases hf
      · exact hi x (.inr (.inr hx)) hf
  | @joined dk q ps hj =>
    refine RunInv.settled h fun p hp v rest e => ?_
    rcases hj p hp with e' | e'
    · rw [e'] at e; cases e
    · exact hi p hp e' v rest e
  | _ => exact hi

theorem QuietInv.fault {C W w w'} (h : PhaseInv C W w.disk w.phase) (hi : QuietInv C W w.disk w.phase)
    (hs : WFault w w') (hq : ¬ w.writing) : QuietInv C W w'.disk w'.phase := by
  cases hs with
  | @restart dk ph =>
    show Settled C W dk
    cases ph with
    | running q ps => exact RunInv.settled h fun p hp v rest e => hq ⟨q, ps, v, rest, p.2, rfl, by rw [← e]; exact hp⟩
    | _ => exact hi
  | run hr =>
    cases hr with
    | @die dk q l p r =>
      intro x hx hf v rest e
      suffices H : ∃ b, (PState.writingVocab v rest, b) ∈ l ++ (p, true) :: r from
        hq ⟨_, _, v, rest, H.choose, rfl, H.choose_spec⟩
      simp only [QuietInv, List.mem_append, List.mem_cons] at hi hx
      rcases hx with hx | rfl | hx
      · exact absurd e (hi x (.inl hx) hf v rest)
      · exact ⟨true, by simp at e; simp [e]⟩
      · exact absurd e (hi x (.inr (.inr hx)) hf v rest)
    | @giveBack dk q l c f r qs _ =>
      intro x hx hf v rest e
      simp only [QuietInv, List.mem_append, List.mem_cons] at hi hx
      rcases hx with hx | rfl | hx
      · exact absurd e (hi x (.inl hx) hf v rest)
      · cases e
      · exact absurd e (hi x (.inr (.inr hx)) hf v rest)

theorem reach_quiet {parts : List (Dict Str Nat × Nat)} {n : Nat} (hn : 0 < n) (hwf : ∀ p ∈ parts, Dict.WF p.1) {dir : DumpDir}
    (hd : readyName ∉ dir.keys) {w : World} (h : Star (QuietStep parts n) (World.first dir) w) :
    PhaseInv (countAll parts) (wordAny parts) w.disk w.phase ∧ QuietInv (countAll parts) (wordAny parts) w.disk w.phase := by
  induction h with
  | refl => exact ⟨(first_inv hd).1, .inl rfl⟩
  | tail _ hs ih =>
    rcases hs with hs | hs
    · exact ⟨ih.1.step hn hwf (parts_tot parts) hs, ih.2.step ih.1 hs⟩
    · exact ⟨ih.1.fault hs.1, ih.2.fault ih.1 hs.1 hs.2⟩

end Verif
