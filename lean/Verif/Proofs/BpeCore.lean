import Verif.Proofs.BpeEncode
import Mathlib.Data.List.Induction
/-!
# The confluence argument for byte-pair encoding

Applying learnt merges one after another to a word gives the same result as repeatedly applying the best-ranked merge
that is present.  The key fact is that the split of a span whose ends are never crossed does not depend on its
context (`Coh`).
-/
namespace Verif
open Spec

/-- Apply merges one after another, each to all its occurrences. -/
def seqAll (ms : List (Str × Str)) (s : List Str) : List Str := ms.foldl (fun s p => replaceAll p s) s

theorem seqAll_append (ms ms' : List (Str × Str)) (s : List Str) :
    seqAll (ms ++ ms') s = seqAll ms' (seqAll ms s) := by simp [seqAll]

theorem seqAll_snoc (ms : List (Str × Str)) (p : Str × Str) (s : List Str) :
    seqAll (ms ++ [p]) s = replaceAll p (seqAll ms s) := by simp [seqAll]

theorem replaceAll_flatten (p : Str × Str) (s : List Str) : (replaceAll p s).flatten = s.flatten :=
  (replaceAll_coarsens p s).flatten_eq

theorem seqAll_coarsens (ms : List (Str × Str)) (s : List Str) : Coarsens (seqAll ms s) s := by
  induction ms generalizing s with
  | nil => exact Coarsens.refl
  | cons p r ih => exact (ih (replaceAll p s)).trans (replaceAll_coarsens p s)

/-- Context independence of a single merge: a boundary in the result splits the merge. -/
theorem replaceAll_split (p : Str × Str) : ∀ (s a' b' : List Str), replaceAll p s = a' ++ b' →
    ∃ a b, s = a ++ b ∧ replaceAll p a = a' ∧ replaceAll p b = b'
  | [], a', b', h => by
    simp only [replaceAll, List.nil_eq, List.append_eq_nil_iff] at h
    exact ⟨[], [], rfl, by simp [replaceAll, h.1], by simp [replaceAll, h.2]⟩
  | [x], a', b', h => by
    simp only [replaceAll] at h
    cases a' with
    | nil => exact ⟨[], [x], rfl, rfl, by simpa [replaceAll] using h⟩
    | cons y t =>
      simp only [List.cons_append, List.cons.injEq, List.nil_eq, List.append_eq_nil_iff] at h
      obtain ⟨rfl, rfl, rfl⟩ := h
      exact ⟨[x], [], rfl, rfl, rfl⟩
  | x :: y :: r, a', b', h => by
    cases a' with
    | nil => exact ⟨[], x :: y :: r, rfl, rfl, by simpa using h⟩
    | cons z t =>
      by_cases hm : x = p.1 ∧ y = p.2
      · simp only [replaceAll, hm, and_self, if_true, List.cons_append, List.cons.injEq] at h
        obtain ⟨a, b, rfl, ha, hb⟩ := replaceAll_split p r t b' h.2
        refine ⟨x :: y :: a, b, rfl, ?_, hb⟩
        simp only [replaceAll, hm, and_self, if_true, ha, h.1]
      · simp only [replaceAll, hm, if_false, List.cons_append, List.cons.injEq] at h
        obtain ⟨a, b, hab, ha, hb⟩ := replaceAll_split p (y :: r) t b' h.2
        refine ⟨x :: a, b, by simp [hab], ?_, hb⟩
        cases a with
        | nil => simp [replaceAll] at ha ⊢; exact ⟨h.1, ha⟩
        | cons y' a' =>
          simp only [List.cons_append, List.cons.injEq] at hab
          obtain ⟨rfl, _⟩ := hab
          rw [← h.1]
          simp only [replaceAll, hm, if_false, ha]

/-- After replacing a pair of non-empty symbols it does not occur any more. -/
theorem replaceAll_noAdj {p : Str × Str} (h1 : p.1 ≠ []) (h2 : p.2 ≠ []) :
    ∀ s : List Str, ¬ Adjacent p (replaceAll p s)
  | [] => by simp only [replaceAll]; exact adjacent_nil p
  | [a] => by simp only [replaceAll]; exact adjacent_single p a
  | a :: b :: r => by
    have l1 : p.1.length ≠ 0 := by simpa using h1
    have l2 : p.2.length ≠ 0 := by simpa using h2
    simp only [replaceAll]
    split
    · rename_i hm
      intro hadj
      cases hr : replaceAll p r with
      | nil => rw [hr] at hadj; exact adjacent_single _ _ hadj
      | cons c t =>
        rw [hr] at hadj
        rcases adjacent_cons_cons.1 hadj with ⟨e, _⟩ | h
        · rw [hm.1, hm.2] at e
          have := congrArg List.length e; simp only [List.length_append] at this; omega
        · rw [← hr] at h; exact replaceAll_noAdj h1 h2 r h
    · rename_i hm
      intro hadj
      cases hr : replaceAll p (b :: r) with
      | nil => rw [hr] at hadj; exact adjacent_single _ _ hadj
      | cons c t =>
        rw [hr] at hadj
        rcases adjacent_cons_cons.1 hadj with ⟨e1, e2⟩ | h
        · -- the first symbol of `replaceAll p (b :: r)` is `b` or `p.1 ++ p.2`
          cases r with
          | nil =>
            simp only [replaceAll, List.cons.injEq] at hr
            exact hm ⟨e1, hr.1.trans e2⟩
          | cons d r' =>
            simp only [replaceAll] at hr
            split at hr
            · rename_i hm2
              simp only [List.cons.injEq] at hr
              rw [hm2.1, hm2.2, e2] at hr
              have := congrArg List.length hr.1; simp only [List.length_append] at this; omega
            · simp only [List.cons.injEq] at hr
              exact hm ⟨e1, hr.1.trans e2⟩
        · rw [← hr] at h; exact replaceAll_noAdj h1 h2 (b :: r) h

theorem replaceAll_eq_self {p : Str × Str} : ∀ {s : List Str}, ¬ Adjacent p s → replaceAll p s = s
  | [], _ => rfl
  | [a], _ => rfl
  | a :: b :: r, h => by
    have hm : ¬ (a = p.1 ∧ b = p.2) := fun e => h (adjacent_cons_cons.2 (Or.inl e))
    have : ¬ Adjacent p (b :: r) := fun e => h (adjacent_cons_cons.2 (Or.inr e))
    simp only [replaceAll, hm, if_false, replaceAll_eq_self this]

/-- Neighbours in the result were neighbours before, or involve the newly created symbol. -/
theorem adjacent_replaceAll {p q : Str × Str} : ∀ {s : List Str}, Adjacent q (replaceAll p s) →
    Adjacent q s ∨ (Adjacent p s ∧ (q.1 = p.1 ++ p.2 ∨ q.2 = p.1 ++ p.2))
  | [], h => by simp only [replaceAll] at h; exact absurd h (adjacent_nil q)
  | [a], h => by simp only [replaceAll] at h; exact absurd h (adjacent_single q a)
  | a :: b :: r, h => by
    simp only [replaceAll] at h
    split at h
    · rename_i hm
      have hp : Adjacent p (a :: b :: r) := adjacent_cons_cons.2 (Or.inl hm)
      cases hr : replaceAll p r with
      | nil => rw [hr] at h; exact absurd h (adjacent_single _ _)
      | cons c t =>
        rw [hr] at h
        rcases adjacent_cons_cons.1 h with ⟨e, _⟩ | h'
        · right; refine ⟨hp, Or.inl ?_⟩; rw [← e, hm.1, hm.2]
        · rw [← hr] at h'
          rcases adjacent_replaceAll h' with h2 | ⟨_, h2⟩
          · left
            obtain ⟨pre, post, e⟩ := h2
            exact ⟨a :: b :: pre, post, by simp [e]⟩
          · exact Or.inr ⟨hp, h2⟩
    · rename_i hm
      cases hr : replaceAll p (b :: r) with
      | nil => rw [hr] at h; exact absurd h (adjacent_single _ _)
      | cons c t =>
        rw [hr] at h
        rcases adjacent_cons_cons.1 h with ⟨e1, e2⟩ | h'
        · cases r with
          | nil =>
            simp only [replaceAll, List.cons.injEq] at hr
            left; exact adjacent_cons_cons.2 (Or.inl ⟨e1, hr.1.trans e2⟩)
          | cons d r' =>
            simp only [replaceAll] at hr
            split at hr
            · rename_i hm2
              simp only [List.cons.injEq] at hr
              right
              refine ⟨adjacent_cons_cons.2 (Or.inr (adjacent_cons_cons.2 (Or.inl hm2))), Or.inr ?_⟩
              rw [← e2, ← hr.1, hm2.1, hm2.2]
            · simp only [List.cons.injEq] at hr
              left; exact adjacent_cons_cons.2 (Or.inl ⟨e1, hr.1.trans e2⟩)
        · rw [← hr] at h'
          rcases adjacent_replaceAll h' with h2 | ⟨h3, h2⟩
          · left; exact adjacent_cons_cons.2 (Or.inr h2)
          · exact Or.inr ⟨adjacent_cons_cons.2 (Or.inr h3), h2⟩

/-- `seg` gives the symbols of every span of `s` from its text alone. -/
structure Coh (seg : Str → List Str) (s : List Str) : Prop where
  span : ∀ a b c, s = a ++ b ++ c → seg b.flatten = b
  ne : ∀ x ∈ s, x ≠ []

theorem Coh.replaceAll {seg : Str → List Str} {s : List Str} (h : Coh seg s) (p : Str × Str) :
    Coh (fun x => replaceAll p (seg x)) (replaceAll p s) := by
  constructor
  · intro a' b' c' e
    obtain ⟨ab, c, rfl, hab, _⟩ := replaceAll_split p s (a' ++ b') c' e
    obtain ⟨a, b, rfl, _, hb⟩ := replaceAll_split p ab a' b' hab
    show Spec.replaceAll p (seg b'.flatten) = b'
    rw [← hb, replaceAll_flatten, h.span a b c rfl]
  · intro x hx
    obtain ⟨g, h1, h2, h3⟩ := replaceAll_coarsens p s
    rw [h3] at hx
    obtain ⟨y, hy, rfl⟩ := List.mem_map.1 hx
    cases y with
    | nil => exact absurd rfl (h2 [] hy)
    | cons z t =>
      have hz : z ∈ s := by rw [← h1]; exact List.mem_flatten.2 ⟨_, hy, by simp⟩
      have := h.ne z hz
      simp [this]

theorem Coh.symbol {seg : Str → List Str} {s : List Str} (h : Coh seg s) {x : Str} (hx : x ∈ s) : seg x = [x] := by
  obtain ⟨a, c, rfl⟩ := List.append_of_mem hx
  have := h.span a [x] c (by simp)
  simpa using this

theorem Coh.pair {seg : Str → List Str} {s : List Str} (h : Coh seg s) {p : Str × Str} (hp : Adjacent p s) :
    seg (p.1 ++ p.2) = [p.1, p.2] := by
  obtain ⟨a, c, rfl⟩ := hp
  have := h.span a [p.1, p.2] c (by simp)
  simpa using this

theorem Spec.Adjacent.mem_left {p : Str × Str} {s : List Str} (h : Adjacent p s) : p.1 ∈ s := by
  obtain ⟨a, c, rfl⟩ := h; simp

theorem Spec.Adjacent.mem_right {p : Str × Str} {s : List Str} (h : Adjacent p s) : p.2 ∈ s := by
  obtain ⟨a, c, rfl⟩ := h; simp

/-- Every merge of the list joins two symbols that are neighbours in some starting word at the time of the merge. -/
def Derivable (W : List Str → Prop) (ms : List (Str × Str)) : Prop :=
  ∀ pre p post, ms = pre ++ p :: post → ∃ s, W s ∧ Adjacent p (seqAll pre s)

theorem Derivable.of_append {W : List Str → Prop} {ms ms' : List (Str × Str)} (h : Derivable W (ms ++ ms')) :
    Derivable W ms := by
  intro pre p post e
  exact h pre p (post ++ ms') (by simp [e])

/-- `seqAll` composed with the initial segmentation. -/
def segAll (seg : Str → List Str) (ms : List (Str × Str)) : Str → List Str := fun x => seqAll ms (seg x)

theorem segAll_snoc (seg : Str → List Str) (ms : List (Str × Str)) (p : Str × Str) :
    segAll seg (ms ++ [p]) = fun x => replaceAll p (segAll seg ms x) := by
  funext x; simp [segAll, seqAll_snoc]

theorem coh_seqAll {seg : Str → List Str} {s : List Str} (h : Coh seg s) (ms : List (Str × Str)) :
    Coh (segAll seg ms) (seqAll ms s) := by
  induction ms using List.reverseRecOn with
  | nil => exact h
  | append_singleton ms p ih =>
    rw [segAll_snoc, seqAll_snoc]; exact ih.replaceAll p

/-- **Core fact**: once a merge has been applied, its pair never becomes adjacent again. -/
theorem core {seg : Str → List Str} {W : List Str → Prop} (hW : ∀ s, W s → Coh seg s) (ms : List (Str × Str))
    (hd : Derivable W ms) :
    (∀ p ∈ ms, segAll seg ms p.1 = [p.1] ∧ segAll seg ms p.2 = [p.2]) ∧
    (∀ s, W s → ∀ p ∈ ms, ¬ Adjacent p (seqAll ms s)) := by
  induction ms using List.reverseRecOn with
  | nil => simp
  | append_singleton ms p ih =>
    obtain ⟨ih1, ih2⟩ := ih hd.of_append
    obtain ⟨s0, hs0, hadj0⟩ := hd ms p [] rfl
    have hcoh0 := coh_seqAll (hW s0 hs0) ms
    have hsing : ∀ x, segAll seg ms x = [x] → segAll seg (ms ++ [p]) x = [x] := by
      intro x hx; simp only [segAll_snoc, hx, replaceAll]
    have hp1 := hcoh0.symbol hadj0.mem_left
    have hp2 := hcoh0.symbol hadj0.mem_right
    have hn1 := hcoh0.ne _ hadj0.mem_left
    have hn2 := hcoh0.ne _ hadj0.mem_right
    constructor
    · intro q hq
      rcases List.mem_append.1 hq with h | h
      · exact ⟨hsing _ (ih1 q h).1, hsing _ (ih1 q h).2⟩
      · simp only [List.mem_singleton] at h
        subst h
        exact ⟨hsing _ hp1, hsing _ hp2⟩
    · intro s hs q hq hadj
      rw [seqAll_snoc] at hadj
      rcases List.mem_append.1 hq with h | h
      · rcases adjacent_replaceAll hadj with h1 | ⟨h1, h2⟩
        · exact ih2 s hs q h h1
        · have hpair := (coh_seqAll (hW s hs) ms).pair h1
          rcases h2 with e | e
          · have := (ih1 q h).1; rw [e, hpair] at this; simp at this
          · have := (ih1 q h).2; rw [e, hpair] at this; simp at this
      · simp only [List.mem_singleton] at h
        subst h
        exact replaceAll_noAdj hn1 hn2 _ hadj

/-- The pairs of a derivable merge list are pairwise different. -/
theorem Derivable.nodup {seg : Str → List Str} {W : List Str → Prop} (hW : ∀ s, W s → Coh seg s)
    {ms : List (Str × Str)} (hd : Derivable W ms) : ms.Nodup := by
  induction ms using List.reverseRecOn with
  | nil => simp
  | append_singleton ms p ih =>
    rw [List.nodup_append]
    refine ⟨ih hd.of_append, by simp, ?_⟩
    intro a ha b hb
    simp only [List.mem_singleton] at hb
    subst hb
    rintro rfl
    obtain ⟨s0, hs0, hadj0⟩ := hd ms a [] rfl
    exact (core hW ms hd.of_append).2 s0 hs0 a ha hadj0

/-- Ranks by position. -/
def posRank (ms : List (Str × Str)) (p : Str × Str) : Option Nat :=
  if p ∈ ms then some (ms.idxOf p) else none

/-- Applying the merges of a derivable list in order is a BPE reduction to normal form. -/
theorem steps_seqAll {seg : Str → List Str} {W : List Str → Prop} (hW : ∀ s, W s → Coh seg s)
    {ms : List (Str × Str)} (hd : Derivable W ms) {s : List Str} (hs : W s) :
    Steps (posRank ms) s (seqAll ms s) ∧ Final (posRank ms) (seqAll ms s) := by
  constructor
  · suffices h : ∀ post pre, ms = pre ++ post → Steps (posRank ms) (seqAll pre s) (seqAll ms s) from
      h ms [] rfl
    intro post
    induction post with
    | nil => intro pre e; simp at e; subst e; exact Steps.refl _
    | cons p post ih =>
      intro pre e
      have hrec := ih (pre ++ [p]) (by simp [e])
      rw [seqAll_snoc] at hrec
      by_cases hadj : Adjacent p (seqAll pre s)
      · refine Steps.head ⟨p, pre.length, ?_, hadj, ?_, rfl⟩ hrec
        · have hnd := hd.nodup hW
          rw [e] at hnd
          have hnp : p ∉ pre := by
            intro hp
            rw [List.nodup_append] at hnd
            exact hnd.2.2 p hp p (by simp) rfl
          simp [posRank, e, List.idxOf_append, hnp]
        · intro q k hk hq
          have hnq : q ∉ pre := by
            intro h
            have hpre : Derivable W pre := by rw [e] at hd; exact hd.of_append
            exact (core hW pre hpre).2 s hs q h hq
          simp only [posRank] at hk
          split at hk
          · simp only [Option.some.injEq] at hk
            subst hk
            rw [e, List.idxOf_append]
            simp [hnq]
          · simp at hk
      · rw [replaceAll_eq_self hadj] at hrec; exact hrec
  · intro p hp
    simp only [posRank]
    split
    · rename_i h; exact absurd hp ((core hW ms hd).2 s hs p h)
    · rfl

/-! ## The initial symbols are coherent -/

/-- The initial symbols of a text that is a concatenation of consecutive initial symbols. -/
def initSeg : Str → List Str
  | [] => []
  | [c] => [[c]]
  | c :: d :: r => if c = escChar ∧ d = escChar then [c, d] :: initSeg r else [c] :: initSeg (d :: r)

theorem initSeg_unit (c : Char) (s : Str) : initSeg (unitOf c ++ s) = unitOf c :: initSeg s := by
  unfold unitOf
  split
  · rename_i h; subst h; simp [initSeg]
  · rename_i h
    cases s with
    | nil => simp [initSeg]
    | cons d r => simp [initSeg, h]

theorem initSeg_units (w : Str) (s : Str) : initSeg ((w.map unitOf).flatten ++ s) = w.map unitOf ++ initSeg s := by
  induction w with
  | nil => rfl
  | cons c cs ih =>
    simp only [List.map_cons, List.flatten_cons, List.append_assoc, initSeg_unit, ih, List.cons_append]

theorem coh_unitsOf (w : Str) : Coh initSeg (unitsOf w) := by
  constructor
  · intro a b c e
    rcases List.eq_nil_or_concat c with rfl | ⟨c', l, rfl⟩
    · rcases List.eq_nil_or_concat b with rfl | ⟨b', l, rfl⟩
      · rfl
      · simp only [unitsOf, List.append_nil, List.concat_eq_append] at e
        rw [← List.append_assoc] at e
        have e' := List.append_inj' e (by simp)
        have hl : l = [escChar] := by simpa using e'.2.symm
        subst hl
        obtain ⟨v, rfl⟩ := undouble_group (g := b') (w := w) ⟨a, [], by simp [e'.1]⟩
        simp only [List.concat_eq_append, List.flatten_append, List.flatten_cons, List.flatten_nil,
          List.append_nil, initSeg_units]
        rfl
    · simp only [unitsOf, List.concat_eq_append] at e
      rw [← List.append_assoc] at e
      have e' := List.append_inj' e (by simp)
      obtain ⟨v, rfl⟩ := undouble_group (g := b) (w := w) ⟨a, c', by simp [e'.1]⟩
      have := initSeg_units v []
      simpa [initSeg] using this
  · intro x hx
    simp only [unitsOf, List.mem_append, List.mem_map, List.mem_singleton] at hx
    rcases hx with ⟨c, _, rfl⟩ | rfl
    · exact unitOf_ne_nil c
    · simp

end Verif
