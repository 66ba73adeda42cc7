import Verif.Model.BpeEncode
import Verif.Spec.Bpe
import Verif.Proofs.Str
/-!
# Lemmas about BPE encoding
-/
namespace Verif
open Spec

/-! ## The scan and rebuild loops -/

/-- Smallest priority of a pair of neighbours, starting from `init`. -/
def minPrio (m : MergeList) : List Str → Nat → Nat
  | a :: b :: r, init =>
    match m.priority? (a, b) with
    | none => minPrio m (b :: r) init
    | some p => minPrio m (b :: r) (if p < init then p else init)
  | _, init => init

/-- Positions selected greedily from left to right for priority `k`; `blocked` says that the previous position
was selected. -/
def greedyFrom (m : MergeList) (k : Nat) : Nat → Bool → List Str → List Nat
  | i, blocked, a :: b :: r =>
    if m.priority? (a, b) = some k ∧ blocked = false then i :: greedyFrom m k (i + 1) true (b :: r)
    else greedyFrom m k (i + 1) false (b :: r)
  | _, _, _ => []

/-- Replace, left to right, all non-overlapping pairs that have priority `k`. -/
def replacePrio (m : MergeList) (k : Nat) : List Str → List Str
  | [] => []
  | [a] => [a]
  | a :: b :: r =>
    if m.priority? (a, b) = some k then (a ++ b) :: replacePrio m k r
    else a :: replacePrio m k (b :: r)

theorem minPrio_le (m : MergeList) (l : List Str) (init : Nat) : minPrio m l init ≤ init := by
  induction l generalizing init with
  | nil => simp [minPrio]
  | cons a t ih =>
    cases t with
    | nil => simp [minPrio]
    | cons b r =>
      simp only [minPrio]
      split
      · exact ih _
      · rename_i p _
        refine Nat.le_trans (ih _) ?_
        split <;> omega

theorem scanFrom_eq (m : MergeList) (l : List Str) (i : Nat) (idx : List Nat) (best : Nat)
    (hlt : ∀ x ∈ idx.getLast?, x < i) :
    scanFrom m i l (idx, best) =
      (if minPrio m l best < best then greedyFrom m (minPrio m l best) i false l
       else idx ++ greedyFrom m (minPrio m l best) i (decide (idx.getLast?.map (· + 1) = some i)) l,
       minPrio m l best) := by
  induction l generalizing i idx best with
  | nil => simp [scanFrom, minPrio, greedyFrom]
  | cons a t ih =>
    cases t with
    | nil => simp [scanFrom, minPrio, greedyFrom]
    | cons b r =>
      have hblk : ∀ idx : List Nat, (∀ x ∈ idx.getLast?, x < i) →
          decide (idx.getLast?.map (· + 1) = some (i + 1)) = false := by
        intro idx h
        cases hl : idx.getLast? with
        | none => simp
        | some x => have := h x (by simp [hl]); simp; omega
      simp only [scanFrom, scanStep]
      cases hp : m.priority? (a, b) with
      | none =>
        simp only [minPrio, hp]
        rw [ih (i + 1) idx best (fun x hx => Nat.lt_succ_of_lt (hlt x hx))]
        rw [hblk idx hlt]
        have hg : ∀ bl, greedyFrom m (minPrio m (b :: r) best) i bl (a :: b :: r)
            = greedyFrom m (minPrio m (b :: r) best) (i + 1) false (b :: r) := by
          intro bl; simp [greedyFrom, hp]
        rw [hg, hg]
      | some p =>
        simp only [minPrio, hp]
        by_cases hpb : p < best
        · simp only [hpb, if_true]
          rw [ih (i + 1) [i] p (by simp)]
          have hle := minPrio_le m (b :: r) p
          have : minPrio m (b :: r) p < best := by omega
          simp only [this, if_true]
          by_cases h2 : minPrio m (b :: r) p < p
          · simp only [h2, if_true]
            have hne : p ≠ minPrio m (b :: r) p := by omega
            simp [greedyFrom, hp, hne]
          · have heq : minPrio m (b :: r) p = p := by omega
            simp [heq, greedyFrom, hp]
        · simp only [hpb, if_false]
          by_cases hpe : p = best
          · subst hpe
            simp only [if_true]
            by_cases hcond : idx = [] ∨ idx.getLast?.map (· + 1) ≠ some i
            · simp only [hcond, if_true]
              rw [ih (i + 1) (idx ++ [i]) p (by simp)]
              have hdec : decide (idx.getLast?.map (· + 1) = some i) = false := by
                rcases hcond with h | h
                · simp [h]
                · simp [h]
              rw [hdec]
              by_cases h2 : minPrio m (b :: r) p < p
              · simp only [h2, if_true]
                have hne : p ≠ minPrio m (b :: r) p := by omega
                simp [greedyFrom, hp, hne]
              · have heq : minPrio m (b :: r) p = p := by
                  have := minPrio_le m (b :: r) p; omega
                simp [heq, greedyFrom, hp]
            · simp only [hcond, if_false]
              rw [ih (i + 1) idx p (fun x hx => Nat.lt_succ_of_lt (hlt x hx)), hblk idx hlt]
              have hdec : decide (idx.getLast?.map (· + 1) = some i) = true := by
                have := not_or.1 hcond
                simpa using this.2
              rw [hdec]
              by_cases h2 : minPrio m (b :: r) p < p
              · simp only [h2, if_true]
                have hne : p ≠ minPrio m (b :: r) p := by omega
                simp [greedyFrom, hp, hne]
              · have heq : minPrio m (b :: r) p = p := by
                  have := minPrio_le m (b :: r) p; omega
                simp [heq, greedyFrom]
          · simp only [hpe, if_false]
            rw [ih (i + 1) idx best (fun x hx => Nat.lt_succ_of_lt (hlt x hx)), hblk idx hlt]
            have hle := minPrio_le m (b :: r) best
            have hne : p ≠ minPrio m (b :: r) best := by omega
            simp [greedyFrom, hp, hne]

/-- The scan of one round: positions of the smallest priority, greedily from left to right. -/
theorem scan_eq (m : MergeList) (l : List Str) :
    scanFrom m 0 l ([], sysMaxsize) =
      (greedyFrom m (minPrio m l sysMaxsize) 0 false l, minPrio m l sysMaxsize) := by
  rw [scanFrom_eq m l 0 [] sysMaxsize (by simp)]
  simp

theorem applyIndices_greedy (m : MergeList) (k : Nat) (subs : List Str) :
    ∀ (n i start : Nat) (acc : List Str), subs.length - i ≤ n → start ≤ i → i ≤ subs.length →
    applyIndices subs (greedyFrom m k i false (subs.drop i)) start acc =
      .ok (acc ++ (subs.drop start).take (i - start) ++ replacePrio m k (subs.drop i)) := by
  intro n
  induction n using Nat.strongRecOn with
  | _ n ih =>
    intro i start acc hn hs hi
    have hcat : ∀ j, start ≤ j → j ≤ subs.length →
        acc ++ subs.drop start = acc ++ (subs.drop start).take (j - start) ++ subs.drop j := by
      intro j h1 h2
      have : subs.drop j = (subs.drop start).drop (j - start) := by
        rw [List.drop_drop]; congr 1; omega
      rw [this, List.append_assoc, List.take_append_drop]
    cases hd : subs.drop i with
    | nil =>
      simp only [greedyFrom, applyIndices, replacePrio]
      rw [hcat i hs hi, hd]
    | cons a t =>
      have hilt : i < subs.length := by
        have := congrArg List.length hd; simp at this; omega
      have hai : subs[i]? = some a := by
        have := congrArg List.head? hd; simpa [List.head?_drop] using this
      have ht : t = subs.drop (i + 1) := by
        have := congrArg List.tail hd; simpa [List.tail_drop] using this.symm
      cases ht2 : t with
      | nil =>
        simp only [greedyFrom, applyIndices, replacePrio]
        rw [hcat i hs hi, hd, ht2]
      | cons b r =>
        have hi1 : i + 1 < subs.length := by
          have := congrArg List.length (ht2.symm.trans ht); simp at this; omega
        have hbi : subs[i + 1]? = some b := by
          have := congrArg List.head? (ht.symm.trans ht2); simpa [List.head?_drop] using this
        have hr : r = subs.drop (i + 2) := by
          have := congrArg List.tail (ht.symm.trans ht2); simpa [List.tail_drop] using this.symm
        by_cases hp : m.priority? (a, b) = some k
        · simp only [greedyFrom, hp, and_self, if_true, applyIndices, hai, hbi, replacePrio]
          have hskip : greedyFrom m k (i + 1) true (b :: r) = greedyFrom m k (i + 2) false r := by
            cases r with
            | nil => simp [greedyFrom]
            | cons c r' => simp [greedyFrom]
          rw [hskip, hr]
          rw [ih (subs.length - (i + 2)) (by omega) (i + 2) (i + 2) _ (by omega) (by omega) (by omega)]
          simp
        · have hg : greedyFrom m k i false (a :: b :: r) = greedyFrom m k (i + 1) false (b :: r) := by
            simp [greedyFrom, hp]
          rw [hg]
          have : b :: r = subs.drop (i + 1) := ht2.symm.trans ht
          rw [this]
          rw [ih (subs.length - (i + 1)) (by omega) (i + 1) start acc (by omega) (by omega) (by omega)]
          have e1 : (subs.drop start).take (i + 1 - start) = (subs.drop start).take (i - start) ++ [a] := by
            have : i + 1 - start = (i - start) + 1 := by omega
            rw [this, List.take_add_one]
            have : (subs.drop start)[i - start]? = some a := by
              rw [List.getElem?_drop]; rw [← hai]; congr 1; omega
            simp [this]
          rw [e1, ← this]
          simp only [replacePrio, hp, if_false]
          simp

/-- One round of the loop. -/
theorem applyIndices_scan (m : MergeList) (l : List Str) :
    applyIndices l (scanFrom m 0 l ([], sysMaxsize)).1 0 [] =
      .ok (replacePrio m (minPrio m l sysMaxsize) l) := by
  rw [scan_eq]
  have := applyIndices_greedy m (minPrio m l sysMaxsize) l l.length 0 0 [] (by omega) (by omega) (by omega)
  simpa using this

theorem greedyFrom_eq_nil (m : MergeList) (k : Nat) (l : List Str) (i : Nat) :
    greedyFrom m k i false l = [] ↔ ∀ p, Adjacent p l → m.priority? p ≠ some k := by
  induction l generalizing i with
  | nil =>
    simp only [greedyFrom, true_iff]
    rintro p ⟨pre, post, h⟩; simp at h
  | cons a t ih =>
    cases t with
    | nil =>
      simp only [greedyFrom, true_iff]
      rintro p ⟨pre, post, h⟩
      have := congrArg List.length h; simp at this; omega
    | cons b r =>
      by_cases hp : m.priority? (a, b) = some k
      · simp only [greedyFrom, hp, and_self, if_true]
        constructor
        · intro h; simp at h
        · intro h; exact absurd hp (h (a, b) ⟨[], r, rfl⟩)
      · simp only [greedyFrom, hp, false_and, if_false, ih]
        constructor
        · rintro h p ⟨pre, post, e⟩
          cases pre with
          | nil =>
            simp only [List.nil_append, List.cons.injEq] at e
            obtain ⟨rfl, rfl, _⟩ := e
            exact hp
          | cons x pre =>
            simp only [List.cons_append, List.cons.injEq] at e
            exact h p ⟨pre, post, e.2⟩
        · rintro h p ⟨pre, post, e⟩
          exact h p ⟨a :: pre, post, by simp [e]⟩

/-! ## Adjacent pairs -/

theorem adjacent_nil (p : Str × Str) : ¬ Adjacent p [] := by
  rintro ⟨pre, post, h⟩; simp at h

theorem adjacent_single (p : Str × Str) (a : Str) : ¬ Adjacent p [a] := by
  rintro ⟨pre, post, h⟩
  have := congrArg List.length h; simp at this; omega

theorem adjacent_cons_cons {p : Str × Str} {a b : Str} {r : List Str} :
    Adjacent p (a :: b :: r) ↔ (a = p.1 ∧ b = p.2) ∨ Adjacent p (b :: r) := by
  constructor
  · rintro ⟨pre, post, e⟩
    cases pre with
    | nil => simp only [List.nil_append, List.cons.injEq] at e; exact Or.inl ⟨e.1, e.2.1⟩
    | cons x pre => simp only [List.cons_append, List.cons.injEq] at e; exact Or.inr ⟨pre, post, e.2⟩
  · rintro (⟨rfl, rfl⟩ | ⟨pre, post, e⟩)
    · exact ⟨[], r, rfl⟩
    · exact ⟨a :: pre, post, by simp [e]⟩

theorem minPrio_spec (m : MergeList) (l : List Str) (init : Nat) :
    (∀ p k, Adjacent p l → m.priority? p = some k → minPrio m l init ≤ k) ∧
    (minPrio m l init = init ∨ ∃ p, Adjacent p l ∧ m.priority? p = some (minPrio m l init)) := by
  induction l generalizing init with
  | nil => exact ⟨fun p k h => absurd h (adjacent_nil p), Or.inl rfl⟩
  | cons a t ih =>
    cases t with
    | nil => exact ⟨fun p k h => absurd h (adjacent_single p a), Or.inl rfl⟩
    | cons b r =>
      simp only [minPrio]
      cases hp : m.priority? (a, b) with
      | none =>
        obtain ⟨h1, h2⟩ := ih init
        constructor
        · intro p k hadj hk
          rcases adjacent_cons_cons.1 hadj with ⟨rfl, rfl⟩ | h
          · rw [hp] at hk; simp at hk
          · exact h1 p k h hk
        · rcases h2 with h2 | ⟨p, h3, h4⟩
          · exact Or.inl h2
          · exact Or.inr ⟨p, adjacent_cons_cons.2 (Or.inr h3), h4⟩
      | some q =>
        obtain ⟨h1, h2⟩ := ih (if q < init then q else init)
        have hle := minPrio_le m (b :: r) (if q < init then q else init)
        constructor
        · intro p k hadj hk
          rcases adjacent_cons_cons.1 hadj with ⟨rfl, rfl⟩ | h
          · rw [hp] at hk
            simp only [Option.some.injEq] at hk
            subst hk
            refine Nat.le_trans hle ?_
            split <;> omega
          · exact h1 p k h hk
        · rcases h2 with h2 | ⟨p, h3, h4⟩
          · by_cases hq : q < init
            · right; refine ⟨(a, b), adjacent_cons_cons.2 (Or.inl ⟨rfl, rfl⟩), ?_⟩
              show m.priority? (a, b) = some (minPrio m (b :: r) (if q < init then q else init))
              rw [h2, hp]; simp [hq]
            · left
              show minPrio m (b :: r) (if q < init then q else init) = init
              rw [h2]; simp [hq]
          · exact Or.inr ⟨p, adjacent_cons_cons.2 (Or.inr h3), h4⟩

theorem replacePrio_length_le (m : MergeList) (k : Nat) : ∀ l : List Str, (replacePrio m k l).length ≤ l.length
  | [] => by simp [replacePrio]
  | [a] => by simp [replacePrio]
  | a :: b :: r => by
    simp only [replacePrio]
    split
    · have := replacePrio_length_le m k r; simp; omega
    · have := replacePrio_length_le m k (b :: r); simp at this ⊢; omega

theorem replacePrio_length_lt (m : MergeList) (k : Nat) : ∀ l : List Str,
    (∃ p, Adjacent p l ∧ m.priority? p = some k) → (replacePrio m k l).length < l.length
  | [], ⟨p, h, _⟩ => absurd h (adjacent_nil p)
  | [a], ⟨p, h, _⟩ => absurd h (adjacent_single p a)
  | a :: b :: r, ⟨p, h, hk⟩ => by
    simp only [replacePrio]
    split
    · have := replacePrio_length_le m k r; simp; omega
    · rename_i hn
      rcases adjacent_cons_cons.1 h with ⟨rfl, rfl⟩ | h
      · exact absurd hk hn
      · have := replacePrio_length_lt m k (b :: r) ⟨p, h, hk⟩; simp at this ⊢; omega

/-- If only the pair `p` has priority `k`, replacing by priority is replacing the pair. -/
theorem replacePrio_eq_replaceAll (m : MergeList) (k : Nat) (p : Str × Str)
    (hk : ∀ q, m.priority? q = some k ↔ q = p) : ∀ l : List Str, replacePrio m k l = replaceAll p l
  | [] => by simp [replacePrio, replaceAll]
  | [a] => by simp [replacePrio, replaceAll]
  | a :: b :: r => by
    simp only [replacePrio, replaceAll, hk]
    rw [replacePrio_eq_replaceAll m k p hk r, replacePrio_eq_replaceAll m k p hk (b :: r)]
    have : ((a, b) = p) ↔ (a = p.1 ∧ b = p.2) := by
      obtain ⟨x, y⟩ := p; simp
    simp only [this]

/-! ## Coarsening -/

theorem Spec.Coarsens.refl {l : List Str} : Coarsens l l :=
  ⟨l.map (fun x => [x]), by
    constructor
    · induction l with
      | nil => rfl
      | cons a t ih => simp [ih]
    · constructor
      · intro g hg; rcases List.mem_map.1 hg with ⟨x, _, rfl⟩; simp
      · induction l with
        | nil => rfl
        | cons a t ih => simpa using ih⟩

theorem Spec.Coarsens.cons {a : Str} {l l' : List Str} (h : Coarsens l l') : Coarsens (a :: l) (a :: l') := by
  obtain ⟨g, h1, h2, h3⟩ := h
  refine ⟨[a] :: g, by simp [h1], ?_, by simp [h3]⟩
  intro x hx
  rcases List.mem_cons.1 hx with rfl | hx
  · simp
  · exact h2 x hx

theorem Spec.Coarsens.merge {a b : Str} {l l' : List Str} (h : Coarsens l l') :
    Coarsens ((a ++ b) :: l) (a :: b :: l') := by
  obtain ⟨g, h1, h2, h3⟩ := h
  refine ⟨[a, b] :: g, by simp [h1], ?_, by simp [h3]⟩
  intro x hx
  rcases List.mem_cons.1 hx with rfl | hx
  · simp
  · exact h2 x hx

theorem Spec.Coarsens.flatten_eq {c f : List Str} (h : Coarsens c f) : c.flatten = f.flatten := by
  obtain ⟨g, h1, _, h3⟩ := h
  subst h1 h3
  rw [List.flatten_flatten]

/-- Splitting the groups of `groups` according to a list of pieces. -/
theorem flatten_map_split (g1 : List (List Str)) (h1 : ∀ g ∈ g1, g ≠ []) :
    ∀ g2 : List (List Str), (∀ g ∈ g2, g ≠ []) → g2.flatten = g1.map List.flatten →
    ∃ g : List (List Str), g.flatten = g1.flatten ∧ (∀ x ∈ g, x ≠ []) ∧
      g.map List.flatten = g2.map List.flatten := by
  intro g2
  induction g2 generalizing g1 with
  | nil =>
    intro _ h
    have : g1 = [] := by cases g1 with
      | nil => rfl
      | cons a t => simp at h
    subst this
    exact ⟨[], by simp⟩
  | cons x xs ih =>
    intro hne h
    -- take the first `x.length` groups of `g1`
    have hlen : x.length ≤ g1.length := by
      have := congrArg List.length h
      simp at this; omega
    have htake : (g1.take x.length).map List.flatten = x := by
      rw [List.map_take, ← h]; simp
    have hdrop : (g1.drop x.length).map List.flatten = xs.flatten := by
      rw [List.map_drop, ← h]; simp
    obtain ⟨g, hg1, hg2, hg3⟩ := ih (g1.drop x.length) (fun g hg => h1 g (List.mem_of_mem_drop hg))
      (fun g hg => hne g (by simp [hg])) hdrop.symm
    refine ⟨(g1.take x.length).flatten :: g, ?_, ?_, ?_⟩
    · simp only [List.flatten_cons, hg1]
      rw [← List.flatten_append, List.take_append_drop]
    · intro y hy
      rcases List.mem_cons.1 hy with rfl | hy
      · have hx : x ≠ [] := hne x (by simp)
        have hx' : x.length ≠ 0 := by simpa using hx
        cases g1 with
        | nil => simp at hlen; exact absurd hlen hx
        | cons c cs =>
          have hc := h1 c (by simp)
          cases hxl : x.length with
          | zero => exact absurd hxl hx'
          | succ n => simp [hc]
      · exact hg2 y hy
    · simp only [List.map_cons, hg3, List.cons.injEq, and_true]
      conv => rhs; rw [← htake]
      rw [List.flatten_flatten]

theorem Spec.Coarsens.trans {a b c : List Str} (h1 : Coarsens a b) (h2 : Coarsens b c) : Coarsens a c := by
  obtain ⟨g2, e2, n2, r2⟩ := h1
  obtain ⟨g1, e1, n1, r1⟩ := h2
  obtain ⟨g, hg1, hg2, hg3⟩ := flatten_map_split g1 n1 g2 n2 (by rw [e2, r1])
  exact ⟨g, by rw [hg1, e1], hg2, by rw [r2, hg3]⟩

theorem replacePrio_coarsens (m : MergeList) (k : Nat) : ∀ l : List Str, Coarsens (replacePrio m k l) l
  | [] => Coarsens.refl
  | [a] => Coarsens.refl
  | a :: b :: r => by
    simp only [replacePrio]
    split
    · exact (replacePrio_coarsens m k r).merge
    · exact (replacePrio_coarsens m k (b :: r)).cons

theorem replaceAll_coarsens (p : Str × Str) : ∀ l : List Str, Coarsens (replaceAll p l) l
  | [] => Coarsens.refl
  | [a] => Coarsens.refl
  | a :: b :: r => by
    simp only [replaceAll]
    split
    · exact (replaceAll_coarsens p r).merge
    · exact (replaceAll_coarsens p (b :: r)).cons

/-- The loop always finishes within its fuel, and only glues symbols together. -/
theorem encodeLoop_ok (m : MergeList) : ∀ (fuel : Nat) (subs : List Str), subs.length ≤ fuel + 1 →
    ∃ r, encodeLoop m fuel subs = .ok r ∧ Coarsens r subs := by
  intro fuel
  induction fuel with
  | zero =>
    intro subs h
    refine ⟨subs, ?_, Coarsens.refl⟩
    unfold encodeLoop
    have : (scanFrom m 0 subs ([], sysMaxsize)).1 = [] := by
      cases subs with
      | nil => rfl
      | cons a t => cases t with
        | nil => rfl
        | cons b r => simp at h
    simp [this]
  | succ n ih =>
    intro subs h
    unfold encodeLoop
    by_cases hst : (scanFrom m 0 subs ([], sysMaxsize)).1 = []
    · exact ⟨subs, by simp [hst], Coarsens.refl⟩
    · simp only [hst, if_false]
      rw [applyIndices_scan]
      have hlt : (replacePrio m (minPrio m subs sysMaxsize) subs).length < subs.length := by
        apply replacePrio_length_lt
        rw [scan_eq] at hst
        simp only [greedyFrom_eq_nil] at hst
        have : ∃ p, ¬ (Adjacent p subs → m.priority? p ≠ some (minPrio m subs sysMaxsize)) :=
          Classical.not_forall.1 hst
        obtain ⟨p, hp⟩ := this
        exact ⟨p, Classical.not_imp.1 hp |>.1, Classical.not_not.1 (Classical.not_imp.1 hp).2⟩
      obtain ⟨r, hr, hc⟩ := ih (replacePrio m (minPrio m subs sysMaxsize) subs) (by omega)
      exact ⟨r, hr, hc.trans (replacePrio_coarsens _ _ _)⟩

/-! ## Escaping -/

/-- The unit of a character in the escaped word. -/
def unitOf (c : Char) : Str := if c = escChar then [escChar, escChar] else [c]

/-- The units of an escaped word. -/
def unitsOf (w : Str) : List Str := w.map unitOf ++ [[escChar]]

theorem unitOf_ne_nil (c : Char) : unitOf c ≠ [] := by unfold unitOf; split <;> simp

theorem doubleEsc_eq (w : Str) : doubleEsc w = (w.map unitOf).flatten := by
  induction w with
  | nil => rfl
  | cons c cs ih => simp [doubleEsc, unitOf, List.flatMap] at ih ⊢; rw [ih]

theorem escape_eq (w : Str) : escape w true = (unitsOf w).flatten := by
  simp [escape, unitsOf, doubleEsc_eq]

theorem toCharList_escape (w : Str) : toCharList (escape w true) = .ok (unitsOf w) := by
  induction w with
  | nil => rfl
  | cons c cs ih =>
    have hne : escape cs true ≠ [] := by simp [escape]
    cases he : escape cs true with
    | nil => exact absurd he hne
    | cons d r =>
      rw [he] at ih
      by_cases hc : c = escChar
      · subst hc
        have : escape (escChar :: cs) true = escChar :: escChar :: escape cs true := by
          simp [escape, doubleEsc]
        rw [this, he]
        simp only [toCharList, ne_eq, not_true, if_false, if_true, ih]
        simp [unitsOf, unitOf, bind, Except.bind]
      · have : escape (c :: cs) true = c :: escape cs true := by
          simp [escape, doubleEsc, hc]
        rw [this, he]
        simp only [toCharList, ne_eq, hc, not_false_eq_true, if_true, ih]
        simp [unitsOf, unitOf, hc, bind, Except.bind]

theorem undouble_append_unit (c : Char) (s : Str) :
    undoubleEsc (unitOf c ++ s) = c :: undoubleEsc s := by
  unfold unitOf
  split
  · rename_i h; subst h; simp [undoubleEsc]
  · rename_i h
    cases s with
    | nil => simp [undoubleEsc]
    | cons d r => simp [undoubleEsc, h]

theorem undouble_units (w : Str) : undoubleEsc (w.map unitOf).flatten = w := by
  induction w with
  | nil => rfl
  | cons c cs ih => simp [undouble_append_unit, ih]

theorem noSpace_unitsOf {w : Str} (h : ' ' ∉ w) : ∀ p ∈ unitsOf w, ' ' ∉ p := by
  intro p hp
  simp only [unitsOf, List.mem_append, List.mem_map, List.mem_singleton] at hp
  rcases hp with ⟨c, hc, rfl⟩ | rfl
  · unfold unitOf
    split
    · simp [escChar]
    · simp only [List.mem_singleton]; rintro rfl; exact h hc
  · simp [escChar]

theorem Spec.Coarsens.forall_mem {c f : List Str} (h : Coarsens c f) {P : Char → Prop}
    (hf : ∀ p ∈ f, ∀ x ∈ p, P x) : ∀ p ∈ c, ∀ x ∈ p, P x := by
  intro p hp x hx
  have : x ∈ c.flatten := List.mem_flatten.2 ⟨p, hp, hx⟩
  rw [h.flatten_eq] at this
  obtain ⟨q, hq, hxq⟩ := List.mem_flatten.1 this
  exact hf q hq x hxq

theorem Spec.Coarsens.ne_nil {c f : List Str} (h : Coarsens c f) (hf : f ≠ []) : c ≠ [] := by
  obtain ⟨g, h1, _, h3⟩ := h
  rintro rfl
  have : g = [] := by simpa using h3.symm
  subst this
  exact hf (by simpa using h1.symm)

/-- What the encoder returns for an escaped word without spaces. -/
theorem encodeWord_escape (w : Str) (m : MergeList) (h : ' ' ∉ w) :
    ∃ r, encodeWord (escape w true) m = .ok r ∧ Coarsens r (unitsOf w) ∧
      encodeLoop m (unitsOf w).length (unitsOf w) = .ok r := by
  have hne : unitsOf w ≠ [] := by simp [unitsOf]
  have hs : pySplit ' ' (pyJoin [' '] (unitsOf w)) = unitsOf w :=
    pySplit_pyJoin hne (noSpace_unitsOf h)
  obtain ⟨r, hr, hc⟩ := encodeLoop_ok m (unitsOf w).length (unitsOf w) (by omega)
  refine ⟨r, ?_, hc, hr⟩
  have hsp : ∀ p ∈ r, ' ' ∉ p := by
    intro p hp hx
    have := hc.forall_mem (P := (· ≠ ' ')) (fun q hq x hx => by
      rintro rfl; exact noSpace_unitsOf h q hq hx) p hp ' ' hx
    exact this rfl
  simp only [encodeWord, toCharList_escape, bind, Except.bind, hs, hr]
  rw [pySplit_pyJoin (hc.ne_nil hne) hsp]

/-- A group of units of `w`, not containing the end mark. -/
theorem undouble_group {g : List Str} {w : Str} (h : ∃ a b, w.map unitOf = a ++ g ++ b) :
    ∃ v : Str, g = v.map unitOf := by
  obtain ⟨a, b, h⟩ := h
  have h2 : (w.map unitOf).drop a.length = g ++ b := by rw [h]; simp
  have h3 : ((w.map unitOf).drop a.length).take g.length = g := by rw [h2]; simp
  exact ⟨(w.drop a.length).take g.length, by rw [List.map_take, List.map_drop]; exact h3.symm⟩

theorem units_groups (g : List (List Str)) : ∀ (w : Str), g.flatten = w.map unitOf →
    ∃ v : List Str, g = v.map (fun s => s.map unitOf) ∧ v.flatten = w := by
  induction g with
  | nil => intro w h; refine ⟨[], rfl, ?_⟩; simpa using h
  | cons x xs ih =>
    intro w h
    simp only [List.flatten_cons] at h
    have hx : (w.take x.length).map unitOf = x := by
      rw [List.map_take, ← h]; simp
    have hxs : (w.drop x.length).map unitOf = xs.flatten := by
      rw [List.map_drop, ← h]; simp
    obtain ⟨v, h1, h2⟩ := ih _ hxs.symm
    exact ⟨w.take x.length :: v, by simp [hx, h1], by simp [h2]⟩

/-- Un-escaping a regrouping of the units of `w` gives a regrouping of `w`. -/
theorem unescape_coarse {w : Str} {r : List Str} (h : Coarsens r (unitsOf w)) :
    ∃ v md, unescape r = .ok (v, md) ∧ v.flatten = w ∧ v.length = r.length ∧ (∀ s ∈ v.dropLast, s ≠ []) ∧
      md = (v.map fun s => (s.map unitOf).flatten) := by
  obtain ⟨g, h1, h2, h3⟩ := h
  have hg : g ≠ [] := by rintro rfl; simp [unitsOf] at h1
  obtain ⟨gi, gl, rfl⟩ : ∃ gi gl, g = gi ++ [gl] := ⟨g.dropLast, g.getLast hg, (List.dropLast_concat_getLast hg).symm⟩
  have hgl : gl ≠ [] := h2 gl (by simp)
  obtain ⟨u, e, rfl⟩ : ∃ u e, gl = u ++ [e] := ⟨gl.dropLast, gl.getLast hgl, (List.dropLast_concat_getLast hgl).symm⟩
  simp only [List.flatten_append, List.flatten_cons, List.flatten_nil, List.append_nil, unitsOf] at h1
  rw [← List.append_assoc] at h1
  have h1' := List.append_inj' h1 (by simp)
  obtain ⟨h1a, h1b⟩ := h1'
  have he : e = [escChar] := by simpa using h1b
  subst he
  obtain ⟨v, hv1, hv2⟩ := units_groups (gi ++ [u]) w (by simpa using h1a)
  refine ⟨v, gi.map List.flatten ++ [u.flatten], ?_, hv2, ?_, ?_, ?_⟩
  · have hr : r = gi.map List.flatten ++ [u.flatten ++ [escChar]] := by
      rw [h3]; simp
    have hlast : r.getLast? = some (u.flatten ++ [escChar]) := by rw [hr]; simp
    have hdl : r.dropLast = gi.map List.flatten := by rw [hr]; simp
    simp only [unescape, hlast, List.getLast?_append, List.getLast?_singleton, Option.some_or,
      ne_eq, not_true, if_false, hdl, List.dropLast_append_cons, List.dropLast_singleton, List.append_nil]
    congr 1
    have : gi.map List.flatten ++ [u.flatten] = (gi ++ [u]).map List.flatten := by simp
    rw [this, hv1]
    simp only [List.map_map, Prod.mk.injEq, and_true]
    conv => rhs; rw [← List.map_id v]
    apply List.map_congr_left
    intro s _
    simp [undouble_units]
  · have := congrArg List.length hv1
    rw [h3]; simp at this ⊢; omega
  · have hd := congrArg List.dropLast hv1
    simp only [List.dropLast_append_cons, List.dropLast_singleton, List.append_nil] at hd
    rw [← List.map_dropLast] at hd
    rintro s hs rfl
    have : ([] : List Str) ∈ gi := by
      rw [hd]; exact List.mem_map.2 ⟨[], hs, rfl⟩
    exact h2 [] (by simp [this]) rfl
  · have : gi.map List.flatten ++ [u.flatten] = (gi ++ [u]).map List.flatten := by simp
    rw [this, hv1]
    simp [Function.comp_def]

theorem unitsOf_eq_initialSymbols (w : Str) : unitsOf w = initialSymbols w := rfl

/-- `getBpeSubwords` on a word that is not in the cache. -/
theorem getBpeSubwords_miss (w : Str) (d : BpeData) (hs : ' ' ∉ w)
    (hc : d.cache.get? (escape w true) = none) :
    ∃ v r, encodeWord (escape w true) d.merges = .ok r ∧ Coarsens r (unitsOf w) ∧
      getBpeSubwordsSt w d = .ok (v, d) ∧ v.flatten = w ∧ (∀ s ∈ v.dropLast, s ≠ []) ∧ v ≠ [] ∧
      r = (v.dropLast.map fun s => (s.map unitOf).flatten) ++
        (v.getLast?.toList.map fun s => (s.map unitOf).flatten ++ [escChar]) := by
  obtain ⟨r, hr, hco, _⟩ := encodeWord_escape w d.merges hs
  obtain ⟨v, md, hu, hf, hl, hne, hmd⟩ := unescape_coarse hco
  have hr0 : r ≠ [] := hco.ne_nil (by simp [unitsOf])
  have hv0 : v ≠ [] := by
    intro e; subst e; simp at hl; exact hr0 (List.length_eq_zero_iff.1 hl.symm)
  refine ⟨v, r, hr, hco, ?_, hf, hne, hv0, ?_⟩
  · simp [getBpeSubwordsSt, hc, hr, hu, bind, Except.bind]
  · obtain ⟨ri, rl, rfl⟩ : ∃ ri rl, r = ri ++ [rl] := ⟨r.dropLast, r.getLast hr0, (List.dropLast_concat_getLast hr0).symm⟩
    obtain ⟨vi, vl, rfl⟩ : ∃ vi vl, v = vi ++ [vl] := ⟨v.dropLast, v.getLast hv0, (List.dropLast_concat_getLast hv0).symm⟩
    simp only [unescape, List.getLast?_append, List.getLast?_singleton, Option.some_or] at hu
    split at hu
    · simp at hu
    · rename_i c hcl
      split at hu
      · simp at hu
      · rename_i hce
        simp only [ne_eq, Classical.not_not] at hce
        subst hce
        simp only [List.dropLast_append_cons, List.dropLast_singleton, List.append_nil, Except.ok.injEq,
          Prod.mk.injEq] at hu
        have h2 := hu.2.trans hmd
        simp only [List.map_append, List.map_cons, List.map_nil] at h2
        have h3 := List.append_inj' h2 (by simp)
        have hrl : rl = rl.dropLast ++ [escChar] := by
          rw [List.getLast?_eq_some_iff] at hcl
          obtain ⟨ys, rfl⟩ := hcl
          simp
        simp only [List.dropLast_append_cons, List.dropLast_singleton, List.append_nil, List.getLast?_append,
          List.getLast?_singleton, Option.some_or, Option.toList_some, List.map_cons, List.map_nil]
        rw [h3.1]
        congr 1
        rw [hrl]
        have := h3.2
        simp only [List.cons.injEq, and_true] at this
        rw [this]

/-! ## One round as a specification step -/

/-- A merge list as used by the encoder: distinct pairs have distinct ranks, all below `sys.maxsize`. -/
structure RanksOk (m : MergeList) : Prop where
  inj : ∀ p q k, m.priority? p = some k → m.priority? q = some k → p = q
  lt : ∀ p k, m.priority? p = some k → k < sysMaxsize

theorem minPrio_best {m : MergeList} (hm : RanksOk m) {l : List Str}
    (h : greedyFrom m (minPrio m l sysMaxsize) 0 false l ≠ []) :
    ∃ p, m.priority? p = some (minPrio m l sysMaxsize) ∧ Adjacent p l ∧
      (∀ q k', m.priority? q = some k' → Adjacent q l → minPrio m l sysMaxsize ≤ k') ∧
      replacePrio m (minPrio m l sysMaxsize) l = replaceAll p l := by
  rw [ne_eq, greedyFrom_eq_nil] at h
  obtain ⟨p, hp⟩ := Classical.not_forall.1 h
  have h1 := (Classical.not_imp.1 hp).1
  have h2 := Classical.not_not.1 (Classical.not_imp.1 hp).2
  refine ⟨p, h2, h1, ?_, ?_⟩
  · intro q k' hk ha; exact (minPrio_spec m l sysMaxsize).1 q k' ha hk
  · apply replacePrio_eq_replaceAll
    intro q
    constructor
    · intro hq; exact hm.inj q p _ hq h2
    · rintro rfl; exact h2

theorem greedy_nil_final {m : MergeList} (hm : RanksOk m) {l : List Str}
    (h : greedyFrom m (minPrio m l sysMaxsize) 0 false l = []) : Final m.priority? l := by
  intro p hp
  cases hk : m.priority? p with
  | none => rfl
  | some k =>
    rw [greedyFrom_eq_nil] at h
    rcases (minPrio_spec m l sysMaxsize).2 with h2 | ⟨q, h3, h4⟩
    · have h5 := (minPrio_spec m l sysMaxsize).1 p k hp hk
      have h6 := hm.lt p k hk
      omega
    · exact absurd h4 (h q h3)

theorem encodeLoop_steps {m : MergeList} (hm : RanksOk m) : ∀ (fuel : Nat) (subs r : List Str),
    encodeLoop m fuel subs = .ok r → Steps m.priority? subs r ∧ Final m.priority? r := by
  intro fuel
  induction fuel with
  | zero =>
    intro subs r h
    simp only [encodeLoop] at h
    split at h
    · rename_i hst
      simp only [Except.ok.injEq] at h
      subst h
      rw [scan_eq] at hst
      exact ⟨Steps.refl _, greedy_nil_final hm hst⟩
    · simp at h
  | succ n ih =>
    intro subs r h
    simp only [encodeLoop] at h
    split at h
    · rename_i hst
      simp only [Except.ok.injEq] at h
      subst h
      rw [scan_eq] at hst
      exact ⟨Steps.refl _, greedy_nil_final hm hst⟩
    · rename_i hst
      simp only [applyIndices_scan, bind, Except.bind] at h
      rw [scan_eq] at hst
      obtain ⟨p, h1, h2, h3, h4⟩ := minPrio_best hm hst
      obtain ⟨hs, hf⟩ := ih _ r h
      exact ⟨Steps.head ⟨p, _, h1, h2, h3, h4⟩ hs, hf⟩

end Verif
