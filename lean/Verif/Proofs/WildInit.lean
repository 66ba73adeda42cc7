import Verif.Proofs.WildRun
import Verif.Proofs.PriorityCounter
/-!
# The indices in the beginning
-/
namespace Verif.Wild
open Verif Verif.Spec

/-- The texts the algorithm starts with: single characters. -/
def Single (s : List Str) : Prop := ∀ x ∈ s, ∃ c, c ≠ ' ' ∧ x = [c]

theorem Single.ns {s : List Str} (h : Single s) : NoSpace s := by
  intro x hx
  obtain ⟨c, hc, rfl⟩ := h x hx
  intro g
  simp at g
  exact hc g.symm

theorem Single.flatten {s : List Str} (h : Single s) : s.flatten.map (fun c => [c]) = s ∧ s.flatten.length = s.length := by
  induction s with
  | nil => exact ⟨rfl, rfl⟩
  | cons x s ih =>
    obtain ⟨c, hc, rfl⟩ := h _ List.mem_cons_self
    obtain ⟨e1, e2⟩ := ih fun y hy => h y (List.mem_cons_of_mem _ hy)
    simp [e1, e2]

theorem Single.coh {s : List Str} (h : Single s) : Coh (fun x => x.map fun c => [c]) s := by
  refine ⟨?_, ?_⟩
  · rintro a b c rfl
    exact (Single.flatten (s := b) fun x hx => h x (by simp [hx])).1
  · intro x hx
    obtain ⟨c, hc, rfl⟩ := h x hx
    simp

theorem kpos_snoc (k : Str) (pre : List Str) (x y : Str) (o : Int) :
    kpos k o (pre ++ [x, y]) = kpos k o (pre ++ [x]) ++ if join x y = k then [o + pre.flatten.length] else [] := by
  induction pre generalizing o with
  | nil => simp only [List.nil_append, kpos]; split <;> simp
  | cons p pre ih =>
    cases pre with
    | nil =>
      have := ih (o + p.length)
      simp only [List.nil_append, List.cons_append, List.flatten_cons, List.flatten_nil, List.append_nil] at this ⊢
      rw [kpos, this, kpos]
      split <;> simp
    | cons q pre =>
      have := ih (o + p.length)
      simp only [List.cons_append] at this ⊢
      rw [kpos, this, kpos]
      split <;> simp [Int.add_assoc]

/-- The invariant of the loop of `build_indices` after `s`. -/
structure BuildInv (s : List Str) (loc : Loc) (nb : Nb) : Prop where
  look : ∀ k, look loc k = kpos k 0 s
  ne : ∀ k, loc.get? k ≠ some []
  nodup : (loc.map (·.1)).Nodup
  nbi : NbInv (Tk fun x => x.map fun c => [c]) nb
  cover : ∀ p x y z r, s = p ++ x :: y :: z :: r → Linked nb (join x y) (join y z)

theorem BuildInv.link {s : List Str} {nb : Nb} (hs : Single s) {x y z : Str} (hx : x ∈ s) (hy : y ∈ s) (hz : z ∈ s)
    (h : NbInv (Tk fun x => x.map fun c => [c]) nb) :
    NbInv (Tk fun x => x.map fun c => [c]) (nbAdd (nbAdd nb (join x y) .right (join y z)) (join y z) .left (join x y)) ∧
      Grow nb (nbAdd (nbAdd nb (join x y) .right (join y z)) (join y z) .left (join x y)) ∧
      Linked (nbAdd (nbAdd nb (join x y) .right (join y z)) (join y z) .left (join x y)) (join x y) (join y z) := by
  have L := link_right nb (join x y) (join y z)
  have hT : ∀ x ∈ s, Tk (fun x => x.map fun c => [c]) x := fun x hx =>
    ⟨hs.ns x hx, hs.coh.ne x hx, hs.coh.symbol hx⟩
  have hfit : Fit (Tk fun x => x.map fun c => [c]) (join x y) (join y z) := ⟨x, y, z, rfl, rfl, hT x hx, hT y hy, hT z hz⟩
  refine ⟨⟨?_, ?_, fun k => (L k).2.2.2.2.1 (h.nr k), fun k => (L k).2.2.2.2.2 (h.nl k), ?_⟩, ?_, ?_⟩
  · intro l r g
    rcases ((L l).1 r).mp g with g | ⟨rfl, rfl⟩
    · exact h.fr l r g
    · exact hfit
  · intro l r g
    rcases ((L r).2.1 l).mp g with g | ⟨rfl, rfl⟩
    · exact h.fl l r g
    · exact hfit
  · intro k
    rw [(L k).1 k, (L k).2.1 k, h.self k]
    constructor
    · rintro (g | ⟨g1, g2⟩)
      · exact .inl g
      · exact .inr ⟨g2, g1⟩
    · rintro (g | ⟨g1, g2⟩)
      · exact .inl g
      · exact .inr ⟨g2, g1⟩
  · intro k
    exact ⟨fun d hd => ((L k).1 d).mpr (.inl hd), fun d hd => ((L k).2.1 d).mpr (.inl hd)⟩
  · exact ⟨((L _).1 _).mpr (.inr ⟨rfl, rfl⟩), ((L _).2.1 _).mpr (.inr ⟨rfl, rfl⟩)⟩

theorem buildLoop_spec : ∀ (rest : List Str) (pre : List Str) (first : Str) (last : Option Str) (loc : Loc) (nb : Nb),
    Single (pre ++ first :: rest) → BuildInv (pre ++ [first]) loc nb →
    (match last with
      | none => pre = []
      | some l => ∃ p x, pre = p ++ [x] ∧ l = join x first) →
    BuildInv (pre ++ first :: rest) (buildLoop pre.length first last rest loc nb).1 (buildLoop pre.length first last rest loc nb).2 := by
  intro rest
  induction rest with
  | nil => intro pre first last loc nb hs h _; exact h
  | cons second rest ih =>
    intro pre first last loc nb hs h hl
    have hpre : pre.flatten.length = pre.length := (Single.flatten (s := pre) fun x hx => hs x (by simp [hx])).2
    have e : pre ++ first :: second :: rest = (pre ++ [first]) ++ second :: rest := by simp
    have hlook : ∀ k, look (loc.set (join first second) (look loc (join first second) ++ [(pre.length : Int)])) k =
        kpos k 0 (pre ++ [first] ++ [second]) := by
      intro k
      have e' : pre ++ [first] ++ [second] = pre ++ [first, second] := by simp
      rw [e', kpos_snoc, ← h.look k, hpre]
      unfold look
      rw [Dict.get?_set]
      by_cases hk : join first second = k
      · subst hk; simp
      · simp [hk]
    have hne : ∀ k, (loc.set (join first second) (look loc (join first second) ++ [(pre.length : Int)])).get? k ≠ some [] := by
      intro k
      rw [Dict.get?_set]
      split
      · simp
      · exact h.ne k
    have hnd := Dict.WF_set (show Dict.WF loc from h.nodup) (join first second) (look loc (join first second) ++ [(pre.length : Int)])
    unfold buildLoop
    simp only
    rw [e]
    have hl' : ((pre ++ [first]).length : Int) = pre.length + 1 := by simp
    rw [← hl']
    refine ih (pre ++ [first]) second _ _ _ (by rw [← e]; exact hs) ?_ ⟨pre, first, rfl, rfl⟩
    cases last with
    | none =>
      simp only at hl
      subst hl
      refine ⟨hlook, hne, hnd, h.nbi, ?_⟩
      intro p x y z r e2
      have := congrArg List.length e2
      simp at this
      omega
    | some l =>
      obtain ⟨p, x, rfl, rfl⟩ := hl
      obtain ⟨g1, g2, g3⟩ := BuildInv.link hs (x := x) (y := first) (z := second) (by simp) (by simp) (by simp) h.nbi
      refine ⟨hlook, hne, hnd, g1, ?_⟩
      intro p' x' y' z' r e2
      rcases List.eq_nil_or_concat r with rfl | ⟨r', w, rfl⟩
      · have e3 : p ++ [x, first, second] = p' ++ [x', y', z'] := by simpa using e2
        obtain ⟨-, e4⟩ := List.append_inj' e3 rfl
        simp only [List.cons.injEq, and_true] at e4
        obtain ⟨rfl, rfl, rfl⟩ := e4
        exact g3
      · have e3 : (p ++ [x] ++ [first]) ++ [second] = (p' ++ x' :: y' :: z' :: r') ++ [w] := by rw [e2]; simp
        obtain ⟨e4, -⟩ := List.append_inj' e3 rfl
        exact (h.cover p' x' y' z' r' e4).grow g2

theorem init_rep {s : List Str} {loc : Loc} {nb : Nb} (h : BuildInv s loc nb) :
    ∃ es, loc.mapM queueEntry = .ok es ∧ Rep (Queue.init es) fun k => summ (kpos k 0 s) := by
  have hmem : ∀ k l, (k, l) ∈ loc ↔ loc.get? k = some l := fun k l => mem_iff_get? (d := loc) h.nodup k l
  have hq : ∀ e ∈ loc, ∃ x r, e.2 = x :: r := by
    rintro ⟨k, l⟩ he
    cases l with
    | nil => exact absurd ((hmem _ _).mp he) (h.ne k)
    | cons x r => exact ⟨x, r, rfl⟩
  have hmap : ∀ d : Loc, (∀ e ∈ d, ∃ x r, e.2 = x :: r) →
      d.mapM queueEntry = .ok (d.map fun e => (e.1, (e.2.length : Int), (e.2.head?).getD 0)) := by
    intro d
    induction d with
    | nil => intro _; rfl
    | cons e d ih =>
      intro hd
      obtain ⟨x, r, hx⟩ := hd e List.mem_cons_self
      rw [List.mapM_cons, ih fun e' he' => hd e' (List.mem_cons_of_mem _ he')]
      obtain ⟨k, l⟩ := e
      simp only at hx
      subst hx
      rfl
  refine ⟨_, hmap loc hq, Rep.init ?_ ?_⟩
  · rw [List.map_map]; exact h.nodup
  · intro k v
    rw [← h.look k]
    unfold look
    constructor
    · intro hv
      obtain ⟨x, r, hl, hv'⟩ := summ_some hv
      rcases hg : loc.get? k with _ | l
      · rw [hg] at hl; cases hl
      · rw [hg] at hl hv'
        simp only [Option.getD_some] at hl hv'
        rw [List.mem_map]
        exact ⟨(k, l), (hmem _ _).mpr hg, by subst hl; simp [hv']⟩
    · intro hv
      obtain ⟨⟨k', l⟩, he, hev⟩ := List.mem_map.mp hv
      obtain ⟨x, r, hx⟩ := hq _ he
      simp only at hx
      subst hx
      have hg := (hmem _ _).mp he
      simp only [Prod.mk.injEq] at hev
      obtain ⟨rfl, rfl⟩ := hev
      rw [hg]; rfl

theorem run_spec {o : Order Entry} (ho : AnyOrder o) (hh : IsHeap o) {s : List Str} (hs : Single s) (hne : s ≠ []) (n : Nat) :
    ∃ l, run o s n = .ok l ∧ Merges n s l := by
  obtain ⟨c, r, rfl⟩ := List.exists_cons_of_ne_nil hne
  have hb : BuildInv ([] ++ [c]) [] [] := by
    refine ⟨fun k => rfl, (fun k h => nomatch h), List.nodup_nil, ⟨?_, ?_, fun _ => List.nodup_nil, fun _ => List.nodup_nil, ?_⟩, ?_⟩
    · intro l r h; cases h
    · intro l r h; cases h
    · intro k; exact ⟨fun h => h, fun h => h⟩
    · intro p x y z r e
      have := congrArg List.length e
      simp at this; omega
  have h := buildLoop_spec r [] c none [] [] hs hb rfl
  obtain ⟨es, e1, hr⟩ := init_rep h
  have hinv : MainInv (fun x => x.map fun c => [c]) (c :: r) (buildLoop 0 c none r [] []).1 (buildLoop 0 c none r [] []).2 (Queue.init es) :=
    ⟨hs.coh, hs.ns, LocOK.mk h.look h.ne, h.nbi, fun p x y z t1 t2 t3 => by
      obtain ⟨p, r, e⟩ := triple_split hs.coh.ne t1 t2 t3
      exact h.cover p x y z r e, hr⟩
  obtain ⟨l, e2, hm⟩ := runLoop_spec ho hh n hinv
  refine ⟨l, ?_, hm⟩
  have e1' : (buildLoop 0 c none r [] []).1.mapM queueEntry = .ok es := e1
  unfold run buildIndices
  simp only [bind, Except.bind, e1', e2]

end Verif.Wild
