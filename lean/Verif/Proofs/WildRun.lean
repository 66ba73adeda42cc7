import Verif.Proofs.WildNbUpdate
import Verif.Proofs.BpeCore
/-!
# The whole algorithm
-/
namespace Verif.Wild
open Verif Verif.Spec

/-- A valid token of the segmentation `seg`. -/
def Tk (seg : Str → List Str) (x : Str) : Prop := NS x ∧ x ≠ [] ∧ seg x = [x]

theorem NbInv.mono {T T' : Str → Prop} {nb : Nb} (h : NbInv T nb) (hT : ∀ x, T x → T' x) : NbInv T' nb := by
  refine ⟨fun l r g => ?_, fun l r g => ?_, h.nr, h.nl, h.self⟩
  · obtain ⟨x, y, z, e1, e2, h1, h2, h3⟩ := h.fr l r g
    exact ⟨x, y, z, e1, e2, hT _ h1, hT _ h2, hT _ h3⟩
  · obtain ⟨x, y, z, e1, e2, h1, h2, h3⟩ := h.fl l r g
    exact ⟨x, y, z, e1, e2, hT _ h1, hT _ h2, hT _ h3⟩

/-- The three parts of the state belong to the text `s`. -/
structure MainInv (seg : Str → List Str) (s : List Str) (loc : Loc) (nb : Nb) (q : Queue) : Prop where
  coh : Coh seg s
  ns : NoSpace s
  loc : LocOK s loc
  nbi : NbInv (Tk seg) nb
  cover : ∀ (p : Int) x y z, (p, x) ∈ toks 0 s → (p + x.length, y) ∈ toks 0 s → (p + x.length + y.length, z) ∈ toks 0 s →
    Linked nb (join x y) (join y z)
  rep : Rep q fun k => summ (kpos k 0 s)

/-! ## Positions and splittings -/

theorem toks_split {s : List Str} {o q : Int} {x : Str} (h : (q, x) ∈ toks o s) :
    ∃ p r, s = p ++ x :: r ∧ q = o + p.flatten.length := by
  induction s generalizing o with
  | nil => cases h
  | cons y s ih =>
    rcases List.mem_cons.mp h with h | h
    · cases h; exact ⟨[], s, rfl, by simp⟩
    · obtain ⟨p, r, rfl, e⟩ := ih h
      exact ⟨y :: p, r, rfl, by simp [e]; omega⟩

theorem toks_lt {s : List Str} (hs : NE s) {o q : Int} {x : Str} (h : (q, x) ∈ toks o s) : q + x.length ≤ o + s.flatten.length := by
  obtain ⟨p, r, rfl, rfl⟩ := toks_split h
  simp; omega

theorem toks_next {p r : List Str} {x y : Str} (hs : NE (p ++ x :: r))
    (h : ((p.flatten.length : Int) + x.length, y) ∈ toks 0 (p ++ x :: r)) : ∃ r', r = y :: r' := by
  rw [toks_append] at h
  have hp : NE p := fun z hz => hs z (by simp [hz])
  have hx : 0 < x.length := List.length_pos_iff.mpr (hs x (by simp))
  rcases List.mem_append.mp h with h | h
  · have := toks_lt hp h; omega
  · rcases List.mem_cons.mp h with h | h
    · have := congrArg Prod.fst h
      simp only at this; omega
    · cases r with
      | nil => cases h
      | cons w r =>
        rcases List.mem_cons.mp h with h | h
        · have := congrArg Prod.snd h
          simp only at this; exact ⟨r, by rw [this]⟩
        · have := toks_ge h
          have hw : 0 < w.length := List.length_pos_iff.mpr (hs w (by simp))
          omega

theorem at_split {s : List Str} (hs : NE s) {q : Int} {x y : Str} (h1 : (q, x) ∈ toks 0 s) (h2 : (q + x.length, y) ∈ toks 0 s) :
    ∃ p r, s = p ++ x :: y :: r ∧ q = p.flatten.length := by
  obtain ⟨p, r, rfl, rfl⟩ := toks_split h1
  rw [Int.zero_add] at h2
  obtain ⟨r', rfl⟩ := toks_next hs h2
  exact ⟨p, r', rfl, by simp⟩

theorem triple_split {s : List Str} (hs : NE s) {q : Int} {x y z : Str} (h1 : (q, x) ∈ toks 0 s)
    (h2 : (q + x.length, y) ∈ toks 0 s) (h3 : (q + x.length + y.length, z) ∈ toks 0 s) :
    ∃ p r, s = p ++ x :: y :: z :: r := by
  obtain ⟨p, r, rfl, rfl⟩ := at_split hs h1 h2
  have e : p ++ x :: y :: r = (p ++ [x]) ++ y :: r := by simp
  rw [e] at h3 hs
  have : ((((p ++ [x]).flatten.length : Nat) : Int) + y.length, z) ∈ toks 0 ((p ++ [x]) ++ y :: r) := by
    have e' : (((p ++ [x]).flatten.length : Nat) : Int) + y.length = p.flatten.length + x.length + y.length := by simp
    rw [e']; exact h3
  obtain ⟨r', rfl⟩ := toks_next hs this
  exact ⟨p, r', rfl⟩

theorem ppos_nonempty {s : List Str} (hs : NE s) {x y : Str} : ppos x y 0 s ≠ [] ↔ Adjacent (x, y) s := by
  constructor
  · intro h
    obtain ⟨q, hq⟩ := List.exists_mem_of_ne_nil _ h
    obtain ⟨h1, h2⟩ := (ppos_mem hs).mp hq
    obtain ⟨p, r, e, -⟩ := at_split hs h1 h2
    exact ⟨p, r, e⟩
  · intro h e
    obtain ⟨q, h1, h2, -⟩ := adjacent_iff.mp h
    have := (ppos_mem hs).mpr ⟨h1, h2⟩
    rw [e] at this; cases this

theorem LocOK.has {s : List Str} {loc : Loc} (h : LocOK s loc) (hne : NE s) (hns : NoSpace s) {q : Int} {x y : Str}
    (h1 : (q, x) ∈ toks 0 s) (h2 : (q + x.length, y) ∈ toks 0 s) : loc.has (join x y) = true := by
  have e := h.look (join x y)
  rw [kpos_join (hns x (toks_mem h1)) hns] at e
  have hm := (ppos_mem hne).mpr ⟨h1, h2⟩
  rw [has_get?]
  intro g
  unfold Wild.look at e
  rw [g] at e
  rw [← e] at hm; cases hm

/-! ## The pair from the queue is the best one -/

theorem summ_some {l : List Int} {v : Int × Int} (h : summ l = some v) : ∃ x r, l = x :: r ∧ v = ((l.length : Int), x) := by
  cases l with
  | nil => cases h
  | cons x r => cases h; exact ⟨x, r, rfl, rfl⟩

theorem isBest_of {s : List Str} (hne : NE s) (hns : NoSpace s) {a b : Str} (hadj : Adjacent (a, b) s) {c : Int} {r : List Int}
    (hp : ppos a b 0 s = c :: r)
    (hmin : ∀ k v, summ (kpos k 0 s) = some v → v.1 < ((ppos a b 0 s).length : Int) ∨ (v.1 = (ppos a b 0 s).length ∧ c ≤ v.2)) :
    IsBest s (a, b) := by
  refine ⟨hadj, ?_⟩
  rintro ⟨x, y⟩ hxy
  have hx : x ∈ s := by obtain ⟨p, r, rfl⟩ := hxy; simp
  obtain ⟨d, t, ht⟩ := List.exists_cons_of_ne_nil ((ppos_nonempty hne).mpr hxy)
  have := hmin (join x y) ((ppos x y 0 s).length, d) (by rw [kpos_join (hns x hx) hns, ht]; rfl)
  rw [ppos_length, ppos_length] at this
  simp only at this
  rcases this with h | ⟨h1, h2⟩
  · exact .inl (by omega)
  · refine .inr ⟨by omega, .inr ?_⟩
    have hc : c ∈ ppos a b 0 s := by rw [hp]; simp
    obtain ⟨g1, g2⟩ := (ppos_mem hne).mp hc
    obtain ⟨p, q, rfl, rfl⟩ := at_split hne g1 g2
    refine ⟨p, q, rfl, ?_⟩
    rintro ⟨p', q', e⟩
    simp only at e
    -- the other pair lies before
    have hpos : (p'.flatten.length : Int) ∈ ppos x y 0 (p ++ a :: b :: q) := by
      rw [ppos_mem hne]
      have e2 : p ++ a :: b :: q = p' ++ x :: y :: (q' ++ b :: q) := by
        have : p ++ a :: b :: q = (p ++ [a]) ++ b :: q := by simp
        rw [this, e]; simp
      rw [e2, toks_append]
      simp [toks]
    have hd : d ≤ p'.flatten.length := by
      have hs := ppos_sorted (a := x) (b := y) hne 0
      rw [ht] at hs hpos
      rcases List.mem_cons.mp hpos with h | h
      · omega
      · have := (List.pairwise_cons.mp hs).1 _ h; omega
    have hlen : p'.flatten.length < p.flatten.length := by
      have hx0 : 0 < x.length := List.length_pos_iff.mpr (hne x hx)
      have hpre : p = p' ++ x :: (y :: q').dropLast := by
        have := congrArg List.dropLast e
        rw [List.dropLast_concat] at this
        rw [this, List.dropLast_append_of_ne_nil (by simp)]
        simp
      rw [hpre]; simp; omega
    omega

/-! ## One merge -/

theorem fresh_of {seg : Str → List Str} {s : List Str} (h : Coh seg s) {a b : Str} (hadj : Adjacent (a, b) s) {x : Str}
    (hx : seg x = [x]) : x ≠ a ++ b := by
  rintro rfl
  have := h.pair hadj
  rw [hx] at this
  simp at this

theorem MainInv.ctx {seg : Str → List Str} {s : List Str} {loc : Loc} {nb : Nb} {q : Queue} (h : MainInv seg s loc nb q) {a b : Str}
    (hadj : Adjacent (a, b) s) : Ctx s a b :=
  ⟨h.coh.ne, h.ns, hadj, fun hc => fresh_of h.coh hadj (h.coh.symbol hc) rfl⟩

theorem MainInv.pairNb {seg : Str → List Str} {s : List Str} {loc : Loc} {nb : Nb} {q : Queue} (h : MainInv seg s loc nb q) {a b : Str}
    (hadj : Adjacent (a, b) s) : PairNb s a b nb := by
  have c := h.ctx hadj
  refine ⟨?_, ?_, h.nbi.nr _, h.nbi.nl _, ?_, ?_, h.nbi.self _⟩
  · intro d hd
    obtain ⟨v, rfl, -, -, hv⟩ := fit_right (fun _ g => g.1) c.aNS (h.nbi.fr _ _ hd)
    exact ⟨v, rfl, hv.1, fresh_of h.coh hadj hv.2.2⟩
  · intro d hd
    obtain ⟨x, rfl, hx, -, -⟩ := fit_left (fun _ g => g.1) c.aNS (h.nbi.fl _ _ hd)
    exact ⟨x, rfl, hx.1, hx.2.1, fresh_of h.coh hadj hx.2.2⟩
  · intro p v h1 h2
    obtain ⟨g1, g2⟩ := (ppos_mem c.ne).mp h1
    exact (h.cover p a b v g1 g2 h2).1
  · intro p x h1 h2
    obtain ⟨g1, g2⟩ := (ppos_mem c.ne).mp h1
    exact (h.cover p x a b h2 g1 g2).2

theorem MainInv.step {o : Order Entry} (ho : AnyOrder o) {seg : Str → List Str} {s : List Str} {loc : Loc} {nb : Nb} {q q' : Queue}
    (h : MainInv seg s loc nb q) {a b : Str} (hadj : Adjacent (a, b) s)
    (hq : Rep q' (upd (fun k => summ (kpos k 0 s)) (join a b) none)) :
    ∃ loc' ch nb', updateLocation o loc nb (join a b) = .ok (loc', ch) ∧ updateNb o loc' nb (join a b) = .ok nb' ∧
      MainInv (fun x => replaceAll (a, b) (seg x)) (replaceAll (a, b) s) loc' nb'
        (applyChanges (join a b) ch q' (ppos a b 0 s).length).1 ∧
      (applyChanges (join a b) ch q' (ppos a b 0 s).length).2 = (s.length : Int) - (replaceAll (a, b) s).length := by
  have c := h.ctx hadj
  obtain ⟨loc', ch, e1, hl, hr, hocc⟩ := updateLocation_spec ho c h.loc (h.pairNb hadj) (q0 := q') hq
  have hTmono : ∀ x, Tk seg x → Tk (fun x => replaceAll (a, b) (seg x)) x := by
    rintro x ⟨h1, h2, h3⟩
    exact ⟨h1, h2, by simp only [h3]; rfl⟩
  have hTs : ∀ x ∈ s, Tk seg x := fun x hx => ⟨h.ns x hx, c.ne x hx, h.coh.symbol hx⟩
  have ht : Toks (Tk fun x => replaceAll (a, b) (seg x)) a b := by
    refine ⟨fun x hx => hx.1, hTmono _ (hTs a c.a_mem), hTmono _ (hTs b c.b_mem), ⟨c.cNS, ?_, ?_⟩, c.ca, c.cb⟩
    · intro e; exact c.aNE (List.append_eq_nil_iff.mp e).1
    · have := h.coh.pair hadj
      simp only at this ⊢
      rw [this]; simp [replaceAll]
  have hp : loc'.has (join a b) = false := by
    have e := hl.look (join a b)
    rw [kpos_pair c] at e
    rw [Bool.eq_false_iff]
    intro g
    rw [has_get?] at g
    obtain ⟨l, hl'⟩ := Option.ne_none_iff_exists'.mp g
    unfold look at e
    rw [hl'] at e
    simp only [Option.getD_some] at e
    rw [e] at hl'
    exact hl.ne _ hl'
  obtain ⟨nb', e2, hn, keep, PR, PL⟩ := updateNb_spec ho ht hp (h.nbi.mono hTmono)
  refine ⟨loc', ch, nb', e1, e2, ⟨h.coh.replaceAll (a, b), c.nsr, hl, hn, ?_, hr⟩, ?_⟩
  · intro p x y z t1 t2 t3
    have H1 := hl.has c.ner c.nsr t1 t2
    have H2 := hl.has c.ner c.nsr t2 t3
    have lenc : ((a ++ b).length : Int) = a.length + b.length := by simp
    rcases (toks_replaceAll c.ne).mp t1 with ⟨rfl, m1⟩ | ⟨u1, n1, n1'⟩
    · -- the first is merged
      obtain ⟨ta, tb⟩ := mpos_at m1
      rcases (toks_replaceAll c.ne).mp t2 with ⟨rfl, m2⟩ | ⟨u2, n2, n2'⟩
      · obtain ⟨ta2, tb2⟩ := mpos_at m2
        rw [lenc, ← Int.add_assoc] at ta2 tb2
        rcases (toks_replaceAll c.ne).mp t3 with ⟨rfl, m3⟩ | ⟨u3, n3, n3'⟩
        · -- three merged
          obtain ⟨ta3, tb3⟩ := mpos_at m3
          have r1 := (h.cover p a b a ta tb ta2).1
          exact (PR a r1).2.2.2.2 rfl H1
        · -- two merged, then `z`
          rw [lenc, ← Int.add_assoc, ← Int.add_assoc] at u3
          have r1 := (h.cover _ a b z ta2 tb2 u3).1
          have r2 := (h.cover _ b a b tb ta2 tb2).2
          exact (PR z r1).2.2.2.1 H2 r2 H1
      · rw [lenc, ← Int.add_assoc] at u2
        rcases (toks_replaceAll c.ne).mp t3 with ⟨rfl, m3⟩ | ⟨u3, n3, n3'⟩
        · -- merged, `y`, merged
          obtain ⟨ta3, tb3⟩ := mpos_at m3
          rw [lenc, ← Int.add_assoc] at ta3 tb3
          have r1 := (h.cover p a b y ta tb u2).1
          have r2 := (h.cover _ b y a tb u2 ta3).1
          exact (PR y r1).2.1 H1 r2 H2
        · -- merged, `y`, `z`
          rw [lenc, ← Int.add_assoc] at u3
          have r1 := (h.cover p a b y ta tb u2).1
          have r2 := (h.cover _ b y z tb u2 u3).1
          exact (PR y r1).1 H1 z r2 H2
    · rcases (toks_replaceAll c.ne).mp t2 with ⟨rfl, m2⟩ | ⟨u2, n2, n2'⟩
      · obtain ⟨ta2, tb2⟩ := mpos_at m2
        rcases (toks_replaceAll c.ne).mp t3 with ⟨rfl, m3⟩ | ⟨u3, n3, n3'⟩
        · -- `x`, merged, merged
          obtain ⟨ta3, tb3⟩ := mpos_at m3
          rw [lenc, ← Int.add_assoc] at ta3 tb3
          have r1 := (h.cover p x a b u1 ta2 tb2).2
          have r2 := (h.cover _ a b a ta2 tb2 ta3).1
          exact (PL x r1).2 H1 r2 H2
        · -- `x`, merged, `z`
          rw [lenc, ← Int.add_assoc] at u3
          have r1 := (h.cover p x a b u1 ta2 tb2).2
          have r2 := (h.cover _ a b z ta2 tb2 u3).1
          exact (PR z r2).2.2.1 H2 x r1 H1
      · rcases (toks_replaceAll c.ne).mp t3 with ⟨rfl, m3⟩ | ⟨u3, n3, n3'⟩
        · -- `x`, `y`, merged
          obtain ⟨ta3, tb3⟩ := mpos_at m3
          have r1 := (h.cover _ y a b u2 ta3 tb3).2
          have r2 := (h.cover p x y a u1 u2 ta3).2
          exact (PL y r1).1 H2 x r2 H1
        · -- none is merged
          exact keep _ _ (h.cover p x y z u1 u2 u3) H1 H2
  · rw [hocc]
    have := length_replaceAll (a := a) (b := b) s 0
    omega

theorem runLoop_spec {o : Order Entry} (ho : AnyOrder o) (hh : IsHeap o) : ∀ (n : Nat) {seg : Str → List Str} {s : List Str}
    {loc : Loc} {nb : Nb} {q : Queue}, MainInv seg s loc nb q → ∃ l, runLoop o n loc nb q = .ok l ∧ Merges n s l := by
  intro n
  induction n with
  | zero => intro seg s loc nb q _; exact ⟨[], rfl, .zero s⟩
  | succ n ih =>
    intro seg s loc nb q h
    have hpop := h.rep.popLoop hh (Nat.le_refl q.pq.length)
    unfold runLoop Queue.popPair
    generalize Queue.popLoop o q.pq.length q = res at hpop
    cases res with
    | none =>
      refine ⟨[], rfl, .done _ s ?_⟩
      simp only at hpop
      cases s with
      | nil => simp
      | cons x r =>
        cases r with
        | nil => simp
        | cons y r =>
          have hadj : Adjacent (x, y) (x :: y :: r) := ⟨[], r, rfl⟩
          have := hpop (join x y)
          rw [kpos_join (h.ns x (by simp)) h.ns] at this
          obtain ⟨d, t, e⟩ := List.exists_cons_of_ne_nil ((ppos_nonempty h.coh.ne).mpr hadj)
          rw [e] at this; cases this
    | some w =>
      obtain ⟨k, occ, q'⟩ := w
      simp only at hpop
      obtain ⟨hrep, c0, hk, hmin⟩ := hpop
      have hform : ∃ a b, NS a ∧ NS b ∧ k = join a b := Classical.byContradiction fun hno => by
        rw [kpos_other h.ns 0 (fun x y hx hy e => hno ⟨x, y, hx, hy, e⟩)] at hk
        cases hk
      obtain ⟨a, b, ha, hb, rfl⟩ := hform
      rw [kpos_join ha h.ns] at hk
      obtain ⟨c, r, hp, hv⟩ := summ_some hk
      obtain ⟨rfl, rfl⟩ := Prod.mk.inj hv
      have hadj : Adjacent (a, b) s := (ppos_nonempty h.coh.ne).mp (by rw [hp]; simp)
      obtain ⟨loc', ch, nb', e1, e2, hinv, hocc⟩ := h.step ho hadj hrep
      obtain ⟨l, e3, hm⟩ := ih hinv
      simp only [e1, e2, e3, bind, Except.bind, pure, Except.pure]
      refine ⟨_, rfl, ?_⟩
      rw [hocc, join_eq]
      exact .step (isBest_of h.coh.ne h.ns hadj hp hmin) hm

end Verif.Wild
