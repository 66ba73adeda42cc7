import Verif.Proofs.WildLoc
/-!
# The loops of the update of the location index
-/
namespace Verif.Wild
open Verif Verif.Spec

variable {q0 : Queue} {occ0 : Int} {st : Loc × List Change} {f g : Str → List Int} {E : Str → Prop} {occ : Int} {a b : Str}

theorem updateOne_left (ha : NS a) (hb : NS b) (hane : a ≠ []) (hbne : b ≠ []) {M : List Int} (hMs : M.Pairwise (· < ·))
    {x : Str} (hx : NS x) (hxne : x ≠ []) {dis : Option (List Int)} (hp : join x a ≠ join a b)
    (hl : (f (join x a)).Pairwise (· < ·))
    (h : Good (join a b) q0 occ0 st f f E occ) (hE : E (join x a)) (h1 : f (join x (a ++ b)) = []) :
    ∃ st', updateOne (join a b) M dis .left st (join x a) = .ok st' ∧
      Good (join a b) q0 occ0 st'
        (upd (upd f (join x (a ++ b)) ((f (join x a)).filter fun y => decide (y + (x.length : Int) ∈ M)))
          (join x a) ((f (join x a)).filter fun y => decide (y + (x.length : Int) ∉ M)))
        (upd (upd f (join x (a ++ b)) ((f (join x a)).filter fun y => decide (y + (x.length : Int) ∈ M)))
          (join x a) ((f (join x a)).filter fun y => decide (y + (x.length : Int) ∉ M))) E occ := by
  have hlx : (0 : Int) < x.length := by have := List.length_pos_iff.mpr hxne; omega
  have hcb : a ++ b ≠ b := fun e => by have := congrArg List.length e; simp at this; exact hane this
  have hca : a ++ b ≠ a := fun e => by have := congrArg List.length e; simp at this; exact hbne this
  have k1 : join x (a ++ b) ≠ join a b := fun e => hcb ((join_inj hx ha).mp e).2
  have k2 : join x (a ++ b) ≠ join x a := fun e => hca ((join_inj hx hx).mp e).2
  have hpos : positionsOf (join a b) dis .left (join x a) st.1 = .ok (some (f (join x a))) := by
    unfold positionsOf
    rw [if_pos (Ne.symm hp), h.look]
  unfold updateOne
  simp only [hpos, bind, Except.bind, updateDouble, can_left hx ha ha hb]
  have e0 : (decide (x = b) && decide (Side.left = Side.right)) = false := by simp
  simp only [e0, Bool.false_eq_true, if_false, pure, Except.pure, concat_left ha hb hx, shift_left hx ha]
  rw [mergeLists_left hlx hMs hl]
  refine ⟨_, rfl, ?_⟩
  have s2 := h.record (appeared := join x (a ++ b)) (d := join x a)
    (locs := (f (join x a)).filter fun y => decide (y + (x.length : Int) ∈ M))
    (left := (f (join x a)).filter fun y => decide (y + (x.length : Int) ∉ M)) k1 k2 h1 h1
    (fun _ => len_filter_not) (fun hd _ => filter_nil_not hd)
  rw [if_neg hp] at s2
  exact Good.set s2 (fun _ _ => rfl) hE

theorem updateOne_self {M : List Int} {dis : Option (List Int)} :
    updateOne (join a b) M dis .left st (join a b) = .ok st := by
  unfold updateOne positionsOf
  simp [bind, Except.bind, pure, Except.pure]

/-- The text, the pair to be merged. -/
structure Ctx (s : List Str) (a b : Str) : Prop where
  ne : NE s
  ns : NoSpace s
  adj : Adjacent (a, b) s
  fresh : a ++ b ∉ s

theorem Ctx.a_mem {s : List Str} (c : Ctx s a b) : a ∈ s := by
  obtain ⟨p, q, rfl⟩ := c.adj; simp
theorem Ctx.b_mem {s : List Str} (c : Ctx s a b) : b ∈ s := by
  obtain ⟨p, q, rfl⟩ := c.adj; simp
theorem Ctx.aNS {s : List Str} (c : Ctx s a b) : NS a := c.ns a c.a_mem
theorem Ctx.bNS {s : List Str} (c : Ctx s a b) : NS b := c.ns b c.b_mem
theorem Ctx.aNE {s : List Str} (c : Ctx s a b) : a ≠ [] := c.ne a c.a_mem
theorem Ctx.bNE {s : List Str} (c : Ctx s a b) : b ≠ [] := c.ne b c.b_mem
theorem Ctx.la {s : List Str} (c : Ctx s a b) : (0 : Int) < a.length := by have := List.length_pos_iff.mpr c.aNE; omega
theorem Ctx.lb {s : List Str} (c : Ctx s a b) : (0 : Int) < b.length := by have := List.length_pos_iff.mpr c.bNE; omega
theorem Ctx.cb {s : List Str} (c : Ctx s a b) : a ++ b ≠ b := fun e => by
  have := congrArg List.length e; simp at this; exact c.aNE this
theorem Ctx.ca {s : List Str} (c : Ctx s a b) : a ++ b ≠ a := fun e => by
  have := congrArg List.length e; simp at this; exact c.bNE this
theorem Ctx.cNS {s : List Str} (c : Ctx s a b) : NS (a ++ b) := ns_append c.aNS c.bNS

theorem toks_append (p r : List Str) (o : Int) : toks o (p ++ r) = toks o p ++ toks (o + p.flatten.length) r := by
  induction p generalizing o with
  | nil => simp [toks]
  | cons x p ih => simp [toks, ih, Int.add_assoc]

theorem adjacent_iff {s : List Str} {x y : Str} : Adjacent (x, y) s ↔ ∃ q, (q, x) ∈ toks 0 s ∧ (q + x.length, y) ∈ toks 0 s ∧
    ∃ p r, s = p ++ x :: y :: r ∧ q = p.flatten.length := by
  constructor
  · rintro ⟨p, r, rfl⟩
    refine ⟨p.flatten.length, ?_, ?_, p, r, rfl, rfl⟩
    · rw [toks_append]; simp [toks]
    · rw [toks_append]; simp [toks]
  · rintro ⟨q, -, -, p, r, h, -⟩; exact ⟨p, r, h⟩

theorem Ctx.mne {s : List Str} (c : Ctx s a b) : mpos a b 0 s ≠ [] := by
  obtain ⟨q, h1, h2, -⟩ := adjacent_iff.mp c.adj
  intro e
  rcases mpos_max c.ne h1 h2 with h | h <;> rw [e] at h <;> cases h

theorem sorted_gap {l : List Int} {d : Int} (h : l.Pairwise fun x y => x + d ≤ y) {x y : Int} (hx : x ∈ l) (hy : y ∈ l)
    (hxy : x < y) (hd : 0 ≤ d) : x + d ≤ y := by
  induction l with
  | nil => cases hx
  | cons z l ih =>
    obtain ⟨h1, h2⟩ := List.pairwise_cons.mp h
    rcases List.mem_cons.mp hx with rfl | hx
    · rcases List.mem_cons.mp hy with rfl | hy
      · omega
      · exact h1 y hy
    · rcases List.mem_cons.mp hy with rfl | hy
      · have := h1 x ‹x ∈ l›; omega
      · exact ih h2 ‹x ∈ l› hy

theorem Ctx.gap {s : List Str} (_ : Ctx s a b) {x y : Int} (hx : x ∈ mpos a b 0 s) (hy : y ∈ mpos a b 0 s) (hxy : x < y) :
    x + a.length + b.length ≤ y := by
  have h : (mpos a b 0 s).Pairwise fun (x y : Int) => x + (a.length + b.length) ≤ y :=
    (mpos_sorted s 0).imp fun h => by omega
  have := sorted_gap h hx hy hxy (by omega)
  omega

/-- The positions at which the pair overlaps a merged one. -/
def disP (s : List Str) (a b : Str) : List Int := (ppos a b 0 s).filter fun q => decide (q ∉ mpos a b 0 s)

/-- The positions of the disappearing pair `b v` when it is processed. -/
def lv (s : List Str) (a b v : Str) : List Int := if a = b ∧ v = b then disP s a b else ppos b v 0 s

theorem lv_sub {s : List Str} {v : Str} {y : Int} (h : y ∈ lv s a b v) : y ∈ ppos b v 0 s := by
  unfold lv at h
  split at h
  · next e => obtain ⟨rfl, rfl⟩ := e; exact (List.mem_filter.mp h).1
  · exact h

theorem Ctx.lv_sorted {s : List Str} (c : Ctx s a b) (v : Str) : (lv s a b v).Pairwise (· < ·) := by
  unfold lv disP
  split
  · exact (ppos_sorted c.ne 0).filter _
  · exact ppos_sorted c.ne 0

theorem Ctx.lv_disjoint {s : List Str} (c : Ctx s a b) {y : Int} (h : y ∈ lv s a b a) : y ∉ mpos a b 0 s := by
  unfold lv at h
  split at h
  · simpa using (List.mem_filter.mp h).2
  · next e =>
    intro g
    have := toks_unique c.ne ((ppos_mem c.ne).mp h).1 (mpos_at g).1
    exact e ⟨this.symm, this.symm⟩

theorem Ctx.lv_not {s : List Str} (c : Ctx s a b) {v : Str} (hv : v ≠ a) {y : Int} (h : y ∈ lv s a b v) :
    y + (b.length : Int) ∉ mpos a b 0 s := by
  intro g
  exact hv (toks_unique c.ne ((ppos_mem c.ne).mp (lv_sub h)).2 (mpos_at g).1)

/-- The index after the right neighbours `P` of the pair have been processed. -/
structure HR (s : List Str) (a b : Str) (P : List Str) (f : Str → List Int) : Prop where
  rem : ∀ v, f (join b v) = if v ∈ P then remR (mpos a b 0 s) a.length (lv s a b v) else ppos b v 0 s
  res : ∀ v, v ≠ a ++ b → f (join (a ++ b) v) =
    if v ∈ P then resR (mpos a b 0 s) a.length b.length (lv s a b v) else []
  dbl : f (join (a ++ b) (a ++ b)) = if a ∈ P then dblR (mpos a b 0 s) a.length b.length (lv s a b a) else []
  other : ∀ k, (∀ v, k ≠ join b v) → (∀ v, k ≠ join (a ++ b) v) → f k = kpos k 0 s

theorem ppos_fresh_left {s : List Str} (c : Ctx s a b) (v : Str) : ppos (a ++ b) v 0 s = [] := by
  refine List.eq_nil_iff_forall_not_mem.mpr fun q hq => ?_
  exact c.fresh (toks_mem ((ppos_mem c.ne).mp hq).1)

theorem ppos_fresh_right {s : List Str} (c : Ctx s a b) (u : Str) : ppos u (a ++ b) 0 s = [] := by
  refine List.eq_nil_iff_forall_not_mem.mpr fun q hq => ?_
  exact c.fresh (toks_mem ((ppos_mem c.ne).mp hq).2)

theorem HR.start {s : List Str} (c : Ctx s a b) : HR s a b [] fun k => kpos k 0 s := by
  refine ⟨fun v => ?_, fun v _ => ?_, ?_, fun _ _ _ => rfl⟩
  · rw [kpos_join c.bNS c.ns]; simp
  · rw [kpos_join c.cNS c.ns, ppos_fresh_left c]; simp
  · rw [kpos_join c.cNS c.ns, ppos_fresh_left c]; simp

theorem dis_split {s : List Str} (c : Ctx s a a) :
    (dblR (mpos a a 0 s) a.length a.length (disP s a a)).length +
      (resR (mpos a a 0 s) a.length a.length (disP s a a)).length = (disP s a a).length := by
  unfold dblR resR
  rw [List.length_map, List.length_map]
  have h : ∀ y ∈ disP s a a, y - (a.length : Int) ∈ mpos a a 0 s := by
    intro y hy
    obtain ⟨h1, h2⟩ := List.mem_filter.mp hy
    have h2 : y ∉ mpos a a 0 s := by simpa using h2
    obtain ⟨g1, g2⟩ := (ppos_mem c.ne).mp h1
    exact (mpos_max c.ne g1 g2).resolve_left h2
  have e1 : (disP s a a).filter (fun y => decide (y - (a.length : Int) ∈ mpos a a 0 s ∧ y + (a.length : Int) ∈ mpos a a 0 s)) =
      (disP s a a).filter (fun y => decide (y + (a.length : Int) ∈ mpos a a 0 s)) :=
    filter_iff fun y hy => ⟨fun g => g.2, fun g => ⟨h y hy, g⟩⟩
  have e2 : (disP s a a).filter (fun y => decide (y - (a.length : Int) ∈ mpos a a 0 s ∧ y + (a.length : Int) ∉ mpos a a 0 s)) =
      (disP s a a).filter (fun y => decide (¬ (y + (a.length : Int) ∈ mpos a a 0 s))) :=
    filter_iff fun y hy => ⟨fun g => g.2, fun g => ⟨h y hy, g⟩⟩
  rw [e1, e2]
  exact len_filter_not.symm

theorem rstep {s : List Str} (c : Ctx s a b) {dis : Option (List Int)} {P : List Str} {v : Str} (hP : v ∉ P) (hv : NS v)
    (hvc : v ≠ a ++ b) (hdis : a = b → v = b → dis = some (disP s a b)) (h : Good (join a b) q0 occ0 st f f E occ)
    (hE : E (join b v)) (hr : HR s a b P f) :
    ∃ st' f', updateOne (join a b) (mpos a b 0 s) dis .right st (join b v) = .ok st' ∧
      Good (join a b) q0 occ0 st' f' f' E (if a = b ∧ v = b then occ - (disP s a b).length else occ) ∧
      HR s a b (v :: P) f' := by
  have hpair : join b v = join a b ↔ a = b ∧ v = b := by
    rw [join_inj c.bNS c.aNS]; exact ⟨fun h => ⟨h.1.symm, h.2⟩, fun h => ⟨h.1.symm, h.2⟩⟩
  have hpos : positionsOf (join a b) dis .right (join b v) st.1 = .ok (some (lv s a b v)) := by
    unfold positionsOf lv
    by_cases e : a = b ∧ v = b
    · rw [if_neg (by simpa using (hpair.mpr e).symm), if_pos e, hdis e.1 e.2]; simp
    · rw [if_pos (fun g => e (hpair.mp g.symm)), if_neg e, h.look, hr.rem, if_neg hP]
  obtain ⟨st', e1, e2⟩ := updateOne_right c.aNS c.bNS c.aNE c.bNE (mpos_sorted s 0) hv hvc (c.lv_sorted v) hpos
    (by
      intro g
      rw [hr.rem, if_neg hP]
      unfold lv
      rw [if_neg (fun e => g (hpair.mpr e))])
    (by
      rintro rfl e
      obtain ⟨z, hz⟩ := List.exists_mem_of_ne_nil _ c.mne
      exact c.lv_disjoint (e ▸ hz) hz)
    (fun hva y hy => c.lv_not hva hy) h hE
    (by rw [hr.res v hvc, if_neg hP])
    (by rintro rfl; rw [hr.dbl, if_neg hP])
  refine ⟨st', _, e1, ⟨e2.look, e2.emp, e2.q, ?_⟩, ?_⟩
  · rw [e2.occ]
    by_cases e : a = b ∧ v = b
    · rw [if_pos e, if_pos (hpair.mpr e)]
      obtain ⟨rfl, rfl⟩ := e
      have := dis_split c
      simp only [lv, and_self, if_true] 
      omega
    · rw [if_neg e, if_neg (fun g => e (hpair.mp g))]
  · have kcv : ∀ w, join b w ≠ join (a ++ b) v := fun w e => c.cb ((join_inj c.bNS c.cNS).mp e).1.symm
    have kcc : ∀ w, join b w ≠ join (a ++ b) (a ++ b) := fun w e => c.cb ((join_inj c.bNS c.cNS).mp e).1.symm
    have kbv : ∀ w, join (a ++ b) w ≠ join b v := fun w e => c.cb ((join_inj c.cNS c.bNS).mp e).1
    refine ⟨fun w => ?_, fun w hw => ?_, ?_, fun k h1 h2 => ?_⟩
    · by_cases e : w = v
      · subst e; rw [upd_same, if_pos List.mem_cons_self]
      · rw [upd_other (fun g => e ((join_inj c.bNS c.bNS).mp g).2), upd_other (kcv w)]
        have : (if v = a then upd f (join (a ++ b) (a ++ b)) (dblR (mpos a b 0 s) a.length b.length (lv s a b v)) else f)
            (join b w) = f (join b w) := by
          split
          · exact upd_other (kcc w)
          · rfl
        rw [this, hr.rem]
        simp [e]
    · rw [upd_other (kbv w)]
      by_cases e : w = v
      · subst e; rw [upd_same, if_pos List.mem_cons_self]
      · rw [upd_other (fun g => e ((join_inj c.cNS c.cNS).mp g).2)]
        have : (if v = a then upd f (join (a ++ b) (a ++ b)) (dblR (mpos a b 0 s) a.length b.length (lv s a b v)) else f)
            (join (a ++ b) w) = f (join (a ++ b) w) := by
          split
          · exact upd_other (fun g => hw ((join_inj c.cNS c.cNS).mp g).2)
          · rfl
        rw [this, hr.res w hw]
        simp [e]
    · rw [upd_other (kbv _), upd_other (fun g => hvc ((join_inj c.cNS c.cNS).mp g).2.symm)]
      by_cases e : v = a
      · subst e; rw [if_pos rfl, upd_same, if_pos List.mem_cons_self]
      · rw [if_neg e, hr.dbl]
        simp [Ne.symm e]
    · rw [upd_other (h1 v), upd_other (h2 v)]
      have : (if v = a then upd f (join (a ++ b) (a ++ b)) (dblR (mpos a b 0 s) a.length b.length (lv s a b v)) else f)
          k = f k := by
        split
        · exact upd_other (h2 _)
        · rfl
      rw [this, hr.other k h1 h2]

theorem rloop {s : List Str} (c : Ctx s a b) {dis : Option (List Int)} : ∀ (vs : List Str) {P : List Str} {st} {f} {occ : Int},
    vs.Nodup → (∀ v ∈ vs, v ∉ P ∧ NS v ∧ v ≠ a ++ b ∧ E (join b v) ∧ (a = b → v = b → dis = some (disP s a b))) →
    Good (join a b) q0 occ0 st f f E occ → HR s a b P f →
    ∃ st' f', loopM (updateOne (join a b) (mpos a b 0 s) dis .right) (vs.map (join b)) st = .ok st' ∧
      Good (join a b) q0 occ0 st' f' f' E (if a = b ∧ b ∈ vs then occ - (disP s a b).length else occ) ∧
      HR s a b (vs.reverse ++ P) f' := by
  intro vs
  induction vs with
  | nil => intro P st f occ _ _ h hr; exact ⟨st, f, rfl, by simpa using h, by simpa using hr⟩
  | cons v vs ih =>
    intro P st f occ hn hvs h hr
    obtain ⟨hn1, hn2⟩ := List.nodup_cons.mp hn
    obtain ⟨p1, p2, p3, p4, p5⟩ := hvs v (by simp)
    obtain ⟨st1, f1, e1, g1, r1⟩ := rstep c p1 p2 p3 p5 h p4 hr
    obtain ⟨st2, f2, e2, g2, r2⟩ := ih (P := v :: P) hn2 (by
      intro w hw
      obtain ⟨q1, q2, q3, q4, q5⟩ := hvs w (by simp [hw])
      refine ⟨?_, q2, q3, q4, q5⟩
      intro g
      rcases List.mem_cons.mp g with rfl | g
      · exact hn1 hw
      · exact q1 g) g1 r1
    refine ⟨st2, f2, ?_, ⟨g2.look, g2.emp, g2.q, g2.occ.trans ?_⟩, by simpa using r2⟩
    · simp only [List.map_cons, loopM, e1, bind, Except.bind]; exact e2
    · by_cases hab : a = b
      · by_cases hvb : v = b
        · subst hvb
          simp [hab, hn1]
        · simp [hab, hvb, Ne.symm hvb]
      · simp [hab]

/-- The index after the left neighbours `Q` have been processed, from `f1`. -/
structure HL (s : List Str) (a b : Str) (f1 : Str → List Int) (Q : List Str) (f : Str → List Int) : Prop where
  rem : ∀ x, NS x → f (join x a) = if x ∈ Q ∧ ¬ (a = b ∧ x = a) then
    (f1 (join x a)).filter (fun y => decide (y + (x.length : Int) ∉ mpos a b 0 s)) else f1 (join x a)
  res : ∀ x, NS x → x ≠ a ++ b → f (join x (a ++ b)) = if x ∈ Q ∧ ¬ (a = b ∧ x = a) then
    (f1 (join x a)).filter (fun y => decide (y + (x.length : Int) ∈ mpos a b 0 s)) else f1 (join x (a ++ b))
  other : ∀ k, (∀ x, NS x → k ≠ join x a) → (∀ x, NS x → x ≠ a ++ b → k ≠ join x (a ++ b)) → f k = f1 k

theorem lstep {s : List Str} (c : Ctx s a b) {dis : Option (List Int)} {Q : List Str} {x : Str} (hQ : x ∉ Q) (hx : NS x)
    (hxc : x ≠ a ++ b) (hxne : x ≠ []) {f1 : Str → List Int} (hsort : (f1 (join x a)).Pairwise (· < ·))
    (hnil : f1 (join x (a ++ b)) = []) (h : Good (join a b) q0 occ0 st f f E occ)
    (hE : E (join x a)) (hr : HL s a b f1 Q f) :
    ∃ st' f', updateOne (join a b) (mpos a b 0 s) dis .left st (join x a) = .ok st' ∧
      Good (join a b) q0 occ0 st' f' f' E occ ∧ HL s a b f1 (x :: Q) f' := by
  have hpair : join x a = join a b ↔ a = b ∧ x = a := by
    rw [join_inj hx c.aNS]; exact ⟨fun h => ⟨h.2, h.1⟩, fun h => ⟨h.2, h.1⟩⟩
  by_cases hp : a = b ∧ x = a
  · refine ⟨st, f, ?_, h, ?_⟩
    · rw [hpair.mpr hp]; exact updateOne_self
    · refine ⟨fun w hw => ?_, fun w hw hwc => ?_, hr.other⟩
      · rw [hr.rem w hw]
        by_cases e : w = x
        · subst e; simp [hp]
        · simp [e]
      · rw [hr.res w hw hwc]
        by_cases e : w = x
        · subst e; simp [hp]
        · simp [e]
  · have hne : join x a ≠ join a b := fun g => hp (hpair.mp g)
    have f1x : f (join x a) = f1 (join x a) := by rw [hr.rem x hx, if_neg (fun g => hQ g.1)]
    obtain ⟨st', e1, e2⟩ := updateOne_left (dis := dis) c.aNS c.bNS c.aNE c.bNE (M := mpos a b 0 s)
      ((mpos_sorted s 0).imp fun h => by have := c.la; have := c.lb; omega) hx hxne hne
      (by rw [f1x]; exact hsort) h hE (by rw [hr.res x hx hxc, if_neg (fun g => hQ g.1)]; exact hnil)
    refine ⟨st', _, e1, e2, ⟨fun w hw => ?_, fun w hw hwc => ?_, fun k h1 h2 => ?_⟩⟩
    · by_cases e : w = x
      · subst e; rw [upd_same, if_pos ⟨List.mem_cons_self, hp⟩, f1x]
      · rw [upd_other (fun g => e ((join_inj hw hx).mp g).1), upd_other (fun g => e ((join_inj hw hx).mp g).1), hr.rem w hw]
        simp [e]
    · rw [upd_other (fun g => c.ca ((join_inj hw hx).mp g).2)]
      by_cases e : w = x
      · subst e; rw [upd_same, if_pos ⟨List.mem_cons_self, hp⟩, f1x]
      · rw [upd_other (fun g => e ((join_inj hw hx).mp g).1), hr.res w hw hwc]
        simp [e]
    · rw [upd_other (h1 x hx), upd_other (h2 x hx hxc), hr.other k h1 h2]

theorem lloop {s : List Str} (c : Ctx s a b) {dis : Option (List Int)} {f1 : Str → List Int} :
    ∀ (xs : List Str) {Q : List Str} {st} {f}, xs.Nodup →
    (∀ x ∈ xs, x ∉ Q ∧ NS x ∧ x ≠ a ++ b ∧ x ≠ [] ∧ E (join x a) ∧ (f1 (join x a)).Pairwise (· < ·) ∧
      f1 (join x (a ++ b)) = []) →
    Good (join a b) q0 occ0 st f f E occ → HL s a b f1 Q f →
    ∃ st' f', loopM (updateOne (join a b) (mpos a b 0 s) dis .left) (xs.map fun x => join x a) st = .ok st' ∧
      Good (join a b) q0 occ0 st' f' f' E occ ∧ HL s a b f1 (xs.reverse ++ Q) f' := by
  intro xs
  induction xs with
  | nil => intro Q st f _ _ h hr; exact ⟨st, f, rfl, h, by simpa using hr⟩
  | cons v vs ih =>
    intro Q st f hn hvs h hr
    obtain ⟨hn1, hn2⟩ := List.nodup_cons.mp hn
    obtain ⟨p1, p2, p3, p4, p5, p6, p7⟩ := hvs v (by simp)
    obtain ⟨st1, f1', e1, g1, r1⟩ := lstep (dis := dis) c p1 p2 p3 p4 p6 p7 h p5 hr
    obtain ⟨st2, f2, e2, g2, r2⟩ := ih (Q := v :: Q) hn2 (by
      intro w hw
      obtain ⟨q1, q⟩ := hvs w (by simp [hw])
      refine ⟨?_, q⟩
      intro g
      rcases List.mem_cons.mp g with rfl | g
      · exact hn1 hw
      · exact q1 g) g1 r1
    refine ⟨st2, f2, ?_, g2, by simpa using r2⟩
    simp only [List.map_cons, loopM, e1, bind, Except.bind]; exact e2

end Verif.Wild
