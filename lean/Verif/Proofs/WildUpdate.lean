import Verif.Proofs.WildIndex
/-!
# `update_location_index`
-/
namespace Verif.Wild
open Verif Verif.Spec

variable {a b : Str} {s : List Str}

/-- The location index of a text. -/
structure LocOK (s : List Str) (loc : Loc) : Prop where
  look : ∀ k, look loc k = kpos k 0 s
  ne : ∀ k, loc.get? k ≠ some []

theorem look_del (loc : Loc) (k k' : Str) : Wild.look (loc.del k) k' = if k' = k then [] else Wild.look loc k' := by
  unfold Wild.look
  rw [get?_del]
  split <;> rfl

theorem dropEmpty_spec : ∀ (ds : List Str) (loc : Loc), (∀ k, Wild.look (dropEmpty loc ds) k = Wild.look loc k) ∧
    (∀ k, (dropEmpty loc ds).get? k = some [] → loc.get? k = some [] ∧ k ∉ ds) := by
  intro ds
  induction ds with
  | nil => intro loc; exact ⟨fun _ => rfl, fun k h => ⟨h, by simp⟩⟩
  | cons d ds ih =>
    intro loc
    unfold dropEmpty
    obtain ⟨h1, h2⟩ := ih (if Wild.look loc d = [] then loc.del d else loc)
    refine ⟨fun k => ?_, fun k hk => ?_⟩
    · rw [h1]
      split
      · next e =>
        rw [look_del]
        split
        · next e' => rw [e', e]
        · rfl
      · rfl
    · obtain ⟨g1, g2⟩ := h2 k hk
      split at g1
      · rw [get?_del] at g1
        split at g1
        · cases g1
        · next e => exact ⟨g1, by simp [e, g2]⟩
      · next e =>
        refine ⟨g1, ?_⟩
        intro g
        rcases List.mem_cons.mp g with rfl | g
        · apply e; unfold Wild.look; rw [g1]; rfl
        · exact g2 g

/-- What the neighbour index says about the pair that is merged. -/
structure PairNb (s : List Str) (a b : Str) (nb : Nb) : Prop where
  rf : ∀ d ∈ (nbs nb (join a b)).right, ∃ v, d = join b v ∧ NS v ∧ v ≠ a ++ b
  lf : ∀ d ∈ (nbs nb (join a b)).left, ∃ x, d = join x a ∧ NS x ∧ x ≠ [] ∧ x ≠ a ++ b
  rn : (nbs nb (join a b)).right.Nodup
  ln : (nbs nb (join a b)).left.Nodup
  ra : ∀ q v, q ∈ ppos a b 0 s → (q + a.length + b.length, v) ∈ toks 0 s → join b v ∈ (nbs nb (join a b)).right
  la : ∀ q x, q + (x.length : Int) ∈ ppos a b 0 s → (q, x) ∈ toks 0 s → join x a ∈ (nbs nb (join a b)).left
  self : join a b ∈ (nbs nb (join a b)).left ↔ join a b ∈ (nbs nb (join a b)).right

theorem exists_map {α : Type} {P : α → Prop} {g : α → Str} : ∀ {l : List Str}, (∀ d ∈ l, ∃ v, d = g v ∧ P v) →
    ∃ vs : List α, l = vs.map g ∧ ∀ v ∈ vs, P v := by
  intro l
  induction l with
  | nil => intro _; exact ⟨[], rfl, by simp⟩
  | cons d l ih =>
    intro h
    obtain ⟨v, rfl, hv⟩ := h d (by simp)
    obtain ⟨vs, rfl, hvs⟩ := ih fun d hd => h d (by simp [hd])
    exact ⟨v :: vs, rfl, by
      intro w hw
      rcases List.mem_cons.mp hw with rfl | hw
      · exact hv
      · exact hvs w hw⟩

theorem nodup_of_map {α β : Type} {g : α → β} {l : List α} (h : (l.map g).Nodup) : l.Nodup :=
  (List.pairwise_map.mp h).imp fun hne e => hne (by rw [e])

theorem updateLocation_spec {o : Order Entry} (ho : AnyOrder o) (c : Ctx s a b) {loc : Loc} {nb : Nb} (hloc : LocOK s loc)
    (hnb : PairNb s a b nb) {q0 : Queue} (hq : QRep (join a b) (fun k => kpos k 0 s) q0) :
    ∃ loc' ch, updateLocation o loc nb (join a b) = .ok (loc', ch) ∧ LocOK (replaceAll (a, b) s) loc' ∧
      Rep (applyChanges (join a b) ch q0 (ppos a b 0 s).length).1 (fun k => summ (kpos k 0 (replaceAll (a, b) s))) ∧
      (applyChanges (join a b) ch q0 (ppos a b 0 s).length).2 = (mpos a b 0 s).length := by
  obtain ⟨vs, evs, hvs⟩ := exists_map (l := o.iter (nbs nb (join a b)).right) (g := join b) (P := fun v => NS v ∧ v ≠ a ++ b)
    fun d hd => hnb.rf d ((ho _).mem_iff.mp hd)
  obtain ⟨xs, exs, hxs⟩ := exists_map (l := o.iter (nbs nb (join a b)).left) (g := fun x => join x a)
    (P := fun x => NS x ∧ x ≠ [] ∧ x ≠ a ++ b) fun d hd => hnb.lf d ((ho _).mem_iff.mp hd)
  have nvs : vs.Nodup := nodup_of_map (evs ▸ (ho _).nodup_iff.mpr hnb.rn)
  have nxs : xs.Nodup := nodup_of_map (exs ▸ (ho _).nodup_iff.mpr hnb.ln)
  have memv : ∀ v, v ∈ vs ↔ join b v ∈ (nbs nb (join a b)).right := by
    intro v
    rw [← (ho (nbs nb (join a b)).right).mem_iff, evs, List.mem_map]
    constructor
    · intro h; exact ⟨v, h, rfl⟩
    · rintro ⟨w, hw, e⟩
      rwa [← ((join_inj c.bNS c.bNS).mp e).2]
  have memx : ∀ x, NS x → (x ∈ xs ↔ join x a ∈ (nbs nb (join a b)).left) := by
    intro x hx
    rw [← (ho (nbs nb (join a b)).left).mem_iff, exs, List.mem_map]
    constructor
    · intro h; exact ⟨x, h, rfl⟩
    · rintro ⟨w, hw, e⟩
      rwa [← ((join_inj (hxs w hw).1 hx).mp e).1]
  have har : Around s a b vs xs := by
    refine ⟨fun q v h1 h2 => (memv v).mpr (hnb.ra q v ((ppos_mem c.ne).mpr (mpos_at h1)) h2), fun q x h1 h2 => ?_⟩
    exact (memx x (c.ns x (toks_mem h2))).mpr (hnb.la q x ((ppos_mem c.ne).mpr (mpos_at h1)) h2)
  have hL : look loc (join a b) = ppos a b 0 s := by rw [hloc.look, kpos_join c.aNS c.ns]
  have hself : join a b ∈ (nbs nb (join a b)).left → a = b := by
    intro h
    obtain ⟨x, e, hx, -⟩ := hnb.lf _ h
    exact ((join_inj c.aNS hx).mp e).2.symm
  have hmain : ∃ dis, mainPositions loc nb (join a b) = .ok (mpos a b 0 s, dis) ∧
      (∀ v ∈ vs, a = b → v = b → dis = some (disP s a b)) ∧
      ((ppos a b 0 s).length : Int) - (if a = b ∧ b ∈ vs then ((disP s a b).length : Int) else 0) = (mpos a b 0 s).length := by
    unfold mainPositions
    simp only [Side.any, Sides.at, hL, shift_right c.aNS c.bNS]
    by_cases h : join a b ∈ (nbs nb (join a b)).left
    · have hab := hself h
      subst hab
      rw [if_pos h]
      refine ⟨some (disP s a a), ?_, fun _ _ _ _ => rfl, ?_⟩
      · simp only [bind, Except.bind, pure, Except.pure, choose_eq c]
      · rw [if_pos ⟨rfl, (memv a).mpr (hnb.self.mp h)⟩]
        have h1 := len_filter_not (l := ppos a a 0 s) (P := fun q => q ∈ mpos a a 0 s)
        have h2 : ((ppos a a 0 s).filter fun q => decide (q ∈ mpos a a 0 s)) = mpos a a 0 s := by
          refine sorted_ext ((ppos_sorted c.ne 0).filter _) c.sorted fun q => ?_
          rw [List.mem_filter]
          simp only [decide_eq_true_eq]
          exact ⟨fun g => g.2, fun g => ⟨(ppos_mem c.ne).mpr (mpos_at g), g⟩⟩
        rw [h2] at h1
        unfold disP
        omega
    · rw [if_neg h]
      have e : ppos a b 0 s = mpos a b 0 s := by
        refine c.mpos_eq ?_
        rintro rfl q ⟨g1, g2⟩
        exact h (hnb.la q a g2 ((ppos_mem c.ne).mp g1).1)
      have hbv : ¬ (a = b ∧ b ∈ vs) := by
        rintro ⟨rfl, g⟩
        exact h (hnb.self.mpr ((memv a).mp g))
      refine ⟨none, by rw [e]; rfl, ?_, ?_⟩
      · rintro v hv rfl rfl
        exact absurd ⟨rfl, hv⟩ hbv
      · rw [if_neg hbv, e]; simp
  obtain ⟨dis, em, hdis, hocc⟩ := hmain
  have start : Good (join a b) q0 (ppos a b 0 s).length (loc, []) (fun k => kpos k 0 s) (fun k => kpos k 0 s)
      (fun k => k ∈ (nbs nb (join a b)).right ∨ k ∈ (nbs nb (join a b)).left) (ppos a b 0 s).length :=
    ⟨hloc.look, fun k hk => absurd hk (hloc.ne k), hq, rfl⟩
  obtain ⟨st1, f1, e1, g1, r1⟩ := rloop c (dis := dis) vs nvs (by
    intro v hv
    exact ⟨by simp, (hvs v hv).1, (hvs v hv).2, .inl ((memv v).mp hv), hdis v hv⟩) start (HR.start c)
  rw [List.append_nil] at r1
  have l1 : HL s a b f1 [] f1 := ⟨fun _ _ => by simp, fun _ _ _ => by simp, fun _ _ _ => rfl⟩
  obtain ⟨st2, f2, e2, g2, r2⟩ := lloop c (dis := dis) (f1 := f1) xs nxs (by
    intro x hx
    obtain ⟨h1, h2, h3⟩ := hxs x hx
    refine ⟨by simp, h1, h3, h2, .inr ((memx x h1).mp hx), ?_, ?_⟩
    · by_cases hxb : x = b
      · subst hxb
        rw [r1.rem]
        split
        · exact (c.lv_sorted a).filter _
        · exact ppos_sorted c.ne 0
      · rw [r1.other _ (fun v g => hxb ((join_inj h1 c.bNS).mp g).1) (fun v g => h3 ((join_inj h1 c.cNS).mp g).1),
          kpos_join h1 c.ns]
        exact ppos_sorted c.ne 0
    · by_cases hxb : x = b
      · subst hxb
        rw [r1.rem, ppos_fresh_right c]
        have : lv s a x (a ++ x) = [] := by
          unfold lv
          rw [if_neg (fun g => c.cb g.2), ppos_fresh_right c]
        rw [this]; simp [remR]
      · rw [r1.other _ (fun v g => hxb ((join_inj h1 c.bNS).mp g).1) (fun v g => h3 ((join_inj h1 c.cNS).mp g).1),
          kpos_join h1 c.ns, ppos_fresh_right c]) g1 l1
  rw [List.append_nil] at r2
  have hfin : ∀ k, k ≠ join a b → f2 k = kpos k 0 (replaceAll (a, b) s) := fun k hk =>
    final_positions c (P := vs.reverse) (Q := xs.reverse) (vs := vs) (xs := xs) (by simp) (by simp) har r1 r2 hk
  refine ⟨cleanupLocation o st2.1 (join a b) (nbs nb (join a b)), st2.2, ?_, ⟨fun k => ?_, fun k hk => ?_⟩, ?_, ?_⟩
  · unfold updateLocation
    simp only [em, Sides.at, evs, exs, bind, Except.bind, e1, e2, pure, Except.pure]
  · unfold cleanupLocation
    rw [look_del]
    by_cases h : k = join a b
    · rw [if_pos h, h, kpos_pair c]
    · rw [if_neg h, (dropEmpty_spec _ _).1, (dropEmpty_spec _ _).1, g2.look, hfin k h]
  · unfold cleanupLocation at hk
    rw [get?_del] at hk
    split at hk
    · cases hk
    · obtain ⟨h1, h2⟩ := (dropEmpty_spec _ _).2 k hk
      obtain ⟨h3, h4⟩ := (dropEmpty_spec _ _).2 k h1
      rcases g2.emp k h3 with h | h
      · exact h4 ((ho _).mem_iff.mpr h)
      · exact h2 ((ho _).mem_iff.mpr h)
  · have := g2.q
    unfold QRep at this
    have e : (fun k => if k = join a b then none else summ (f2 k)) = fun k => summ (kpos k 0 (replaceAll (a, b) s)) := by
      funext k
      by_cases h : k = join a b
      · rw [if_pos h, h, kpos_pair c]; rfl
      · rw [if_neg h, hfin k h]
    rwa [e] at this
  · rw [g2.occ]
    by_cases h : a = b ∧ b ∈ vs
    · rw [if_pos h] at hocc ⊢; exact hocc
    · rw [if_neg h] at hocc ⊢; omega

end Verif.Wild
