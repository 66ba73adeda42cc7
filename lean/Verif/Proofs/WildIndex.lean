import Verif.Proofs.WildLoops
/-!
# The updated location index belongs to the merged text
-/
namespace Verif.Wild
open Verif Verif.Spec

variable {q0 : Queue} {occ0 : Int} {st : Loc × List Change} {f g : Str → List Int} {E : Str → Prop} {occ : Int} {a b : Str}
  {s : List Str}

theorem Ctx.sorted (c : Ctx s a b) : (mpos a b 0 s).Pairwise (· < ·) :=
  (mpos_sorted s 0).imp fun h => by have := c.la; have := c.lb; omega

/-- If the pair does not overlap itself, it is merged wherever it occurs. -/
theorem Ctx.mpos_eq (c : Ctx s a b) (h : a = b → ∀ q, ¬ (q ∈ ppos a b 0 s ∧ q + (a.length : Int) ∈ ppos a b 0 s)) :
    ppos a b 0 s = mpos a b 0 s := by
  refine sorted_ext (ppos_sorted c.ne 0) c.sorted fun q => ?_
  rw [ppos_mem c.ne]
  constructor
  · rintro ⟨h1, h2⟩
    rcases mpos_max c.ne h1 h2 with g | g
    · exact g
    · have := mpos_at g
      have e : q - (a.length : Int) + a.length = q := by omega
      rw [e] at this
      have hab := toks_unique c.ne h1 this.2
      refine absurd ⟨?_, ?_⟩ (h hab (q - a.length))
      · rw [ppos_mem c.ne, e]; exact this
      · rw [e, ppos_mem c.ne]; exact ⟨h1, h2⟩
  · exact mpos_at

theorem choose_eq (c : Ctx s a a) : choosePositions a.length (ppos a a 0 s) = (mpos a a 0 s, disP s a a) := by
  have hla := c.la
  have hgap : (ppos a a 0 s).Pairwise fun (x y : Int) => x + (a.length : Int) ≤ y := by
    have := ppos_sorted (a := a) (b := a) c.ne 0
    refine List.Pairwise.imp_of_mem ?_ this
    intro x y hx hy hxy
    exact toks_apart c.ne ((ppos_mem c.ne).mp hx).1 ((ppos_mem c.ne).mp hy).1 hxy
  obtain ⟨i1, i2, i3, i4, -⟩ := choosePositions_mem hla hgap
  have key : ∀ n : Nat, ∀ x : Int, x ≤ n → (x ∈ (choosePositions a.length (ppos a a 0 s)).1 ↔ x ∈ mpos a a 0 s) := by
    intro n
    induction n with
    | zero =>
      intro x hx
      have hneg : x - (a.length : Int) ∉ mpos a a 0 s := fun g => by have := mpos_ge g; omega
      have hneg' : x - (a.length : Int) ∉ (choosePositions a.length (ppos a a 0 s)).1 := fun g => by
        have := toks_ge ((ppos_mem c.ne).mp ((i1 _).mp g).1).1; omega
      rw [i1 x, ppos_mem c.ne]
      constructor
      · rintro ⟨⟨g1, g2⟩, -⟩; exact (mpos_max c.ne g1 g2).resolve_right hneg
      · intro g; exact ⟨mpos_at g, hneg'⟩
    | succ n ih =>
      intro x hx
      rw [i1 x, ppos_mem c.ne, ih (x - a.length) (by omega)]
      constructor
      · rintro ⟨⟨g1, g2⟩, g3⟩; exact (mpos_max c.ne g1 g2).resolve_right g3
      · intro g
        refine ⟨mpos_at g, fun g' => ?_⟩
        have := c.gap g' g (by omega); omega
  have e1 : (choosePositions a.length (ppos a a 0 s)).1 = mpos a a 0 s :=
    sorted_ext i3 c.sorted fun x => key x.toNat x (by omega)
  refine Prod.ext e1 (sorted_ext i4 ((ppos_sorted c.ne 0).filter _) fun x => ?_)
  rw [i2 x, e1, disP, List.mem_filter]
  simp

/-- The neighbours of the pair in the index contain all neighbours in the text. -/
structure Around (s : List Str) (a b : Str) (vs xs : List Str) : Prop where
  right : ∀ q v, q ∈ mpos a b 0 s → (q + a.length + b.length, v) ∈ toks 0 s → v ∈ vs
  left : ∀ q x, q + (x.length : Int) ∈ mpos a b 0 s → (q, x) ∈ toks 0 s → x ∈ xs

theorem mem_resR {M : List Int} {la lb : Int} {l : List Int} {q : Int} :
    q ∈ resR M la lb l ↔ q + la ∈ l ∧ q ∈ M ∧ q + la + lb ∉ M := by
  unfold resR
  simp only [List.mem_map, List.mem_filter, decide_eq_true_eq]
  constructor
  · rintro ⟨y, ⟨h1, h2, h3⟩, rfl⟩
    rw [show y - la + la = y by omega]; exact ⟨h1, h2, h3⟩
  · rintro ⟨h1, h2, h3⟩
    refine ⟨q + la, ⟨h1, ?_, h3⟩, by omega⟩
    rwa [show q + la - la = q by omega]

theorem mem_dblR {M : List Int} {la lb : Int} {l : List Int} {q : Int} :
    q ∈ dblR M la lb l ↔ q + la ∈ l ∧ q ∈ M ∧ q + la + lb ∈ M := by
  unfold dblR
  simp only [List.mem_map, List.mem_filter, decide_eq_true_eq]
  constructor
  · rintro ⟨y, ⟨h1, h2, h3⟩, rfl⟩
    rw [show y - la + la = y by omega]; exact ⟨h1, h2, h3⟩
  · rintro ⟨h1, h2, h3⟩
    refine ⟨q + la, ⟨h1, ?_, h3⟩, by omega⟩
    rwa [show q + la - la = q by omega]

theorem shift_sorted {l : List Int} (h : l.Pairwise (· < ·)) (n : Int) : (l.map fun y => y - n).Pairwise (· < ·) :=
  List.pairwise_map.mpr (h.imp fun h => by omega)

theorem Ctx.nsr (c : Ctx s a b) : NoSpace (replaceAll (a, b) s) := by
  intro x hx
  have hsub : ∀ s : List Str, ∀ x ∈ replaceAll (a, b) s, x = a ++ b ∨ x ∈ s := by
    intro s
    induction s using replaceAll.induct (p := (a, b)) with
    | case1 => intro x hx; cases hx
    | case2 y => intro x hx; exact .inr hx
    | case3 y z r h ih =>
      intro x hx
      simp only [replaceAll, h, and_self, if_true, List.mem_cons] at hx
      rcases hx with rfl | hx
      · exact .inl rfl
      · rcases ih x hx with h | h
        · exact .inl h
        · exact .inr (by simp [h])
    | case4 y z r h ih =>
      intro x hx
      rw [replaceAll, if_neg h] at hx
      rcases List.mem_cons.mp hx with rfl | hx
      · exact .inr (by simp)
      · rcases ih x hx with h | h
        · exact .inl h
        · exact .inr (List.mem_cons_of_mem _ h)
  rcases hsub s x hx with rfl | h
  · exact c.cNS
  · exact c.ns x h

theorem Ctx.ner (c : Ctx s a b) : NE (replaceAll (a, b) s) := by
  intro x hx e
  subst e
  obtain ⟨p, r, e⟩ := List.append_of_mem hx
  have hpos : ((p.flatten.length : Int), ([] : Str)) ∈ toks 0 (replaceAll (a, b) s) := by
    rw [e, toks_append]; simp [toks]
  rcases (toks_replaceAll c.ne).mp hpos with ⟨g, -⟩ | ⟨g, -⟩
  · exact c.aNE (List.append_eq_nil_iff.mp g.symm).1
  · exact c.ne _ (toks_mem g) rfl

/-- All positions after the loops are those in the merged text. -/
theorem final_positions (c : Ctx s a b) {f1 f2 : Str → List Int} {vs xs P Q : List Str} (hP : ∀ v, v ∈ P ↔ v ∈ vs)
    (hQ : ∀ x, x ∈ Q ↔ x ∈ xs) (har : Around s a b vs xs) (hr : HR s a b P f1) (hl : HL s a b f1 Q f2)
    {k : Str} (hk : k ≠ join a b) : f2 k = kpos k 0 (replaceAll (a, b) s) := by
  have nsr := c.nsr
  have ner := c.ner
  have unq : ∀ {q : Int} {t u : Str}, (q, t) ∈ toks 0 s → (q, u) ∈ toks 0 s → t = u := fun h1 h2 => toks_unique c.ne h1 h2
  have hla := c.la
  have hlb := c.lb
  have lenc : ((a ++ b).length : Int) = a.length + b.length := by simp
  by_cases hform : ∃ u v, NS u ∧ NS v ∧ k = join u v
  · obtain ⟨u, v, hu, hv, rfl⟩ := hform
    rw [kpos_join hu nsr]
    have tr : ∀ {q : Int} {t : Str}, (q, t) ∈ toks 0 (replaceAll (a, b) s) ↔ _ := fun {q t} => toks_replaceAll c.ne (o := 0)
    by_cases huc : u = a ++ b
    · subst huc
      by_cases hvc : v = a ++ b
      · -- the doubled pair
        subst hvc
        have e1 : f2 (join (a ++ b) (a ++ b)) = f1 (join (a ++ b) (a ++ b)) := by
          refine hl.other _ (fun x hx g => c.ca ((join_inj c.cNS hx).mp g).2) (fun x hx hxc g => hxc ((join_inj c.cNS hx).mp g).1.symm)
        rw [e1, hr.dbl]
        refine sorted_ext ?_ (ppos_sorted ner 0) fun q => ?_
        · split
          · exact shift_sorted ((c.lv_sorted a).filter _) _
          · exact .nil
        · rw [ppos_mem ner, tr, tr]
          constructor
          · intro h
            split at h
            · obtain ⟨h1, h2, h3⟩ := mem_dblR.mp h
              refine ⟨.inl ⟨rfl, h2⟩, .inl ⟨rfl, ?_⟩⟩
              rw [lenc, ← Int.add_assoc]; exact h3
            · cases h
          · rintro ⟨h1, h2⟩
            have h1 := h1.resolve_right (fun g => c.fresh (toks_mem g.1))
            have h2 := h2.resolve_right (fun g => c.fresh (toks_mem g.1))
            have m2 := h2.2
            rw [lenc, ← Int.add_assoc] at m2
            have t1 := mpos_at h1.2
            have t2 := mpos_at m2
            rw [if_pos ((hP a).mpr (har.right q a h1.2 t2.1))]
            refine mem_dblR.mpr ⟨?_, h1.2, m2⟩
            have hin : q + (a.length : Int) ∈ ppos b a 0 s := (ppos_mem c.ne).mpr ⟨t1.2, t2.1⟩
            unfold lv
            split
            · next e =>
              obtain ⟨rfl, -⟩ := e
              refine List.mem_filter.mpr ⟨hin, ?_⟩
              simp only [decide_eq_true_eq]
              intro g
              have := c.gap h1.2 g (by omega); omega
            · exact hin
      · -- the merged pair and its right neighbour
        have e1 : f2 (join (a ++ b) v) = f1 (join (a ++ b) v) := by
          by_cases hva : v = a
          · subst hva
            rw [hl.rem (v ++ b) c.cNS]
            split
            · next e =>
              rw [List.filter_eq_self]
              intro y hy
              simp only [decide_eq_true_eq]
              rw [hr.res v hvc] at hy
              split at hy
              · obtain ⟨-, -, h3⟩ := mem_resR.mp hy
                rw [lenc, ← Int.add_assoc]; exact h3
              · cases hy
            · rfl
          · exact hl.other _ (fun x hx g => hva ((join_inj c.cNS hx).mp g).2) (fun x hx hxc g => hxc ((join_inj c.cNS hx).mp g).1.symm)
        rw [e1, hr.res v hvc]
        refine sorted_ext ?_ (ppos_sorted ner 0) fun q => ?_
        · split
          · exact shift_sorted ((c.lv_sorted v).filter _) _
          · exact .nil
        · rw [ppos_mem ner, tr, tr]
          constructor
          · intro h
            split at h
            · obtain ⟨h1, h2, h3⟩ := mem_resR.mp h
              have t := ((ppos_mem c.ne).mp (lv_sub h1)).2
              refine ⟨.inl ⟨rfl, h2⟩, .inr ⟨?_, ?_, ?_⟩⟩
              · rw [lenc, ← Int.add_assoc]; exact t
              · rw [lenc, ← Int.add_assoc]; exact h3
              · rw [lenc]
                intro g
                have := c.gap h2 g (by omega); omega
            · cases h
          · rintro ⟨h1, h2⟩
            have h1 := h1.resolve_right (fun g => c.fresh (toks_mem g.1))
            have h2 := h2.resolve_left (fun g => hvc g.1)
            rw [lenc, ← Int.add_assoc] at h2
            have t1 := mpos_at h1.2
            rw [if_pos ((hP v).mpr (har.right q v h1.2 h2.1))]
            refine mem_resR.mpr ⟨?_, h1.2, h2.2.1⟩
            have hin : q + (a.length : Int) ∈ ppos b v 0 s := (ppos_mem c.ne).mpr ⟨t1.2, h2.1⟩
            unfold lv
            split
            · next e =>
              obtain ⟨rfl, rfl⟩ := e
              refine List.mem_filter.mpr ⟨hin, ?_⟩
              simp only [decide_eq_true_eq]
              intro g
              have := c.gap h1.2 g (by omega); omega
            · exact hin
    · by_cases hvc : v = a ++ b
      · -- the merged pair and its left neighbour
        subst hvc
        have f1ub : f1 (join u (a ++ b)) = [] := by
          by_cases hub : u = b
          · subst hub
            rw [hr.rem, ppos_fresh_right c]
            split
            · unfold remR
              have : lv s a u (a ++ u) = [] := by
                unfold lv
                rw [if_neg (fun g => c.cb g.2), ppos_fresh_right c]
              rw [this]; rfl
            · rfl
          · rw [hr.other _ (fun v g => hub ((join_inj hu c.bNS).mp g).1) (fun v g => huc ((join_inj hu c.cNS).mp g).1),
              kpos_join hu c.ns, ppos_fresh_right c]
        rw [hl.res u hu huc, f1ub]
        have f1ua : ∀ q, ¬ (a = b ∧ u = a) → (q ∈ f1 (join u a) ↔ q ∈ ppos u a 0 s ∧ (u = b → q - (a.length : Int) ∉ mpos a b 0 s)) := by
          intro q hn
          by_cases hub : u = b
          · subst hub
            rw [hr.rem]
            have elv : lv s a u a = ppos u a 0 s := by
              unfold lv
              rw [if_neg (fun g => hn ⟨g.1, g.1.symm⟩)]
            split
            · rw [elv]; unfold remR
              simp [List.mem_filter]
            · next e =>
              constructor
              · intro h
                refine ⟨h, fun _ g => e ((hP a).mpr (har.right _ a g ?_))⟩
                have := ((ppos_mem c.ne).mp h).2
                rwa [show q - (a.length : Int) + a.length + u.length = q + u.length by omega]
              · exact fun h => h.1
          · rw [hr.other _ (fun v g => hub ((join_inj hu c.bNS).mp g).1) (fun v g => huc ((join_inj hu c.cNS).mp g).1),
              kpos_join hu c.ns]
            simp [hub]
        refine sorted_ext ?_ (ppos_sorted ner 0) fun q => ?_
        · split
          · next e =>
            refine List.Pairwise.filter _ ?_
            by_cases hub : u = b
            · subst hub
              rw [hr.rem]
              split
              · exact (c.lv_sorted a).filter _
              · exact ppos_sorted c.ne 0
            · rw [hr.other _ (fun v g => hub ((join_inj hu c.bNS).mp g).1) (fun v g => huc ((join_inj hu c.cNS).mp g).1),
                kpos_join hu c.ns]
              exact ppos_sorted c.ne 0
          · exact .nil
        · rw [ppos_mem ner, tr, tr]
          constructor
          · intro h
            split at h
            · next e =>
              obtain ⟨h1, h2⟩ := List.mem_filter.mp h
              simp only [decide_eq_true_eq] at h2
              obtain ⟨h3, h4⟩ := (f1ua q e.2).mp h1
              obtain ⟨t1, t2⟩ := (ppos_mem c.ne).mp h3
              refine ⟨.inr ⟨t1, fun g => ?_, fun g => ?_⟩, .inl ⟨rfl, h2⟩⟩
              · have hua := unq t1 (mpos_at g).1
                subst hua
                have := c.gap g h2 (by omega); omega
              · have := (mpos_at g).2
                rw [show q - (a.length : Int) + a.length = q by omega] at this
                exact h4 (unq t1 this) g
            · cases h
          · rintro ⟨h1, h2⟩
            have h1 := h1.resolve_left (fun g => huc g.1)
            have h2 := h2.resolve_right (fun g => c.fresh (toks_mem g.1))
            have t2 := (mpos_at h2.2).1
            have hn : ¬ (a = b ∧ u = a) := by
              rintro ⟨rfl, rfl⟩
              rcases mpos_max c.ne h1.1 t2 with g | g
              · exact h1.2.1 g
              · exact h1.2.2 g
            rw [if_pos ⟨(hQ u).mpr (har.left q u h2.2 h1.1), hn⟩]
            refine List.mem_filter.mpr ⟨(f1ua q hn).mpr ⟨(ppos_mem c.ne).mpr ⟨h1.1, t2⟩, fun _ => h1.2.2⟩, ?_⟩
            simpa using h2.2
      · -- other pairs
        have hnp : ¬ (u = a ∧ v = b) := fun e => hk (by rw [e.1, e.2])
        have f1uv : f1 (join u v) = (ppos u v 0 s).filter fun q => decide (u = b → q - (a.length : Int) ∉ mpos a b 0 s) := by
          by_cases hub : u = b
          · subst hub
            rw [hr.rem]
            have elv : lv s a u v = ppos u v 0 s := by
              unfold lv
              rw [if_neg (fun g => hnp ⟨g.1.symm, g.2⟩)]
            split
            · rw [elv]; unfold remR; simp
            · next e =>
              refine (List.filter_eq_self.mpr fun q h => ?_).symm
              simp only [decide_eq_true_eq]
              intro _ g
              refine e ((hP v).mpr (har.right _ v g ?_))
              have := ((ppos_mem c.ne).mp h).2
              rwa [show q - (a.length : Int) + a.length + u.length = q + u.length by omega]
          · rw [hr.other _ (fun v g => hub ((join_inj hu c.bNS).mp g).1) (fun v g => huc ((join_inj hu c.cNS).mp g).1),
              kpos_join hu c.ns]
            refine (List.filter_eq_self.mpr fun q h => ?_).symm
            simp [hub]
        have f2uv : f2 (join u v) = (ppos u v 0 s).filter fun q =>
            decide ((u = b → q - (a.length : Int) ∉ mpos a b 0 s) ∧ (v = a → q + (u.length : Int) ∉ mpos a b 0 s)) := by
          by_cases hva : v = a
          · subst hva
            rw [hl.rem u hu, f1uv]
            split
            · rw [List.filter_filter]
              refine List.filter_congr fun q _ => ?_
              rw [← Bool.decide_and, decide_eq_decide]
              constructor
              · rintro ⟨h1, h2⟩; exact ⟨h2, fun _ => h1⟩
              · rintro ⟨h1, h2⟩; exact ⟨h2 rfl, h1⟩
            · next e =>
              refine filter_iff fun q h => ⟨fun g => ⟨g, fun _ g' => e ⟨?_, ?_⟩⟩, fun g => g.1⟩
              · exact (hQ u).mpr (har.left q u g' ((ppos_mem c.ne).mp h).1)
              · rintro ⟨rfl, rfl⟩; exact hnp ⟨rfl, rfl⟩
          · rw [hl.other _ (fun x hx g => hva ((join_inj hu hx).mp g).2) (fun x hx hxc g => hvc ((join_inj hu hx).mp g).2), f1uv]
            exact filter_iff fun q _ => ⟨fun g => ⟨g, fun g' => absurd g' hva⟩, fun g => g.1⟩
        rw [f2uv]
        refine sorted_ext ((ppos_sorted c.ne 0).filter _) (ppos_sorted ner 0) fun q => ?_
        rw [ppos_mem ner, tr, tr, List.mem_filter, ppos_mem c.ne]
        simp only [decide_eq_true_eq]
        constructor
        · rintro ⟨⟨t1, t2⟩, h1, h2⟩
          refine ⟨.inr ⟨t1, fun g => ?_, fun g => ?_⟩, .inr ⟨t2, fun g => ?_, fun g => ?_⟩⟩
          · have hua := unq t1 (mpos_at g).1
            subst hua
            exact hnp ⟨rfl, unq t2 (mpos_at g).2⟩
          · have := (mpos_at g).2
            rw [show q - (a.length : Int) + a.length = q by omega] at this
            exact h1 (unq t1 this) g
          · exact h2 (unq t2 (mpos_at g).1) g
          · have := toks_pred c.ne t1 (mpos_at g).1 (by omega)
            obtain ⟨e1, e2⟩ := this
            subst e2
            rw [← e1] at g
            exact hnp ⟨rfl, unq t2 (mpos_at g).2⟩
        · rintro ⟨h1, h2⟩
          have h1 := h1.resolve_left (fun g => huc g.1)
          have h2 := h2.resolve_left (fun g => hvc g.1)
          exact ⟨⟨h1.1, h2.1⟩, fun _ => h1.2.2, fun _ => h2.2.1⟩
  · have hno : ∀ x y, NS x → NS y → k ≠ join x y := fun x y hx hy e => hform ⟨x, y, hx, hy, e⟩
    rw [kpos_other nsr 0 hno]
    rw [hl.other k (fun x hx => hno x a hx c.aNS) (fun x hx _ => hno x (a ++ b) hx c.cNS)]
    have nil : ∀ v, ¬ NS v → ppos b v 0 s = [] := by
      intro v hv
      refine List.eq_nil_iff_forall_not_mem.mpr fun q hq => ?_
      exact hv (c.ns v (toks_mem ((ppos_mem c.ne).mp hq).2))
    have nil' : ∀ v, ¬ NS v → lv s a b v = [] := by
      intro v hv
      refine List.eq_nil_iff_forall_not_mem.mpr fun q hq => ?_
      have := lv_sub hq
      rw [nil v hv] at this; cases this
    by_cases h1 : ∃ v, k = join b v
    · obtain ⟨v, rfl⟩ := h1
      have hv : ¬ NS v := fun hv => hno b v c.bNS hv rfl
      rw [hr.rem, nil v hv, nil' v hv]
      simp [remR]
    · by_cases h2 : ∃ v, k = join (a ++ b) v
      · obtain ⟨v, rfl⟩ := h2
        have hv : ¬ NS v := fun hv => hno _ v c.cNS hv rfl
        rw [hr.res v (fun e => hv (e ▸ c.cNS)), nil' v hv]
        simp [resR]
      · rw [hr.other k (fun v e => h1 ⟨v, e⟩) (fun v e => h2 ⟨v, e⟩), kpos_other c.ns 0 hno]

/-- The pair does not occur any more. -/
theorem kpos_pair (c : Ctx s a b) :
    kpos (join a b) 0 (replaceAll (a, b) s) = [] := by
  rw [kpos_join c.aNS c.nsr]
  refine List.eq_nil_iff_forall_not_mem.mpr fun q hq => ?_
  obtain ⟨h1, h2⟩ := (ppos_mem c.ner).mp hq
  have h1 := ((toks_replaceAll c.ne).mp h1).resolve_left (fun g => c.ca g.1.symm)
  have h2 := ((toks_replaceAll c.ne).mp h2).resolve_left (fun g => c.cb g.1.symm)
  rcases mpos_max c.ne h1.1 h2.1 with g | g
  · exact h1.2.1 g
  · exact h1.2.2 g

end Verif.Wild
