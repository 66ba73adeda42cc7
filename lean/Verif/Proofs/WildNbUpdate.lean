import Verif.Proofs.WildNb
/-!
# `update_neighbour_index`
-/
namespace Verif.Wild
open Verif Verif.Spec

variable {T : Str → Prop} {S : Sides} {nb : Nb} {loc : Loc} {a b : Str}

/-- The valid tokens, those of the pair and the merged one. -/
structure Toks (T : Str → Prop) (a b : Str) : Prop where
  ns : ∀ x, T x → NS x
  ta : T a
  tb : T b
  tc : T (a ++ b)
  ca : a ++ b ≠ a
  cb : a ++ b ≠ b

theorem fit_right (ht : ∀ x, T x → NS x) {x y r : Str} (hx : NS x) (h : Fit T (join x y) r) : ∃ z, r = join y z ∧ T x ∧ T y ∧ T z := by
  obtain ⟨x', y', z, e1, e2, h1, h2, h3⟩ := h
  obtain ⟨rfl, rfl⟩ := (join_inj hx (ht _ h1)).mp e1
  exact ⟨z, e2, h1, h2, h3⟩

theorem fit_left (ht : ∀ x, T x → NS x) {y z l : Str} (hy : NS y) (h : Fit T l (join y z)) : ∃ x, l = join x y ∧ T x ∧ T y ∧ T z := by
  obtain ⟨x, y', z', e1, e2, h1, h2, h3⟩ := h
  obtain ⟨rfl, rfl⟩ := (join_inj hy (ht _ h2)).mp e2
  exact ⟨x, e1, h1, h2, h3⟩

/-- What is recorded for the right neighbour `b v`. -/
structure PostR (loc : Loc) (nb0 : Nb) (a b v : Str) (nb : Nb) : Prop where
  next : loc.has (join (a ++ b) v) = true → ∀ z, join v z ∈ (nbs nb0 (join b v)).right → loc.has (join v z) = true →
    Linked nb (join (a ++ b) v) (join v z)
  nextc : loc.has (join (a ++ b) v) = true → join v a ∈ (nbs nb0 (join b v)).right → loc.has (join v (a ++ b)) = true →
    Linked nb (join (a ++ b) v) (join v (a ++ b))
  prev : loc.has (join (a ++ b) v) = true → ∀ x, join x a ∈ (nbs nb0 (join a b)).left → loc.has (join x (a ++ b)) = true →
    Linked nb (join x (a ++ b)) (join (a ++ b) v)
  prevc : loc.has (join (a ++ b) v) = true → join b a ∈ (nbs nb0 (join a b)).left → loc.has (join (a ++ b) (a ++ b)) = true →
    Linked nb (join (a ++ b) (a ++ b)) (join (a ++ b) v)
  dbl : v = a → join b a ∈ (nbs nb0 (join a b)).right → loc.has (join (a ++ b) (a ++ b)) = true →
    Linked nb (join (a ++ b) (a ++ b)) (join (a ++ b) (a ++ b))

theorem PostR.grow {nb0 nb nb' : Nb} {v : Str} (h : PostR loc nb0 a b v nb) (g : Grow nb nb') : PostR loc nb0 a b v nb' :=
  ⟨fun h1 z h2 h3 => (h.next h1 z h2 h3).grow g, fun h1 h2 h3 => (h.nextc h1 h2 h3).grow g,
   fun h1 z h2 h3 => (h.prev h1 z h2 h3).grow g, fun h1 h2 h3 => (h.prevc h1 h2 h3).grow g,
   fun h1 h2 h3 => (h.dbl h1 h2 h3).grow g⟩

/-- What is recorded for the left neighbour `x a`. -/
structure PostL (loc : Loc) (nb0 : Nb) (a b x : Str) (nb : Nb) : Prop where
  prev : loc.has (join x (a ++ b)) = true → ∀ u, join u x ∈ (nbs nb0 (join x a)).left → loc.has (join u x) = true →
    Linked nb (join u x) (join x (a ++ b))
  nextc : loc.has (join x (a ++ b)) = true → join b a ∈ (nbs nb0 (join a b)).right → loc.has (join (a ++ b) (a ++ b)) = true →
    Linked nb (join x (a ++ b)) (join (a ++ b) (a ++ b))

theorem PostL.grow {nb0 nb nb' : Nb} {x : Str} (h : PostL loc nb0 a b x nb) (g : Grow nb nb') : PostL loc nb0 a b x nb' :=
  ⟨fun h1 z h2 h3 => (h.prev h1 z h2 h3).grow g, fun h1 h2 h3 => (h.nextc h1 h2 h3).grow g⟩

theorem updateDoubleNb_right {ε : Type} {o : Order ε} (ho : AnyOrder o) (ht : Toks T a b) (hp : loc.has (join a b) = false) {v : Str}
    (hv : T v) (h : UpInv T (join a b) S nb) :
    ∃ nb', updateDoubleNb o loc (join a b) .right (join b v) nb = .ok nb' ∧ UpInv T (join a b) S nb' ∧ Grow nb nb' ∧
      (v = a → join b a ∈ S.right → loc.has (join (a ++ b) (a ++ b)) = true →
        Linked nb' (join (a ++ b) (a ++ b)) (join (a ++ b) (a ++ b))) := by
  have na := ht.ns _ ht.ta
  have nb_ := ht.ns _ ht.tb
  have nc := ht.ns _ ht.tc
  unfold updateDoubleNb
  simp only [can_right nb_ (ht.ns v hv) na nb_, bind, Except.bind, double_join na nb_]
  by_cases hc : (decide (v = a) && loc.has (join (a ++ b) (a ++ b))) = true
  · rw [if_pos hc]
    obtain ⟨nb', e, i, s, g, p⟩ := forSet_spec ho (get := fun nb => (nbs nb (join a b)).right) (I := UpInv T (join a b) S)
      (Post := fun d2 nb => d2 = join b a → loc.has (join (a ++ b) (a ++ b)) = true →
        Linked nb (join (a ++ b) (a ++ b)) (join (a ++ b) (a ++ b)))
      (body := fun nb d2 => do addBoth loc (join a b) (join (a ++ b) (a ++ b)) (← concatPairs (join a b) d2 .right) .right nb)
      (fun x nb nb' g h1 h2 h3 => (h1 h2 h3).grow g) h (by
        intro nb1 d2 hd2 i1 s1 g1
        obtain ⟨w, rfl, -, -, hw⟩ := fit_right ht.ns na (h.fr _ _ hd2)
        obtain ⟨nb2, e2, i2, g2, -, l2, -⟩ := addBoth_right ht.ns ht.ta ht.tb ht.tc hp ht.tc ht.tc hw
          (fun e => ht.ca ((join_inj nc na).mp e).1) i1
        refine ⟨nb2, ?_, i2, ?_, g2, ?_⟩
        · simp only [concat_right na nb_ (ht.ns w hw), bind, Except.bind]; exact e2
        · simp only [i2.frozen, h.frozen]
        · intro hwa hh
          exact l2 ((join_inj nb_ nb_).mp hwa).2 hh)
    refine ⟨nb', e, i, g, ?_⟩
    intro hva hS hh
    exact p _ (by rw [h.frozen]; exact hS) rfl hh
  · rw [if_neg hc]
    refine ⟨nb, rfl, h, Grow.refl _, fun hva _ hh => absurd ?_ hc⟩
    rw [hh]; simpa using hva

theorem updateDoubleNb_left {ε : Type} {o : Order ε} (ho : AnyOrder o) (ht : Toks T a b) (hp : loc.has (join a b) = false) {x : Str}
    (hx : T x) (h : UpInv T (join a b) S nb) :
    ∃ nb', updateDoubleNb o loc (join a b) .left (join x a) nb = .ok nb' ∧ UpInv T (join a b) S nb' ∧ Grow nb nb' := by
  have na := ht.ns _ ht.ta
  have nb_ := ht.ns _ ht.tb
  have nc := ht.ns _ ht.tc
  unfold updateDoubleNb
  simp only [can_left (ht.ns x hx) na na nb_, bind, Except.bind, double_join na nb_]
  by_cases hc : (decide (x = b) && loc.has (join (a ++ b) (a ++ b))) = true
  · rw [if_pos hc]
    obtain ⟨nb', e, i, s, g, -⟩ := forSet_spec ho (get := fun nb => (nbs nb (join a b)).left) (I := UpInv T (join a b) S)
      (Post := fun _ _ => True)
      (body := fun nb d2 => do addBoth loc (join a b) (join (a ++ b) (a ++ b)) (← concatPairs (join a b) d2 .left) .left nb)
      (fun _ _ _ _ _ => trivial) h (by
        intro nb1 d2 hd2 i1 s1 g1
        obtain ⟨w, rfl, hw, -, -⟩ := fit_left ht.ns na (h.fl _ _ hd2)
        obtain ⟨nb2, e2, i2, g2, -, -, -⟩ := addBoth_left ht.ns ht.ta ht.tb ht.tc hp hw ht.tc ht.tc
          (fun e => ht.ca ((join_inj nc na).mp e).1) i1
        refine ⟨nb2, ?_, i2, ?_, g2, trivial⟩
        · simp only [concat_left na nb_ (ht.ns w hw), bind, Except.bind]; exact e2
        · simp only [i2.frozen, h.frozen])
    exact ⟨nb', e, i, g⟩
  · rw [if_neg hc]
    exact ⟨nb, rfl, h, Grow.refl _⟩

theorem updateNbOne_right {ε : Type} {o : Order ε} (ho : AnyOrder o) (ht : Toks T a b) (hp : loc.has (join a b) = false) {v : Str}
    (hv : T v) {nb0 : Nb} (hS : nbs nb0 (join a b) = S) (h0 : Grow nb0 nb) (h : UpInv T (join a b) S nb) :
    ∃ nb', updateNbOne o loc (join a b) .right nb (join b v) = .ok nb' ∧ UpInv T (join a b) S nb' ∧ Grow nb nb' ∧
      PostR loc nb0 a b v nb' := by
  have na := ht.ns _ ht.ta
  have nb_ := ht.ns _ ht.tb
  have nc := ht.ns _ ht.tc
  have nv := ht.ns _ hv
  obtain ⟨nb1, e1, i1, g1, l1⟩ := updateDoubleNb_right ho ht hp hv h
  unfold updateNbOne
  simp only [e1, bind, Except.bind, concat_right na nb_ nv]
  have hpc : join (a ++ b) v ≠ join a b := fun e => ht.ca ((join_inj nc na).mp e).1
  by_cases hc : loc.has (join (a ++ b) v) = true
  · rw [if_pos hc]
    obtain ⟨nb2, e2, i2, s2, g2, p2⟩ := forSet_spec ho (get := fun nb => (nbs nb (join b v)).right) (I := UpInv T (join a b) S)
      (Post := fun q nb => ∀ z, q = join v z → (loc.has (join v z) = true → Linked nb (join (a ++ b) v) (join v z)) ∧
        (z = a → loc.has (join v (a ++ b)) = true → Linked nb (join (a ++ b) v) (join v (a ++ b))))
      (body := fun nb q => addBoth loc (join a b) (join (a ++ b) v) q .right nb)
      (fun x nb nb' g h1 z e => ⟨fun h2 => ((h1 z e).1 h2).grow g, fun h2 h3 => ((h1 z e).2 h2 h3).grow g⟩) i1 (by
        intro nb2 q hq i2 s2 g2
        obtain ⟨z, rfl, -, -, hz⟩ := fit_right ht.ns nb_ (i1.fr _ _ hq)
        obtain ⟨nb3, e3, i3, g3, l3, l3', s3⟩ := addBoth_right ht.ns ht.ta ht.tb ht.tc hp ht.tc hv hz hpc i2
        refine ⟨nb3, e3, i3, ?_, g3, ?_⟩
        · show (nbs nb3 (join b v)).right = _
          rw [s3 _ (fun e => ht.cb ((join_inj nb_ nc).mp e).1.symm)]
          exact s2
        · intro z' e
          obtain rfl := ((join_inj nv nv).mp e).2
          exact ⟨l3, l3'⟩)
    have e2' : forSet o (fun nb => (nbs nb (join b v)).at .right)
        (fun nb q => addBoth loc (join a b) (join (a ++ b) v) q .right nb) nb1 = .ok nb2 := e2
    simp only [e2']
    obtain ⟨nb3, e3, i3, s3, g3, p3⟩ := forSet_spec ho (get := fun nb => (nbs nb (join a b)).left) (I := UpInv T (join a b) S)
      (Post := fun q nb => ∀ x, T x → q = join x a → (loc.has (join x (a ++ b)) = true → Linked nb (join x (a ++ b)) (join (a ++ b) v)) ∧
        (x = b → loc.has (join (a ++ b) (a ++ b)) = true → Linked nb (join (a ++ b) (a ++ b)) (join (a ++ b) v)))
      (body := fun nb q => do addBoth loc (join a b) (join (a ++ b) v) (← concatPairs (join a b) q .left) .left nb)
      (fun x nb nb' g h1 z hz e => ⟨fun h2 => ((h1 z hz e).1 h2).grow g, fun h2 h3 => ((h1 z hz e).2 h2 h3).grow g⟩) i2 (by
        intro nb3 q hq i3 s3 g3
        obtain ⟨x, rfl, hx, -, -⟩ := fit_left ht.ns na (i2.fl _ _ hq)
        obtain ⟨nb4, e4, i4, g4, l4, l4', -⟩ := addBoth_left ht.ns ht.ta ht.tb ht.tc hp hx ht.tc hv hpc i3
        refine ⟨nb4, ?_, i4, ?_, g4, ?_⟩
        · simp only [concat_left na nb_ (ht.ns x hx), bind, Except.bind]; exact e4
        · simp only [i4.frozen, i2.frozen]
        · intro x' hx' e
          obtain rfl := ((join_inj (ht.ns x hx) (ht.ns x' hx')).mp e).1
          exact ⟨l4, l4'⟩)
    refine ⟨nb3, e3, i3, g1.trans (g2.trans g3), ⟨?_, ?_, ?_, ?_, ?_⟩⟩
    · intro _ z hz hh
      exact ((p2 _ ((g1 _).1 _ ((h0 _).1 _ hz)) z rfl).1 hh).grow g3
    · intro _ hz hh
      exact ((p2 _ ((g1 _).1 _ ((h0 _).1 _ hz)) a rfl).2 rfl hh).grow g3
    · intro _ x hx hh
      have hx' : join x a ∈ (nbs nb2 (join a b)).left := by rw [i2.frozen, ← hS]; exact hx
      obtain ⟨x', e, hTx, -, -⟩ := fit_left ht.ns na (i2.fl _ _ hx')
      have key := p3 _ hx'
      have : x' = x := by
        rw [join_eq, join_eq] at e
        have := List.append_inj_left' e (by simp)
        exact this.symm
      subst this
      exact (key x' hTx rfl).1 hh
    · intro _ hx hh
      have hx' : join b a ∈ (nbs nb2 (join a b)).left := by rw [i2.frozen, ← hS]; exact hx
      exact (p3 _ hx' b ht.tb rfl).2 rfl hh
    · intro hva hx hh
      exact (l1 hva (hS ▸ hx) hh).grow (g2.trans g3)
  · rw [if_neg hc]
    exact ⟨nb1, rfl, i1, g1, ⟨fun g => absurd g hc, fun g => absurd g hc, fun g => absurd g hc, fun g => absurd g hc,
      fun hva hx hh => l1 hva (hS ▸ hx) hh⟩⟩

theorem updateNbOne_left {ε : Type} {o : Order ε} (ho : AnyOrder o) (ht : Toks T a b) (hp : loc.has (join a b) = false) {x : Str}
    (hx : T x) {nb0 : Nb} (hS : nbs nb0 (join a b) = S) (h0 : Grow nb0 nb) (h : UpInv T (join a b) S nb) :
    ∃ nb', updateNbOne o loc (join a b) .left nb (join x a) = .ok nb' ∧ UpInv T (join a b) S nb' ∧ Grow nb nb' ∧
      PostL loc nb0 a b x nb' := by
  have na := ht.ns _ ht.ta
  have nb_ := ht.ns _ ht.tb
  have nc := ht.ns _ ht.tc
  have nx := ht.ns _ hx
  obtain ⟨nb1, e1, i1, g1⟩ := updateDoubleNb_left ho ht hp hx h
  unfold updateNbOne
  simp only [e1, bind, Except.bind, concat_left na nb_ nx]
  have hpc : join x (a ++ b) ≠ join a b := fun e => ht.cb ((join_inj nx na).mp e).2
  by_cases hc : loc.has (join x (a ++ b)) = true
  · rw [if_pos hc]
    obtain ⟨nb2, e2, i2, s2, g2, p2⟩ := forSet_spec ho (get := fun nb => (nbs nb (join x a)).left) (I := UpInv T (join a b) S)
      (Post := fun q nb => ∀ u, T u → q = join u x → (loc.has (join u x) = true → Linked nb (join u x) (join x (a ++ b))))
      (body := fun nb q => addBoth loc (join a b) (join x (a ++ b)) q .left nb)
      (fun x nb nb' g h1 z hz e h2 => (h1 z hz e h2).grow g) i1 (by
        intro nb2 q hq i2 s2 g2
        obtain ⟨u, rfl, hu, -, -⟩ := fit_left ht.ns nx (i1.fl _ _ hq)
        obtain ⟨nb3, e3, i3, g3, l3, l3', s3⟩ := addBoth_left ht.ns ht.ta ht.tb ht.tc hp hu hx ht.tc hpc i2
        refine ⟨nb3, e3, i3, ?_, g3, ?_⟩
        · show (nbs nb3 (join x a)).left = _
          rw [s3 _ (fun e => ht.ca ((join_inj nx nx).mp e).2.symm)]
          exact s2
        · intro u' hu' e
          obtain rfl := ((join_inj (ht.ns u hu) (ht.ns u' hu')).mp e).1
          exact l3)
    have e2' : forSet o (fun nb => (nbs nb (join x a)).at .left)
        (fun nb q => addBoth loc (join a b) (join x (a ++ b)) q .left nb) nb1 = .ok nb2 := e2
    simp only [e2']
    obtain ⟨nb3, e3, i3, s3, g3, p3⟩ := forSet_spec ho (get := fun nb => (nbs nb (join a b)).right) (I := UpInv T (join a b) S)
      (Post := fun q nb => q = join b a → loc.has (join (a ++ b) (a ++ b)) = true →
        Linked nb (join x (a ++ b)) (join (a ++ b) (a ++ b)))
      (body := fun nb q => do addBoth loc (join a b) (join x (a ++ b)) (← concatPairs (join a b) q .right) .right nb)
      (fun x nb nb' g h1 e h2 => (h1 e h2).grow g) i2 (by
        intro nb3 q hq i3 s3 g3
        obtain ⟨v, rfl, -, -, hv⟩ := fit_right ht.ns na (i2.fr _ _ hq)
        obtain ⟨nb4, e4, i4, g4, -, l4', -⟩ := addBoth_right ht.ns ht.ta ht.tb ht.tc hp hx ht.tc hv hpc i3
        refine ⟨nb4, ?_, i4, ?_, g4, ?_⟩
        · simp only [concat_right na nb_ (ht.ns v hv), bind, Except.bind]; exact e4
        · simp only [i4.frozen, i2.frozen]
        · intro e hh
          exact l4' ((join_inj nb_ nb_).mp e).2 hh)
    refine ⟨nb3, e3, i3, g1.trans (g2.trans g3), ⟨?_, ?_⟩⟩
    · intro _ u hu hh
      have hu' := (g1 _).2 _ ((h0 _).2 _ hu)
      obtain ⟨u', e, hTu, -, -⟩ := fit_left ht.ns nx (i1.fl _ _ hu')
      have : u' = u := by
        rw [join_eq, join_eq] at e
        have := List.append_inj_left' e (by simp)
        exact this.symm
      subst this
      exact (p2 _ hu' u' hTu rfl hh).grow g3
    · intro _ hb hh
      have hb' : join b a ∈ (nbs nb2 (join a b)).right := by rw [i2.frozen, ← hS]; exact hb
      exact p3 _ hb' rfl hh
  · rw [if_neg hc]
    exact ⟨nb1, rfl, i1, g1, ⟨fun g => absurd g hc, fun g => absurd g hc⟩⟩

/-! ## Cleaning up -/

theorem dropNb_spec (loc : Loc) : ∀ (ds : List Str) (nb : Nb) (k : Str),
    (((dropNb loc nb ds).get? k = nb.get? k) ∨ (loc.has k = false ∧ (dropNb loc nb ds).get? k = none)) ∧
    (k ∉ ds → (dropNb loc nb ds).get? k = nb.get? k) ∧
    (k ∈ ds → loc.has k = false → (dropNb loc nb ds).get? k = none) := by
  intro ds
  induction ds with
  | nil => intro nb k; exact ⟨.inl rfl, fun _ => rfl, fun h => by cases h⟩
  | cons d ds ih =>
    intro nb k
    unfold dropNb
    obtain ⟨h1, h2, h3⟩ := ih (if (!loc.has d && nb.has d) = true then nb.del d else nb) k
    have step : (if (!loc.has d && nb.has d) = true then nb.del d else nb).get? k = nb.get? k ∨
        (k = d ∧ loc.has k = false ∧ (if (!loc.has d && nb.has d) = true then nb.del d else nb).get? k = none) := by
      split
      · next e =>
        rw [get?_del]
        by_cases hk : k = d
        · subst hk
          rw [if_pos rfl]
          refine .inr ⟨rfl, ?_, rfl⟩
          simp only [Bool.and_eq_true, Bool.not_eq_true'] at e
          exact e.1
        · rw [if_neg hk]; exact .inl rfl
      · exact .inl rfl
    refine ⟨?_, ?_, ?_⟩
    · rcases h1 with h1 | h1
      · rcases step with g | ⟨-, g1, g2⟩
        · exact .inl (h1.trans g)
        · exact .inr ⟨g1, h1.trans g2⟩
      · exact .inr h1
    · intro hk
      rw [h2 (fun g => hk (by simp [g]))]
      rcases step with g | ⟨g, -⟩
      · exact g
      · exact absurd (by simp [g]) hk
    · intro hk hl
      rcases List.mem_cons.mp hk with rfl | hk
      · have : (if (!loc.has k && nb.has k) = true then nb.del k else nb).get? k = none := by
          rw [hl]
          by_cases hh : nb.has k = true
          · simp only [hh, Bool.not_false, Bool.and_self, if_true]
            rw [get?_del, if_pos rfl]
          · simp only [hh, Bool.and_false, Bool.false_eq_true, if_false]
            unfold Dict.has at hh
            simpa using hh
        rcases h1 with h1 | h1
        · exact h1.trans this
        · exact h1.2
      · exact h3 hk hl

theorem has_get? {β : Type} {d : Dict Str β} {k : Str} : d.has k = true ↔ d.get? k ≠ none := by
  unfold Dict.has
  rw [Option.isSome_iff_ne_none]

theorem cleanupNb_spec {ε : Type} {o : Order ε} (ho : AnyOrder o) {pair : Str} (hp : loc.has pair = false) (h : NbInv T nb) :
    ∃ nb', cleanupNb o loc nb pair = .ok nb' ∧ NbInv T nb' ∧ (∀ k, loc.has k = true → nbs nb' k = nbs nb k) := by
  unfold cleanupNb
  simp only
  have same1 : ∀ k, nbs (nb.set pair (nbs nb pair)) k = nbs nb k := by
    intro k; rw [nbs_set]; split
    · next e => rw [e]
    · rfl
  generalize hn1 : nb.set pair (nbs nb pair) = n1 at same1
  have d1 := dropNb_spec loc (o.iter ((nbs n1 pair).at .right)) n1
  generalize dropNb loc n1 (o.iter ((nbs n1 pair).at .right)) = n2 at d1
  have same3 : ∀ k, nbs (n2.set pair (nbs n2 pair)) k = nbs n2 k := by
    intro k; rw [nbs_set]; split
    · next e => rw [e]
    · rfl
  have has3 : (n2.set pair (nbs n2 pair)).get? pair = some (nbs n2 pair) := by rw [Dict.get?_set, if_pos rfl]
  generalize n2.set pair (nbs n2 pair) = n3 at same3 has3
  have d3 := dropNb_spec loc (o.iter ((nbs n3 pair).at .left)) n3
  generalize dropNb loc n3 (o.iter ((nbs n3 pair).at .left)) = n4 at d3
  have hpn : pair ∉ o.iter ((nbs n3 pair).at .left) := by
    intro g
    have g : pair ∈ (nbs n3 pair).left := (ho _).mem_iff.mp g
    rw [same3] at g
    by_cases hr : pair ∈ (nbs n1 pair).right
    · have := (d1 pair).2.2 ((ho _).mem_iff.mpr hr) hp
      unfold nbs at g
      rw [this] at g; cases g
    · have e := (d1 pair).2.1 (fun g' => hr ((ho _).mem_iff.mp g'))
      have e' : nbs n2 pair = nbs n1 pair := by unfold nbs; rw [e]
      rw [e', same1] at g
      rw [same1] at hr
      exact hr ((h.self pair).mp g)
  have hh : n4.has pair = true := by
    rw [has_get?, (d3 pair).2.1 hpn, has3]; simp
  rw [if_pos hh]
  have all : ∀ k, nbs (n4.del pair) k = nbs nb k ∨ (loc.has k = false ∧ nbs (n4.del pair) k = ⟨[], []⟩) := by
    intro k
    rw [nbs_del]
    by_cases hk : k = pair
    · rw [if_pos hk]; exact .inr ⟨by rw [hk]; exact hp, rfl⟩
    · rw [if_neg hk]
      rcases (d3 k).1 with g | ⟨g1, g2⟩
      · have e4 : nbs n4 k = nbs n3 k := by unfold nbs; rw [g]
        rcases (d1 k).1 with g' | ⟨g1, g2⟩
        · left
          have e2 : nbs n2 k = nbs n1 k := by unfold nbs; rw [g']
          rw [e4, same3, e2, same1]
        · right
          refine ⟨g1, ?_⟩
          rw [e4, same3]; unfold nbs; rw [g2]; rfl
      · right
        refine ⟨g1, ?_⟩
        unfold nbs; rw [g2]; rfl
  refine ⟨_, rfl, ⟨?_, ?_, ?_, ?_, ?_⟩, ?_⟩
  · intro l r g
    rcases all l with e | ⟨-, e⟩
    · rw [e] at g; exact h.fr l r g
    · rw [e] at g; cases g
  · intro l r g
    rcases all r with e | ⟨-, e⟩
    · rw [e] at g; exact h.fl l r g
    · rw [e] at g; cases g
  · intro k
    rcases all k with e | ⟨-, e⟩
    · rw [e]; exact h.nr k
    · rw [e]; exact .nil
  · intro k
    rcases all k with e | ⟨-, e⟩
    · rw [e]; exact h.nl k
    · rw [e]; exact .nil
  · intro k
    rcases all k with e | ⟨-, e⟩
    · rw [e]; exact h.self k
    · rw [e]
  · intro k hk
    rcases all k with e | ⟨g, -⟩
    · exact e
    · rw [hk] at g; cases g

theorem updateNb_spec {ε : Type} {o : Order ε} (ho : AnyOrder o) (ht : Toks T a b) (hp : loc.has (join a b) = false) (h : NbInv T nb) :
    ∃ nb', updateNb o loc nb (join a b) = .ok nb' ∧ NbInv T nb' ∧
      (∀ l r, Linked nb l r → loc.has l = true → loc.has r = true → Linked nb' l r) ∧
      (∀ v, join b v ∈ (nbs nb (join a b)).right →
        (loc.has (join (a ++ b) v) = true → ∀ z, join v z ∈ (nbs nb (join b v)).right → loc.has (join v z) = true →
          Linked nb' (join (a ++ b) v) (join v z)) ∧
        (loc.has (join (a ++ b) v) = true → join v a ∈ (nbs nb (join b v)).right → loc.has (join v (a ++ b)) = true →
          Linked nb' (join (a ++ b) v) (join v (a ++ b))) ∧
        (loc.has (join (a ++ b) v) = true → ∀ x, join x a ∈ (nbs nb (join a b)).left → loc.has (join x (a ++ b)) = true →
          Linked nb' (join x (a ++ b)) (join (a ++ b) v)) ∧
        (loc.has (join (a ++ b) v) = true → join b a ∈ (nbs nb (join a b)).left → loc.has (join (a ++ b) (a ++ b)) = true →
          Linked nb' (join (a ++ b) (a ++ b)) (join (a ++ b) v)) ∧
        (v = a → loc.has (join (a ++ b) (a ++ b)) = true →
          Linked nb' (join (a ++ b) (a ++ b)) (join (a ++ b) (a ++ b)))) ∧
      (∀ x, join x a ∈ (nbs nb (join a b)).left →
        (loc.has (join x (a ++ b)) = true → ∀ u, join u x ∈ (nbs nb (join x a)).left → loc.has (join u x) = true →
          Linked nb' (join u x) (join x (a ++ b))) ∧
        (loc.has (join x (a ++ b)) = true → join b a ∈ (nbs nb (join a b)).right → loc.has (join (a ++ b) (a ++ b)) = true →
          Linked nb' (join x (a ++ b)) (join (a ++ b) (a ++ b)))) := by
  have na := ht.ns _ ht.ta
  have nb_ := ht.ns _ ht.tb
  have h0 : UpInv T (join a b) (nbs nb (join a b)) nb := ⟨h, rfl⟩
  obtain ⟨nb1, e1, i1, s1, g1, p1⟩ := forSet_spec ho (get := fun nb => (nbs nb (join a b)).right)
    (I := UpInv T (join a b) (nbs nb (join a b)))
    (Post := fun d nb' => ∀ v, d = join b v → PostR loc nb a b v nb') (body := updateNbOne o loc (join a b) .right)
    (fun x n n' g h1 v e => (h1 v e).grow g) h0 (by
      intro n1 d hd i1 s1 g1
      obtain ⟨v, rfl, -, -, hv⟩ := fit_right ht.ns na (h.fr _ _ hd)
      obtain ⟨n2, e2, i2, g2, p2⟩ := updateNbOne_right ho ht hp hv rfl g1 i1
      refine ⟨n2, e2, i2, ?_, g2, ?_⟩
      · simp only [i2.frozen]
      · intro v' e
        obtain rfl := ((join_inj nb_ nb_).mp e).2
        exact p2)
  obtain ⟨nb2, e2, i2, s2, g2, p2⟩ := forSet_spec ho (get := fun nb => (nbs nb (join a b)).left)
    (I := UpInv T (join a b) (nbs nb (join a b)))
    (Post := fun d nb' => ∀ x, T x → d = join x a → PostL loc nb a b x nb') (body := updateNbOne o loc (join a b) .left)
    (fun x n n' g h1 v hv e => (h1 v hv e).grow g) i1 (by
      intro n1 d hd i1' s1' g1'
      obtain ⟨x, rfl, hx, -, -⟩ := fit_left ht.ns na (i1.fl _ _ hd)
      obtain ⟨n2, e2, i2, g2, p2⟩ := updateNbOne_left ho ht hp hx rfl (g1.trans g1') i1'
      refine ⟨n2, e2, i2, ?_, g2, ?_⟩
      · simp only [i2.frozen, i1.frozen]
      · intro x' hx' e
        obtain rfl := ((join_inj (ht.ns x hx) (ht.ns x' hx')).mp e).1
        exact p2)
  obtain ⟨nb3, e3, i3, s3⟩ := cleanupNb_spec (T := T) ho hp i2.toNbInv
  have keep : ∀ l r, Linked nb2 l r → loc.has l = true → loc.has r = true → Linked nb3 l r := by
    intro l r hl h1 h2
    exact ⟨by rw [s3 l h1]; exact hl.1, by rw [s3 r h2]; exact hl.2⟩
  refine ⟨nb3, ?_, i3, fun l r hl h1 h2 => keep l r (hl.grow (g1.trans g2)) h1 h2, ?_, ?_⟩
  · unfold updateNb
    have e1' : forSet o (fun nb => (nbs nb (join a b)).at .right) (updateNbOne o loc (join a b) .right) nb = .ok nb1 := e1
    have e2' : forSet o (fun nb => (nbs nb (join a b)).at .left) (updateNbOne o loc (join a b) .left) nb1 = .ok nb2 := e2
    simp only [e1', e2', bind, Except.bind]
    exact e3
  · intro v hv
    have P := (p1 _ hv v rfl).grow g2
    exact ⟨fun h1 z h2 h3 => keep _ _ (P.next h1 z h2 h3) h1 h3, fun h1 h2 h3 => keep _ _ (P.nextc h1 h2 h3) h1 h3,
      fun h1 x h2 h3 => keep _ _ (P.prev h1 x h2 h3) h3 h1, fun h1 h2 h3 => keep _ _ (P.prevc h1 h2 h3) h3 h1,
      fun h1 h3 => keep _ _ (P.dbl h1 (h1 ▸ hv) h3) h3 h3⟩
  · intro x hx
    have hx' : join x a ∈ (nbs nb1 (join a b)).left := by rw [i1.frozen]; exact hx
    obtain ⟨x', e, hTx, -, -⟩ := fit_left ht.ns na (i1.fl _ _ hx')
    have : x' = x := by
      rw [join_eq, join_eq] at e
      have := List.append_inj_left' e (by simp)
      exact this.symm
    subst this
    have P := p2 _ hx' x' hTx rfl
    exact ⟨fun h1 z h2 h3 => keep _ _ (P.prev h1 z h2 h3) h3 h1, fun h1 h2 h3 => keep _ _ (P.nextc h1 h2 h3) h1 h3⟩

end Verif.Wild
