import Verif.Proofs.WildUpdate
/-!
# Updating the neighbour index
-/
namespace Verif.Wild
open Verif Verif.Spec

theorem nbs_set (nb : Nb) (p k : Str) (S : Sides) : nbs (nb.set p S) k = if k = p then S else nbs nb k := by
  unfold nbs
  rw [Dict.get?_set]
  by_cases h : p = k
  · subst h; simp
  · rw [if_neg h, if_neg (Ne.symm h)]

theorem nbs_del (nb : Nb) (p k : Str) : nbs (nb.del p) k = if k = p then ⟨[], []⟩ else nbs nb k := by
  unfold nbs
  rw [get?_del]
  split <;> rfl

theorem mem_setAdd {l : List Str} {x y : Str} : y ∈ setAdd l x ↔ y ∈ l ∨ y = x := by
  unfold setAdd
  split
  · next h => exact ⟨.inl, fun g => g.elim id (fun e => e ▸ h)⟩
  · simp

theorem nodup_setAdd {l : List Str} (h : l.Nodup) (x : Str) : (setAdd l x).Nodup := by
  unfold setAdd
  split
  · exact h
  · next e =>
    refine List.nodup_append.mpr ⟨h, by simp, ?_⟩
    intro y hy z hz
    simp only [List.mem_cons, List.not_mem_nil, or_false] at hz
    subst hz
    rintro rfl
    exact e hy

/-- Both entries of a pair `l` followed by the pair `r`. -/
def Linked (nb : Nb) (l r : Str) : Prop := r ∈ (nbs nb l).right ∧ l ∈ (nbs nb r).left

def Grow (nb nb' : Nb) : Prop := ∀ k, (∀ d ∈ (nbs nb k).right, d ∈ (nbs nb' k).right) ∧ ∀ d ∈ (nbs nb k).left, d ∈ (nbs nb' k).left

theorem Grow.refl (nb : Nb) : Grow nb nb := fun _ => ⟨fun _ h => h, fun _ h => h⟩
theorem Grow.trans {x y z : Nb} (h : Grow x y) (g : Grow y z) : Grow x z :=
  fun k => ⟨fun d hd => (g k).1 d ((h k).1 d hd), fun d hd => (g k).2 d ((h k).2 d hd)⟩
theorem Linked.grow {x y : Nb} {l r : Str} (h : Linked x l r) (g : Grow x y) : Linked y l r :=
  ⟨(g l).1 r h.1, (g r).2 l h.2⟩

/-- `r` can follow `l`. -/
def Fit (T : Str → Prop) (l r : Str) : Prop := ∃ x y z, l = join x y ∧ r = join y z ∧ T x ∧ T y ∧ T z

/-- What holds of the neighbour index all the time. -/
structure NbInv (T : Str → Prop) (nb : Nb) : Prop where
  fr : ∀ l r, r ∈ (nbs nb l).right → Fit T l r
  fl : ∀ l r, l ∈ (nbs nb r).left → Fit T l r
  nr : ∀ k, (nbs nb k).right.Nodup
  nl : ∀ k, (nbs nb k).left.Nodup
  self : ∀ k, k ∈ (nbs nb k).left ↔ k ∈ (nbs nb k).right

theorem link_right (nb : Nb) (l r : Str) : ∀ k,
    (∀ d, d ∈ (nbs (nbAdd (nbAdd nb l .right r) r .left l) k).right ↔ d ∈ (nbs nb k).right ∨ (k = l ∧ d = r)) ∧
    (∀ d, d ∈ (nbs (nbAdd (nbAdd nb l .right r) r .left l) k).left ↔ d ∈ (nbs nb k).left ∨ (k = r ∧ d = l)) ∧
    (k ≠ l → (nbs (nbAdd (nbAdd nb l .right r) r .left l) k).right = (nbs nb k).right) ∧
    (k ≠ r → (nbs (nbAdd (nbAdd nb l .right r) r .left l) k).left = (nbs nb k).left) ∧
    ((nbs nb k).right.Nodup → (nbs (nbAdd (nbAdd nb l .right r) r .left l) k).right.Nodup) ∧
    ((nbs nb k).left.Nodup → (nbs (nbAdd (nbAdd nb l .right r) r .left l) k).left.Nodup) := by
  intro k
  unfold nbAdd
  rw [nbs_set]
  by_cases h1 : k = r
  · subst h1
    rw [if_pos rfl, nbs_set]
    by_cases h2 : k = l
    · subst h2
      rw [if_pos rfl]
      simp only [Sides.add]
      exact ⟨fun d => by simp [mem_setAdd], fun d => by simp [mem_setAdd], by simp, by simp, fun h => nodup_setAdd h _,
        fun h => nodup_setAdd h _⟩
    · rw [if_neg h2]
      simp only [Sides.add]
      exact ⟨fun d => by simp [h2], fun d => by simp [mem_setAdd], by simp, by simp, fun h => h,
        fun h => nodup_setAdd h _⟩
  · rw [if_neg h1, nbs_set]
    by_cases h2 : k = l
    · subst h2
      rw [if_pos rfl]
      simp only [Sides.add]
      exact ⟨fun d => by simp [mem_setAdd], fun d => by simp [h1], by simp, by simp, fun h => nodup_setAdd h _,
        fun h => h⟩
    · rw [if_neg h2]
      exact ⟨fun d => by simp [h2], fun d => by simp [h1], by simp, by simp, fun h => h, fun h => h⟩

theorem link_left (nb : Nb) (l r : Str) : ∀ k,
    (∀ d, d ∈ (nbs (nbAdd (nbAdd nb r .left l) l .right r) k).right ↔ d ∈ (nbs nb k).right ∨ (k = l ∧ d = r)) ∧
    (∀ d, d ∈ (nbs (nbAdd (nbAdd nb r .left l) l .right r) k).left ↔ d ∈ (nbs nb k).left ∨ (k = r ∧ d = l)) ∧
    (k ≠ l → (nbs (nbAdd (nbAdd nb r .left l) l .right r) k).right = (nbs nb k).right) ∧
    (k ≠ r → (nbs (nbAdd (nbAdd nb r .left l) l .right r) k).left = (nbs nb k).left) ∧
    ((nbs nb k).right.Nodup → (nbs (nbAdd (nbAdd nb r .left l) l .right r) k).right.Nodup) ∧
    ((nbs nb k).left.Nodup → (nbs (nbAdd (nbAdd nb r .left l) l .right r) k).left.Nodup) := by
  intro k
  unfold nbAdd
  rw [nbs_set]
  by_cases h1 : k = l
  · subst h1
    rw [if_pos rfl, nbs_set]
    by_cases h2 : k = r
    · subst h2
      rw [if_pos rfl]
      simp only [Sides.add]
      exact ⟨fun d => by simp [mem_setAdd], fun d => by simp [mem_setAdd], by simp, by simp, fun h => nodup_setAdd h _,
        fun h => nodup_setAdd h _⟩
    · rw [if_neg h2]
      simp only [Sides.add]
      exact ⟨fun d => by simp [mem_setAdd], fun d => by simp [h2], by simp, by simp, fun h => nodup_setAdd h _,
        fun h => h⟩
  · rw [if_neg h1, nbs_set]
    by_cases h2 : k = r
    · subst h2
      rw [if_pos rfl]
      simp only [Sides.add]
      exact ⟨fun d => by simp [h1], fun d => by simp [mem_setAdd], by simp, by simp, fun h => h,
        fun h => nodup_setAdd h _⟩
    · rw [if_neg h2]
      exact ⟨fun d => by simp [h1], fun d => by simp [h2], by simp, by simp, fun h => h, fun h => h⟩

/-- The invariant of the update of the neighbour index: `S` are the neighbours of the pair that is merged. -/
structure UpInv (T : Str → Prop) (pair : Str) (S : Sides) (nb : Nb) : Prop extends NbInv T nb where
  frozen : nbs nb pair = S

theorem UpInv.link {T : Str → Prop} {pair : Str} {S : Sides} {nb nb' : Nb} {l r : Str} (h : UpInv T pair S nb)
    (hfit : Fit T l r) (hl : l ≠ pair) (hr : r ≠ pair)
    (e : ∀ k,
      (∀ d, d ∈ (nbs nb' k).right ↔ d ∈ (nbs nb k).right ∨ (k = l ∧ d = r)) ∧
      (∀ d, d ∈ (nbs nb' k).left ↔ d ∈ (nbs nb k).left ∨ (k = r ∧ d = l)) ∧
      (k ≠ l → (nbs nb' k).right = (nbs nb k).right) ∧ (k ≠ r → (nbs nb' k).left = (nbs nb k).left) ∧
      ((nbs nb k).right.Nodup → (nbs nb' k).right.Nodup) ∧ ((nbs nb k).left.Nodup → (nbs nb' k).left.Nodup)) :
    UpInv T pair S nb' ∧ Grow nb nb' ∧ Linked nb' l r := by
  refine ⟨⟨⟨?_, ?_, ?_, ?_, ?_⟩, ?_⟩, ?_, ?_⟩
  · intro l' r' g
    rcases ((e l').1 r').mp g with g | ⟨rfl, rfl⟩
    · exact h.fr l' r' g
    · exact hfit
  · intro l' r' g
    rcases ((e r').2.1 l').mp g with g | ⟨rfl, rfl⟩
    · exact h.fl l' r' g
    · exact hfit
  · exact fun k => (e k).2.2.2.2.1 (h.nr k)
  · exact fun k => (e k).2.2.2.2.2 (h.nl k)
  · intro k
    rw [(e k).1, (e k).2.1, h.self k]
    constructor
    · rintro (g | ⟨rfl, rfl⟩)
      · exact .inl g
      · exact .inr ⟨rfl, rfl⟩
    · rintro (g | ⟨rfl, rfl⟩)
      · exact .inl g
      · exact .inr ⟨rfl, rfl⟩
  · rw [← h.frozen]
    have h1 := (e pair).2.2.1 (Ne.symm hl)
    have h2 := (e pair).2.2.2.1 (Ne.symm hr)
    cases hx : nbs nb' pair
    cases hy : nbs nb pair
    rw [hx, hy] at h1 h2
    simp only at h1 h2
    rw [h1, h2]
  · exact fun k => ⟨fun d g => ((e k).1 d).mpr (.inl g), fun d g => ((e k).2.1 d).mpr (.inl g)⟩
  · exact ⟨((e l).1 r).mpr (.inr ⟨rfl, rfl⟩), ((e r).2.1 l).mpr (.inr ⟨rfl, rfl⟩)⟩

variable {T : Str → Prop} (hT : ∀ x, T x → NS x) {pair : Str} {S : Sides} {nb : Nb} {loc : Loc}

include hT in
theorem addPairs_right (hp : loc.has pair = false) {x y z : Str} (hx : T x) (hy : T y) (hz : T z) (hne : join x y ≠ pair)
    (h : UpInv T pair S nb) :
    ∃ nb', addPairs loc nb (join x y) (join y z) .right = .ok nb' ∧ UpInv T pair S nb' ∧ Grow nb nb' ∧
      (loc.has (join y z) = true → Linked nb' (join x y) (join y z)) ∧
      ∀ k, k ≠ join x y → (nbs nb' k).right = (nbs nb k).right := by
  unfold addPairs
  simp only [can_right (hT x hx) (hT y hy) (hT y hy) (hT z hz), bind, Except.bind, decide_true, Bool.not_true,
    Bool.false_eq_true, if_false, pure, Except.pure, Side.opposite]
  by_cases hh : loc.has (join y z) = true
  · rw [if_pos hh]
    have hr : join y z ≠ pair := fun e => by rw [e, hp] at hh; cases hh
    obtain ⟨g1, g2, g3⟩ := h.link ⟨x, y, z, rfl, rfl, hx, hy, hz⟩ hne hr (link_right nb _ _)
    exact ⟨_, rfl, g1, g2, fun _ => g3, fun k hk => (link_right nb _ _ k).2.2.1 hk⟩
  · rw [if_neg hh]
    exact ⟨nb, rfl, h, Grow.refl nb, fun g => absurd g hh, fun _ _ => rfl⟩

include hT in
theorem addPairs_left (hp : loc.has pair = false) {x y z : Str} (hx : T x) (hy : T y) (hz : T z) (hne : join y z ≠ pair)
    (h : UpInv T pair S nb) :
    ∃ nb', addPairs loc nb (join y z) (join x y) .left = .ok nb' ∧ UpInv T pair S nb' ∧ Grow nb nb' ∧
      (loc.has (join x y) = true → Linked nb' (join x y) (join y z)) ∧
      ∀ k, k ≠ join y z → (nbs nb' k).left = (nbs nb k).left := by
  unfold addPairs
  simp only [can_left (hT y hy) (hT z hz) (hT x hx) (hT y hy), bind, Except.bind, decide_true, Bool.not_true,
    Bool.false_eq_true, if_false, pure, Except.pure, Side.opposite]
  by_cases hh : loc.has (join x y) = true
  · rw [if_pos hh]
    have hl : join x y ≠ pair := fun e => by rw [e, hp] at hh; cases hh
    obtain ⟨g1, g2, g3⟩ := h.link ⟨x, y, z, rfl, rfl, hx, hy, hz⟩ hl hne (link_left nb _ _)
    exact ⟨_, rfl, g1, g2, fun _ => g3, fun k hk => (link_left nb _ _ k).2.2.2.1 hk⟩
  · rw [if_neg hh]
    exact ⟨nb, rfl, h, Grow.refl nb, fun g => absurd g hh, fun _ _ => rfl⟩

variable {a b : Str} (hTa : T a) (hTb : T b) (hTc : T (a ++ b))

include hT hTa hTb hTc in
theorem addBoth_right (hp : loc.has (join a b) = false) {x y z : Str} (hx : T x) (hy : T y) (hz : T z)
    (hne : join x y ≠ join a b) (h : UpInv T (join a b) S nb) :
    ∃ nb', addBoth loc (join a b) (join x y) (join y z) .right nb = .ok nb' ∧ UpInv T (join a b) S nb' ∧ Grow nb nb' ∧
      (loc.has (join y z) = true → Linked nb' (join x y) (join y z)) ∧
      (z = a → loc.has (join y (a ++ b)) = true → Linked nb' (join x y) (join y (a ++ b))) ∧
      ∀ k, k ≠ join x y → (nbs nb' k).right = (nbs nb k).right := by
  obtain ⟨nb1, e1, i1, g1, l1, s1⟩ := addPairs_right hT hp hx hy hz hne h
  unfold addBoth
  simp only [e1, bind, Except.bind, Side.opposite, can_left (hT a hTa) (hT b hTb) (hT y hy) (hT z hz)]
  by_cases hza : z = a
  · subst hza
    simp only [decide_true, if_true, concat_left (hT z hTa) (hT b hTb) (hT y hy)]
    obtain ⟨nb2, e2, i2, g2, l2, s2⟩ := addPairs_right hT hp hx hy hTc hne i1
    exact ⟨nb2, e2, i2, g1.trans g2, fun g => (l1 g).grow g2, fun _ => l2, fun k hk => (s2 k hk).trans (s1 k hk)⟩
  · have : decide (a = z) = false := by simpa using Ne.symm hza
    simp only [this, Bool.false_eq_true, if_false, pure, Except.pure]
    exact ⟨nb1, rfl, i1, g1, l1, fun g => absurd g hza, s1⟩

include hT hTa hTb hTc in
theorem addBoth_left (hp : loc.has (join a b) = false) {x y z : Str} (hx : T x) (hy : T y) (hz : T z)
    (hne : join y z ≠ join a b) (h : UpInv T (join a b) S nb) :
    ∃ nb', addBoth loc (join a b) (join y z) (join x y) .left nb = .ok nb' ∧ UpInv T (join a b) S nb' ∧ Grow nb nb' ∧
      (loc.has (join x y) = true → Linked nb' (join x y) (join y z)) ∧
      (x = b → loc.has (join (a ++ b) y) = true → Linked nb' (join (a ++ b) y) (join y z)) ∧
      ∀ k, k ≠ join y z → (nbs nb' k).left = (nbs nb k).left := by
  obtain ⟨nb1, e1, i1, g1, l1, s1⟩ := addPairs_left hT hp hx hy hz hne h
  unfold addBoth
  simp only [e1, bind, Except.bind, Side.opposite, can_right (hT a hTa) (hT b hTb) (hT x hx) (hT y hy)]
  by_cases hxb : x = b
  · subst hxb
    simp only [decide_true, if_true, concat_right (hT a hTa) (hT x hTb) (hT y hy)]
    obtain ⟨nb2, e2, i2, g2, l2, s2⟩ := addPairs_left hT hp hTc hy hz hne i1
    exact ⟨nb2, e2, i2, g1.trans g2, fun g => (l1 g).grow g2, fun _ => l2, fun k hk => (s2 k hk).trans (s1 k hk)⟩
  · have : decide (b = x) = false := by simpa using Ne.symm hxb
    simp only [this, Bool.false_eq_true, if_false, pure, Except.pure]
    exact ⟨nb1, rfl, i1, g1, l1, fun g => absurd g hxb, s1⟩

/-- Iterating over a set that is not changed. -/
theorem forSet_spec {ε : Type} {o : Order ε} (ho : AnyOrder o) {get : Nb → List Str} {body : Nb → Str → Except PyErr Nb} {I : Nb → Prop}
    {Post : Str → Nb → Prop} (hPost : ∀ x nb nb', Grow nb nb' → Post x nb → Post x nb') {nb : Nb} (hI : I nb)
    (hbody : ∀ nb1 x, x ∈ get nb → I nb1 → get nb1 = get nb → Grow nb nb1 → ∃ nb2, body nb1 x = .ok nb2 ∧ I nb2 ∧ get nb2 = get nb ∧
      Grow nb1 nb2 ∧ Post x nb2) :
    ∃ nb', forSet o get body nb = .ok nb' ∧ I nb' ∧ get nb' = get nb ∧ Grow nb nb' ∧ ∀ x ∈ get nb, Post x nb' := by
  have loop : ∀ (l : List Str) (nb1 : Nb), (∀ x ∈ l, x ∈ get nb) → I nb1 → get nb1 = get nb → Grow nb nb1 →
      ∃ nb', forSetLoop get (get nb).length body l nb1 = .ok nb' ∧ I nb' ∧ get nb' = get nb ∧ Grow nb1 nb' ∧ ∀ x ∈ l, Post x nb' := by
    intro l
    induction l with
    | nil => intro nb1 _ h1 h2 _; exact ⟨nb1, rfl, h1, h2, Grow.refl _, by simp⟩
    | cons x l ih =>
      intro nb1 hl h1 h2 h3
      obtain ⟨nb2, e1, i1, s1, g1, p1⟩ := hbody nb1 x (hl x (by simp)) h1 h2 h3
      obtain ⟨nb3, e2, i2, s2, g2, p2⟩ := ih nb2 (fun y hy => hl y (by simp [hy])) i1 s1 (h3.trans g1)
      refine ⟨nb3, ?_, i2, s2, g1.trans g2, ?_⟩
      · simp only [forSetLoop, e1, bind, Except.bind, s1, ne_eq, not_true_eq_false, if_false]; exact e2
      · intro y hy
        rcases List.mem_cons.mp hy with rfl | hy
        · exact hPost y _ _ g2 p1
        · exact p2 y hy
  obtain ⟨nb', e, i, s, g, p⟩ := loop (o.iter (get nb)) nb (fun x hx => (ho _).mem_iff.mp hx) hI rfl (Grow.refl _)
  exact ⟨nb', e, i, s, g, fun x hx => p x ((ho _).mem_iff.mpr hx)⟩

end Verif.Wild
