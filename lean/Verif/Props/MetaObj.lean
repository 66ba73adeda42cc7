import Verif.Spec.MetaObj
import Verif.Props.Breaks
/-!
# Metadata of consecutive texts (C77)
-/
namespace Verif.Props
open Verif Spec Obj

theorem assign_same {α : Type} (f : Nat → α) (a : Nat) (x : α) : assign f a x a = x := if_pos rfl

theorem assign_other {α : Type} (f : Nat → α) {a b : Nat} (x : α) (h : b ≠ a) : assign f a x b = f b := if_neg h

theorem assign_assign {α : Type} (f : Nat → α) (a : Nat) (x y : α) : assign (assign f a x) a y = assign f a y := by
  refine funext fun b => ?_
  unfold assign
  split <;> rfl

/-! ## Positions -/

/-- The number of subtokens. -/
def totalOf (ws : List (Ty × Nat)) : Nat := (ws.map Prod.snd).sum

theorem positions_shift (n k : Nat) (ws : List (Ty × Nat)) : positions (n + k) ws = (positions k ws).map (n + ·) := by
  induction ws generalizing k with
  | nil => rfl
  | cons w ws ih => simp only [positions, List.map_cons]; rw [Nat.add_assoc, ih]

theorem positions_ne (n : Nat) (ws : List (Ty × Nat)) : positions n ws ≠ [] := by
  cases ws <;> simp [positions]

theorem positions_last (n : Nat) (ws : List (Ty × Nat)) : (positions n ws).getLast? = some (n + totalOf ws) := by
  induction ws generalizing n with
  | nil => simp [positions, totalOf]
  | cons w ws ih =>
    rw [positions, List.getLast?_cons_of_ne_nil (positions_ne _ _), ih]
    simp [totalOf, Nat.add_assoc]

theorem positions_append (n : Nat) (ws vs : List (Ty × Nat)) :
    positions n (ws ++ vs) = (positions n ws).dropLast ++ positions (n + totalOf ws) vs := by
  induction ws generalizing n with
  | nil => simp [positions, totalOf]
  | cons w ws ih =>
    rw [List.cons_append, positions, positions, List.dropLast_cons_of_ne_nil (positions_ne _ _), ih]
    simp [totalOf, Nat.add_assoc]

theorem positions_length (n : Nat) (ws : List (Ty × Nat)) : (positions n ws).length = ws.length + 1 := by
  induction ws generalizing n with
  | nil => rfl
  | cons w ws ih => simp [positions, ih]

theorem positions_sizes {n : Nat} {ws vs : List (Ty × Nat)} (h : positions n ws = positions n vs) :
    ws.map Prod.snd = vs.map Prod.snd := by
  induction ws generalizing n vs with
  | nil =>
    cases vs with
    | nil => rfl
    | cons v vs =>
      have := congrArg List.length h
      simp [positions, positions_length] at this
  | cons w ws ih =>
    cases vs with
    | nil =>
      have := congrArg List.length h
      simp [positions, positions_length] at this
    | cons v vs =>
      simp only [positions, List.cons.injEq, true_and] at h
      have hh := congrArg List.head? h
      have hw : ∀ k (us : List (Ty × Nat)), (positions k us).head? = some k := fun k us => by cases us <;> rfl
      rw [hw, hw] at hh
      have e : w.2 = v.2 := by have := Option.some.inj hh; omega
      rw [e] at h
      rw [List.map_cons, List.map_cons, e, ih h]

theorem words_ext : ∀ {ws vs : List (Ty × Nat)}, ws.map Prod.fst = vs.map Prod.fst → ws.map Prod.snd = vs.map Prod.snd → ws = vs
  | [], [], _, _ => rfl
  | [], _ :: _, h, _ => by cases h
  | _ :: _, [], h, _ => by cases h
  | w :: ws, v :: vs, h1, h2 => by
    simp only [List.map_cons, List.cons.injEq] at h1 h2
    rw [words_ext h1.2 h2.2, Prod.ext h1.1 h2.1]

/-! ## The loop -/

theorem appendLoop_apart {dst src n : Nat} (hne : src ≠ dst) {l : List Nat} : ∀ (k i : Nat) (bs : Nat → List Nat), bs src = l →
    l.length = i + k → appendLoop dst src n (k + 1) i bs = some (assign bs dst (bs dst ++ (l.drop i).map (n + ·))) := by
  intro k
  induction k with
  | zero =>
    intro i bs hb hl
    have h0 : (bs src)[i]? = none := by rw [hb]; exact List.getElem?_eq_none (by omega)
    rw [appendLoop, h0, List.drop_eq_nil_of_le (by omega)]
    refine congrArg some (funext fun a => ?_)
    unfold assign
    split
    · next h => rw [h]; simp
    · rfl
  | succ k ih =>
    intro i bs hb hl
    have hi : i < l.length := by omega
    have h0 : (bs src)[i]? = some l[i] := by rw [hb]; exact List.getElem?_eq_getElem hi
    rw [appendLoop, h0]
    change appendLoop dst src n (k + 1) (i + 1) _ = _
    rw [ih (i + 1) _ (by rw [assign_other _ _ hne]; exact hb) (by omega), assign_same, List.drop_eq_getElem_cons hi, assign_assign,
      List.map_cons, List.append_assoc]
    rfl

theorem appendLoop_same {d n : Nat} : ∀ (fuel i : Nat) (bs : Nat → List Nat), i < (bs d).length → appendLoop d d n fuel i bs = none := by
  intro fuel
  induction fuel with
  | zero => intros; rfl
  | succ k ih =>
    intro i bs hi
    rw [appendLoop, List.getElem?_eq_getElem hi]
    refine ih (i + 1) _ ?_
    rw [assign_same, List.length_append]
    exact Nat.succ_lt_succ hi

/-! ## Putting two together -/

/-- **C77** Putting metadata together: if `a` and `b` hold nothing in common, `a.update(b)` returns, `a` describes its full tokens
followed by those of `b`, and all tokens not to be split of either; nothing else is changed that does not hold the set or a list
of `a`, in particular not `b`. -/
theorem C77_update {h : Heap} {a b : Nat} {ws vs : List (Ty × Nat)} {ns ms : List Str} (ha : Says h a ws ns) (hb : Says h b vs ms)
    (hd : Apart h a b) : ∃ h', Updates h a b h' ∧ Says h' a (ws ++ vs) (ns ++ ms) ∧ Says h' b vs ms ∧
      h'.objs = h.objs ∧ h'.next = h.next ∧ (∀ r, r ≠ (h.objs a).names → h'.names r = h.names r) ∧
      (∀ r, r ≠ (h.objs a).bounds → h'.bounds r = h.bounds r) ∧ ∀ r, r ≠ (h.objs a).types → h'.types r = h.types r := by
  obtain ⟨l, hl, hln⟩ := ha.names
  obtain ⟨k, hk, hkn⟩ := hb.names
  have hloop := appendLoop_apart (n := 0 + totalOf ws) (Ne.symm hd.bounds) (l := positions 0 vs) (positions 0 vs).length 0
    (assign h.bounds (h.objs a).bounds (positions 0 ws).dropLast)
    (by rw [assign_other _ _ (Ne.symm hd.bounds), hb.bounds]) (by omega)
  have hup : h.update ((positions 0 vs).length + 1) a b = some (.ok (),
      { h with
        names := assign h.names (h.objs a).names (.set (k.foldl setAdd l))
        bounds := assign h.bounds (h.objs a).bounds (positions 0 (ws ++ vs))
        types := assign h.types (h.objs a).types ((ws ++ vs).map Prod.fst) }) := by
    unfold Heap.update
    simp only [hl]
    rw [ha.bounds, positions_last]
    simp only [hloop, ha.types, hb.types, hk, Names.elems, List.map_append]
    rw [assign_assign, assign_same, positions_append, List.drop_zero]
    exact congrArg (fun z => some (Except.ok (), { h with
        names := assign h.names (h.objs a).names (.set (k.foldl setAdd l))
        bounds := assign h.bounds (h.objs a).bounds ((positions 0 ws).dropLast ++ z)
        types := assign h.types (h.objs a).types (ws.map Prod.fst ++ vs.map Prod.fst) })) (positions_shift (0 + totalOf ws) 0 vs).symm
  refine ⟨_, ⟨_, hup⟩, ⟨assign_same _ _ _, assign_same _ _ _, _, assign_same _ _ _, fun x => ?_⟩, ⟨?_, ?_, k, ?_, hkn⟩, rfl, rfl,
    fun r hr => assign_other _ _ hr, fun r hr => assign_other _ _ hr, fun r hr => assign_other _ _ hr⟩
  · rw [mem_foldl_setAdd, hln, hkn, List.mem_append]
  · exact (assign_other _ _ (Ne.symm hd.bounds)).trans hb.bounds
  · exact (assign_other _ _ (Ne.symm hd.types)).trans hb.types
  · exact (assign_other _ _ (Ne.symm hd.names)).trans hk

/-! ## Histories -/

/-- Nothing at the addresses in use is changed. -/
def Extends (h h' : Heap) : Prop := h.next ≤ h'.next ∧
  ∀ r < h.next, h'.objs r = h.objs r ∧ h'.names r = h.names r ∧ h'.bounds r = h.bounds r ∧ h'.types r = h.types r

theorem Extends.trans {h h' h'' : Heap} (g : Extends h h') (g' : Extends h' h'') : Extends h h'' := by
  refine ⟨Nat.le_trans g.1 g'.1, fun r hr => ?_⟩
  obtain ⟨a, b, c, d⟩ := g.2 r hr
  obtain ⟨a', b', c', d'⟩ := g'.2 r (Nat.lt_of_lt_of_le hr g.1)
  exact ⟨a'.trans a, b'.trans b, c'.trans c, d'.trans d⟩

theorem Extends.refl (h : Heap) : Extends h h := ⟨Nat.le_refl _, fun _ _ => ⟨rfl, rfl, rfl, rfl⟩⟩

theorem newNames_extends (h : Heap) (x : Names) : Extends h (h.newNames x).2 :=
  ⟨Nat.le_succ _, fun _ hr => ⟨rfl, assign_other _ _ (Nat.ne_of_lt hr), rfl, rfl⟩⟩

theorem newBounds_extends (h : Heap) (x : List Nat) : Extends h (h.newBounds x).2 :=
  ⟨Nat.le_succ _, fun _ hr => ⟨rfl, rfl, assign_other _ _ (Nat.ne_of_lt hr), rfl⟩⟩

theorem newTypes_extends (h : Heap) (x : List Ty) : Extends h (h.newTypes x).2 :=
  ⟨Nat.le_succ _, fun _ hr => ⟨rfl, rfl, rfl, assign_other _ _ (Nat.ne_of_lt hr)⟩⟩

theorem newObj_extends (h : Heap) (x : Attrs) : Extends h (h.newObj x).2 :=
  ⟨Nat.le_succ _, fun _ hr => ⟨assign_other _ _ (Nat.ne_of_lt hr), rfl, rfl, rfl⟩⟩

theorem namesOr_ok {h : Heap} {a : Nat} {ns : List Str} (ha : a < h.next) (hv : h.names a = .set ns) : ∃ r h', namesOr h (some a) = (r, h') ∧
    Extends h h' ∧ h'.names r = .set ns ∧ a ≤ r ∧ r < h'.next := by
  rw [namesOr, hv]
  change ∃ r h', (if ns = [] then h.newNames (Names.set []) else (a, h)) = (r, h') ∧ _
  by_cases hn : ns = []
  · rw [if_pos hn]
    exact ⟨_, _, rfl, newNames_extends h _, by rw [hn]; exact assign_same _ _ _, Nat.le_of_lt ha, Nat.lt_succ_self _⟩
  · rw [if_neg hn]
    exact ⟨_, _, rfl, .refl h, hv, Nat.le_refl _, ha⟩

theorem boundsOr_ok {h : Heap} {a : Nat} {bs : List Nat} (hv : h.bounds a = bs) (hn : bs ≠ []) :
    boundsOr h (some a) = (a, h) := by
  rw [boundsOr, hv, if_neg hn]

theorem typesOr_ok {h : Heap} {a : Nat} {ts : List Ty} (ha : a < h.next) (hv : h.types a = ts) : ∃ r h', typesOr h (some a) = (r, h') ∧
    Extends h h' ∧ h'.types r = ts ∧ a ≤ r ∧ r < h'.next := by
  rw [typesOr, hv]
  by_cases hn : ts = []
  · rw [if_pos hn]
    exact ⟨_, _, rfl, newTypes_extends h _, by rw [hn]; exact assign_same _ _ _, Nat.le_of_lt ha, Nat.lt_succ_self _⟩
  · rw [if_neg hn]
    exact ⟨_, _, rfl, .refl h, hv, Nat.le_refl _, ha⟩

/-- New metadata, from a set and lists that are in the objects. -/
theorem make_ok {h : Heap} {n b t : Nat} {ws : List (Ty × Nat)} {ns : List Str} (hn : n < h.next) (hb : b < h.next) (ht : t < h.next)
    (vn : h.names n = .set ns) (vb : h.bounds b = positions 0 ws) (vt : h.types t = ws.map Prod.fst) :
    ∃ o h', h.make (some n) (some b) (some t) = (.ok o, h') ∧ Says h' o ws ns ∧ Extends h h' ∧ h.next ≤ o ∧ o < h'.next ∧
      n ≤ (h'.objs o).names ∧ (h'.objs o).names < h'.next ∧ (h'.objs o).bounds = b ∧ t ≤ (h'.objs o).types ∧
      (h'.objs o).types < h'.next := by
  obtain ⟨r1, h1, e1, x1, v1, a1, l1⟩ := namesOr_ok hn vn
  have hb1 := Nat.lt_of_lt_of_le hb x1.1
  have vb1 := (x1.2 b hb).2.2.1.trans vb
  have e2 := boundsOr_ok vb1 (positions_ne 0 ws)
  obtain ⟨r3, h3, e3, x3, v3, a3, l3⟩ := typesOr_ok (Nat.lt_of_lt_of_le ht x1.1) ((x1.2 t ht).2.2.2.trans vt)
  have vb3 := (x3.2 b hb1).2.2.1.trans vb1
  have vn3 := (x3.2 r1 l1).2.1.trans v1
  refine ⟨(h3.newObj ⟨r1, b, r3⟩).1, (h3.newObj ⟨r1, b, r3⟩).2, ?_, ?_, (x1.trans x3).trans (newObj_extends _ _), Nat.le_trans x1.1 x3.1, Nat.lt_succ_self _, ?_⟩
  · unfold Heap.make
    simp only [e1, e2, e3]
    rw [if_pos (by rw [vb3, v3, positions_length, List.length_map])]
  · have ho : (h3.newObj ⟨r1, b, r3⟩).2.objs (h3.newObj ⟨r1, b, r3⟩).1 = ⟨r1, b, r3⟩ := assign_same _ _ _
    exact ⟨by rw [ho]; exact vb3, by rw [ho]; exact v3, ns, by rw [ho]; exact vn3, fun _ => Iff.rfl⟩
  · have ho : (h3.newObj ⟨r1, b, r3⟩).2.objs (h3.newObj ⟨r1, b, r3⟩).1 = ⟨r1, b, r3⟩ := assign_same _ _ _
    rw [ho]
    exact ⟨a1, Nat.lt_succ_of_lt (Nat.lt_of_lt_of_le l1 x3.1), rfl, a3, Nat.lt_succ_of_lt l3⟩

/-- **C77** New metadata describes what it is made from. -/
theorem C77_create (h : Heap) (ws : List (Ty × Nat)) (ns : List Str) : ∃ o h', create h ws ns = (.ok o, h') ∧ Says h' o ws ns ∧
    Extends h h' ∧ h.next ≤ o ∧ o < h'.next ∧ h.next ≤ (h'.objs o).names ∧ (h'.objs o).names < h'.next ∧
    h.next ≤ (h'.objs o).bounds ∧ (h'.objs o).bounds < h'.next ∧ h.next ≤ (h'.objs o).types ∧ (h'.objs o).types < h'.next := by
  have x1 := newNames_extends h (.set ns)
  have x2 := newBounds_extends (h.newNames (.set ns)).2 (positions 0 ws)
  have x3 := newTypes_extends ((h.newNames (.set ns)).2.newBounds (positions 0 ws)).2 (ws.map Prod.fst)
  obtain ⟨o, h', e, hs, x, k1, k2, k3, k4, k5, k6, k7⟩ := make_ok
    (h := (((h.newNames (.set ns)).2.newBounds (positions 0 ws)).2.newTypes (ws.map Prod.fst)).2)
    (n := h.next) (b := h.next + 1) (t := h.next + 1 + 1) (ws := ws) (ns := ns)
    (show h.next < h.next + 1 + 1 + 1 by omega) (show h.next + 1 < h.next + 1 + 1 + 1 by omega)
    (show h.next + 1 + 1 < h.next + 1 + 1 + 1 by omega) (assign_same _ _ _) (assign_same _ _ _) (assign_same _ _ _)
  have hx := ((x1.trans x2).trans x3).trans x
  have hnx : h.next + 1 + 1 + 1 ≤ h'.next := x.1
  have k1' : h.next + 1 + 1 + 1 ≤ o := k1
  exact ⟨o, h', e, hs, hx, by omega, k2, by omega, k4, by omega, by omega, by omega, k7⟩

/-- What holds of the objects of a program. -/
structure MetaInv (h : Heap) (sheet : Nat → Option (List (Ty × Nat) × List Str)) : Prop where
  says : ∀ {o ws ns}, sheet o = some (ws, ns) → Says h o ws ns
  below : ∀ {o x}, sheet o = some x → o < h.next ∧ (h.objs o).names < h.next ∧ (h.objs o).bounds < h.next ∧ (h.objs o).types < h.next
  apart : ∀ {a b x y}, sheet a = some x → sheet b = some y → a ≠ b → Apart h a b

theorem says_congr {h h' : Heap} {o : Nat} {ws : List (Ty × Nat)} {ns : List Str} (hs : Says h o ws ns) (ho : h'.objs o = h.objs o)
    (hn : h'.names (h.objs o).names = h.names (h.objs o).names) (hb : h'.bounds (h.objs o).bounds = h.bounds (h.objs o).bounds)
    (ht : h'.types (h.objs o).types = h.types (h.objs o).types) : Says h' o ws ns := by
  refine ⟨?_, ?_, ?_⟩
  · rw [ho, hb]; exact hs.bounds
  · rw [ho, ht]; exact hs.types
  · rw [ho, hn]; exact hs.names

theorem updates_unique {h h1 h2 : Heap} {a b : Nat} (g1 : Updates h a b h1) (g2 : Updates h a b h2) : h1 = h2 := by
  obtain ⟨f1, e1⟩ := g1
  obtain ⟨f2, e2⟩ := g2
  have mono : ∀ (f i dst src n : Nat) (bs r : Nat → List Nat), appendLoop dst src n f i bs = some r →
      ∀ k, appendLoop dst src n (f + k) i bs = some r := by
    intro f
    induction f with
    | zero => intro i dst src n bs r hr; cases hr
    | succ f ih =>
      intro i dst src n bs r hr k
      rw [Nat.succ_add, appendLoop]
      rw [appendLoop] at hr
      split
      · next hi => rw [hi] at hr; exact hr
      · next hi => rw [hi] at hr; exact ih _ _ _ _ _ _ hr k
  have up : ∀ (f k : Nat) (x : Except PyErr Unit × Heap), h.update f a b = some x → h.update (f + k) a b = some x := by
    intro f k x hx
    rcases hl : h.names (h.objs a).names with l | l
    · rcases hb : (h.bounds (h.objs a).bounds).getLast? with _ | n
      · simp only [Heap.update, hl, hb] at hx ⊢
        exact hx
      · rcases hbs : appendLoop (h.objs a).bounds (h.objs b).bounds n f 0
          (assign h.bounds (h.objs a).bounds (h.bounds (h.objs a).bounds).dropLast) with _ | bs
        · simp only [Heap.update, hl, hb, hbs] at hx
          cases hx
        · simp only [Heap.update, hl, hb, hbs] at hx
          simp only [Heap.update, hl, hb, mono _ _ _ _ _ _ _ hbs k]
          exact hx
    · simp only [Heap.update, hl] at hx ⊢
      exact hx
  have p1 := up f1 f2 _ e1
  have p2 := up f2 f1 _ e2
  rw [Nat.add_comm f2 f1, p1] at p2
  exact congrArg Prod.snd (Option.some.inj p2)

theorem metaHistory_inv {h : Heap} {sheet : Nat → Option (List (Ty × Nat) × List Str)} (hh : MetaHistory h sheet) : MetaInv h sheet := by
  induction hh with
  | start h =>
    refine ⟨?_, ?_, ?_⟩
    · intro o ws ns e; cases e
    · intro o x e; cases e
    · intro a b x y e; cases e
  | @create h h' sheet ws ns o _ hc ih =>
    obtain ⟨o', h'', e, hs, hx, k1, k2, k3, k4, k5, k6, k7, k8⟩ := C77_create h ws ns
    rw [hc] at e
    obtain ⟨rfl, rfl⟩ : o = o' ∧ h' = h'' := ⟨Except.ok.inj (congrArg Prod.fst e), congrArg Prod.snd e⟩
    have old : ∀ {a x}, sheet a = some x → a ≠ o ∧ h'.objs a = h.objs a := fun {a x} ha =>
      ⟨Nat.ne_of_lt (Nat.lt_of_lt_of_le (ih.below ha).1 k1), (hx.2 a (ih.below ha).1).1⟩
    refine ⟨?_, ?_, ?_⟩
    · intro a vs ms ha
      by_cases hao : a = o
      · subst hao
        rw [assign_same] at ha
        obtain ⟨rfl, rfl⟩ := Prod.mk.inj (Option.some.inj ha)
        exact hs
      · rw [assign_other _ _ hao] at ha
        obtain ⟨b1, b2, b3, b4⟩ := ih.below ha
        exact says_congr (ih.says ha) (hx.2 a b1).1 (hx.2 _ b2).2.1 (hx.2 _ b3).2.2.1 (hx.2 _ b4).2.2.2
    · intro a x ha
      by_cases hao : a = o
      · subst hao
        exact ⟨k2, k4, k6, k8⟩
      · rw [assign_other _ _ hao] at ha
        obtain ⟨b1, b2, b3, b4⟩ := ih.below ha
        have := hx.1
        rw [(old ha).2]
        exact ⟨by omega, by omega, by omega, by omega⟩
    · intro a b x y ha hb hab
      have one : ∀ {c z}, sheet c = some z → Apart h' c o := by
        intro c z hc'
        obtain ⟨b1, b2, b3, b4⟩ := ih.below hc'
        refine ⟨?_, ?_, ?_⟩ <;> rw [(old hc').2] <;> omega
      by_cases hao : a = o
      · subst hao
        rw [assign_other _ _ (Ne.symm hab)] at hb
        have := one hb
        exact ⟨this.names.symm, this.bounds.symm, this.types.symm⟩
      · rw [assign_other _ _ hao] at ha
        by_cases hbo : b = o
        · subst hbo
          exact one ha
        · rw [assign_other _ _ hbo] at hb
          have := ih.apart ha hb hab
          exact ⟨by rw [(old ha).2, (old hb).2]; exact this.names, by rw [(old ha).2, (old hb).2]; exact this.bounds,
            by rw [(old ha).2, (old hb).2]; exact this.types⟩
  | @update h h' sheet a b ws vs ns ms _ ha hb hab hu ih =>
    obtain ⟨h'', e, s1, s2, ho, hn, n1, n2, n3⟩ := C77_update (ih.says ha) (ih.says hb) (ih.apart ha hb hab)
    obtain rfl := updates_unique hu e
    have stillSome : ∀ {c x}, assign sheet a (some (ws ++ vs, ns ++ ms)) c = some x → ∃ y, sheet c = some y := by
      intro c x hc
      by_cases hca : c = a
      · exact ⟨_, hca ▸ ha⟩
      · exact ⟨x, by rw [assign_other _ _ hca] at hc; exact hc⟩
    refine ⟨?_, ?_, ?_⟩
    · intro c us ks hc
      by_cases hca : c = a
      · subst hca
        rw [assign_same] at hc
        obtain ⟨rfl, rfl⟩ := Prod.mk.inj (Option.some.inj hc)
        exact s1
      · rw [assign_other _ _ hca] at hc
        have ap := ih.apart hc ha hca
        exact says_congr (ih.says hc) (by rw [ho]) (n1 _ ap.names) (n2 _ ap.bounds) (n3 _ ap.types)
    · intro c x hc
      obtain ⟨y, hy⟩ := stillSome hc
      rw [ho, hn]
      exact ih.below hy
    · intro c d x y hc hd hcd
      obtain ⟨x', hx'⟩ := stillSome hc
      obtain ⟨y', hy'⟩ := stillSome hd
      have := ih.apart hx' hy' hcd
      exact ⟨by rw [ho]; exact this.names, by rw [ho]; exact this.bounds, by rw [ho]; exact this.types⟩
  | @setAllTypes h sheet a ws ns t _ ha ih =>
    have ea : (h.setAllTypes a t).objs a = { h.objs a with types := h.next } := assign_same _ _ _
    have eo : ∀ {c}, c ≠ a → (h.setAllTypes a t).objs c = h.objs c := fun hc => assign_other _ _ hc
    have et : ∀ {r}, r < h.next → (h.setAllTypes a t).types r = h.types r := fun hr => assign_other _ _ (Nat.ne_of_lt hr)
    have stillSome : ∀ {c x}, assign sheet a (some (ws.map fun w => (t, w.2), ns)) c = some x → ∃ y, sheet c = some y := by
      intro c x hc
      by_cases hca : c = a
      · exact ⟨_, hca ▸ ha⟩
      · exact ⟨x, by rw [assign_other _ _ hca] at hc; exact hc⟩
    refine ⟨?_, ?_, ?_⟩
    · intro c us ks hc
      by_cases hca : c = a
      · subst hca
        rw [assign_same] at hc
        obtain ⟨rfl, rfl⟩ := Prod.mk.inj (Option.some.inj hc)
        have hs := ih.says ha
        refine ⟨?_, ?_, ?_⟩
        · rw [ea]
          refine hs.bounds.trans ?_
          have : ∀ k, positions k ws = positions k (ws.map fun w => (t, w.2)) := by
            clear hs ha hc stillSome
            induction ws with
            | nil => intro k; rfl
            | cons w ws ihw => intro k; simp only [positions, List.map_cons]; rw [ihw]
          exact this 0
        · rw [ea]
          refine (assign_same _ _ _).trans ?_
          rw [hs.bounds, positions_length, Nat.add_sub_cancel, List.map_map]
          clear hs ha hc stillSome ih
          induction ws with
          | nil => rfl
          | cons w ws ihw => rw [List.length_cons, List.replicate_succ, List.map_cons, ihw]; rfl
        · rw [ea]; exact hs.names
      · rw [assign_other _ _ hca] at hc
        exact says_congr (ih.says hc) (eo hca) rfl rfl (et (ih.below hc).2.2.2)
    · intro c x hc
      obtain ⟨y, hy⟩ := stillSome hc
      obtain ⟨b1, b2, b3, b4⟩ := ih.below hy
      have hn : (h.setAllTypes a t).next = h.next + 1 := rfl
      rw [hn]
      by_cases hca : c = a
      · subst hca
        rw [ea]
        exact ⟨by omega, by show (h.objs c).names < _; omega, by show (h.objs c).bounds < _; omega, by show h.next < _; omega⟩
      · rw [eo hca]
        exact ⟨by omega, by omega, by omega, by omega⟩
    · intro c d x y hc hd hcd
      obtain ⟨x', hx'⟩ := stillSome hc
      obtain ⟨y', hy'⟩ := stillSome hd
      have ap := ih.apart hx' hy' hcd
      have b1 := (ih.below hx').2.2.2
      have b2 := (ih.below hy').2.2.2
      by_cases hca : c = a
      · subst hca
        refine ⟨?_, ?_, ?_⟩ <;> rw [ea, eo (Ne.symm hcd)]
        · exact ap.names
        · exact ap.bounds
        · show h.next ≠ _; omega
      · by_cases hda : d = a
        · subst hda
          refine ⟨?_, ?_, ?_⟩ <;> rw [ea, eo hca]
          · exact ap.names
          · exact ap.bounds
          · show _ ≠ h.next; omega
        · refine ⟨?_, ?_, ?_⟩ <;> rw [eo hca, eo hda]
          · exact ap.names
          · exact ap.bounds
          · exact ap.types

/-- **C77** In all histories every object describes what it should: what it was made from and what was added to it, in this order,
whatever was done to the other ones. -/
theorem C77_history {h : Heap} {sheet : Nat → Option (List (Ty × Nat) × List Str)} (hh : MetaHistory h sheet) {o : Nat}
    {ws : List (Ty × Nat)} {ns : List Str} (ho : sheet o = some (ws, ns)) : Says h o ws ns := (metaHistory_inv hh).says ho

/-- **C77** In all histories two different objects can be put together. -/
theorem C77_returns {h : Heap} {sheet : Nat → Option (List (Ty × Nat) × List Str)} (hh : MetaHistory h sheet) {a b : Nat}
    {x y : List (Ty × Nat) × List Str} (ha : sheet a = some x) (hb : sheet b = some y) (hab : a ≠ b) : ∃ h', Updates h a b h' := by
  have inv := metaHistory_inv hh
  obtain ⟨h', e, -⟩ := C77_update (inv.says ha) (inv.says hb) (inv.apart ha hb hab)
  exact ⟨h', e⟩

/-- **C77** Grouping does not matter: adding `b` and then `c` to `a` describes the same as adding `c` to `b` and then `b` to `a`. -/
theorem C77_grouping {h : Heap} {sheet : Nat → Option (List (Ty × Nat) × List Str)} (hh : MetaHistory h sheet) {a b c : Nat}
    {ws vs us : List (Ty × Nat)} {ns ms ks : List Str} (ha : sheet a = some (ws, ns)) (hb : sheet b = some (vs, ms))
    (hc : sheet c = some (us, ks)) (hab : a ≠ b) (hac : a ≠ c) (hbc : b ≠ c) :
    ∃ h1 h1' h2 h2', Updates h a b h1 ∧ Updates h1 a c h1' ∧ Updates h b c h2 ∧ Updates h2 a b h2' ∧
      Says h1' a (ws ++ vs ++ us) (ns ++ ms ++ ks) ∧ Says h2' a (ws ++ vs ++ us) (ns ++ ms ++ ks) := by
  obtain ⟨h1, e1⟩ := C77_returns hh ha hb hab
  have m1 := MetaHistory.update hh ha hb hab e1
  have c1 : assign sheet a (some (ws ++ vs, ns ++ ms)) c = some (us, ks) := by rw [assign_other _ _ (Ne.symm hac)]; exact hc
  obtain ⟨h1', e1'⟩ := C77_returns m1 (assign_same _ _ _) c1 hac
  have m1' := MetaHistory.update m1 (assign_same _ _ _) c1 hac e1'
  obtain ⟨h2, e2⟩ := C77_returns hh hb hc hbc
  have m2 := MetaHistory.update hh hb hc hbc e2
  have a2 : assign sheet b (some (vs ++ us, ms ++ ks)) a = some (ws, ns) := by rw [assign_other _ _ hab]; exact ha
  obtain ⟨h2', e2'⟩ := C77_returns m2 a2 (assign_same _ _ _) hab
  have m2' := MetaHistory.update m2 a2 (assign_same _ _ _) hab e2'
  refine ⟨h1, h1', h2, h2', e1, e1', e2, e2', C77_history m1' (assign_same _ _ _), ?_⟩
  have := C77_history m2' (assign_same _ _ _)
  rwa [← List.append_assoc, ← List.append_assoc] at this

/-- **C77** Metadata is equal exactly if it describes the same. -/
theorem C77_equal {h : Heap} {a b : Nat} {ws vs : List (Ty × Nat)} {ns ms : List Str} (ha : Says h a ws ns) (hb : Says h b vs ms) :
    h.eq a b = true ↔ ws = vs ∧ ∀ x, x ∈ ns ↔ x ∈ ms := by
  obtain ⟨l, hl, hln⟩ := ha.names
  obtain ⟨k, hk, hkn⟩ := hb.names
  unfold Heap.eq
  rw [hl, hk, ha.bounds, hb.bounds, ha.types, hb.types]
  simp only [Names.eq, Bool.and_eq_true, List.all_eq_true, decide_eq_true_eq, beq_iff_eq]
  constructor
  · rintro ⟨⟨⟨h1, h2⟩, h3⟩, h4⟩
    refine ⟨words_ext h4 (positions_sizes h3), fun x => ?_⟩
    rw [← hln, ← hkn]
    exact ⟨h1 x, h2 x⟩
  · rintro ⟨rfl, h⟩
    refine ⟨⟨⟨fun x hx => ?_, fun x hx => ?_⟩, rfl⟩, rfl⟩
    · rw [hkn, ← h, ← hln]; exact hx
    · rw [hln, h, ← hkn]; exact hx

/-- **C77** Putting metadata together with itself never comes to an end, if it describes any full token. -/
theorem C77_self_violated {h : Heap} {a : Nat} {ws : List (Ty × Nat)} {ns : List Str} (ha : Says h a ws ns) (hw : ws ≠ []) :
    UpdateHangs h a a := by
  intro fuel
  obtain ⟨l, hl, -⟩ := ha.names
  unfold Heap.update
  simp only [hl]
  rw [ha.bounds, positions_last]
  simp only
  rw [appendLoop_same]
  rw [assign_same, List.length_dropLast, positions_length]
  have := List.length_pos_iff.mpr hw
  omega

/-- **C77** … and if it describes none, it cannot be used any more: any further call fails. -/
theorem C77_self_empty_violated {h : Heap} {a : Nat} {ns : List Str} (ha : Says h a [] ns) :
    ∃ h', Updates h a a h' ∧ ∀ b, UpdateRaises h' a b .indexError := by
  obtain ⟨l, hl, -⟩ := ha.names
  have hup : ∃ h', h.update 1 a a = some (.ok (), h') ∧ h'.objs = h.objs ∧ (∃ l', h'.names (h.objs a).names = .set l') ∧
      h'.bounds (h.objs a).bounds = [] := by
    unfold Heap.update
    simp only [hl]
    rw [ha.bounds, positions_last]
    simp only [appendLoop, assign_same, positions, List.dropLast_singleton, List.getElem?_nil]
    exact ⟨_, rfl, rfl, ⟨_, assign_same _ _ _⟩, assign_same _ _ _⟩
  obtain ⟨h', e, ho, ⟨l', hn⟩, hb⟩ := hup
  refine ⟨h', ⟨1, e⟩, fun b => ⟨0, ?_⟩⟩
  unfold Heap.update
  simp only [ho, hn, hb, List.getLast?_nil]
  exact ⟨_, rfl⟩

/-- **C77** Two objects that are made from the same list of positions: putting a third one to the first one changes what the second
one says about positions, and not about types. -/
theorem C77_shared_violated {h : Heap} {a b c : Nat} {ws us vs : List (Ty × Nat)} {ns ms ks : List Str} (ha : Says h a ws ns)
    (hb : Says h b us ms) (hc : Says h c vs ks) (hac : Apart h a c) (hs : (h.objs b).bounds = (h.objs a).bounds)
    (ht : (h.objs b).types ≠ (h.objs a).types) (hv : vs ≠ []) :
    ∃ h', Updates h a c h' ∧ ∀ us' ms', ¬ Says h' b us' ms' := by
  obtain ⟨h', e, s1, -, ho, -, -, -, n3⟩ := C77_update ha hc hac
  refine ⟨h', e, fun us' ms' hs' => ?_⟩
  have h1 := hs'.bounds
  rw [ho, hs, ← ho, s1.bounds] at h1
  have h2 := hs'.types
  rw [ho, n3 _ ht, hb.types] at h2
  have h3 := hb.bounds
  rw [hs, ha.bounds] at h3
  have l1 := congrArg List.length h1
  have l2 := congrArg List.length h2
  have l3 := congrArg List.length h3
  have := List.length_pos_iff.mpr hv
  simp only [positions_length, List.length_append, List.length_map] at l1 l2 l3
  omega

theorem make_none (h : Heap) : h.make none none none = (.ok (h.next + 1 + 1 + 1),
    ((((h.newNames (.set [])).2.newBounds [0]).2.newTypes []).2.newObj ⟨h.next, h.next + 1, h.next + 1 + 1⟩).2) := by
  refine if_pos ?_
  show (assign h.bounds (h.next + 1) [0] (h.next + 1)).length = (assign h.types (h.next + 1 + 1) [] (h.next + 1 + 1)).length + 1
  rw [assign_same, assign_same]
  rfl

/-- **C77** Metadata made from nothing describes nothing. -/
theorem C77_empty (h : Heap) : ∃ o h', h.make none none none = (.ok o, h') ∧ Extends h h' ∧ h.next ≤ o ∧ Says h' o [] [] := by
  refine ⟨_, _, make_none h, (((newNames_extends _ _).trans (newBounds_extends _ _)).trans (newTypes_extends _ _)).trans (newObj_extends _ _),
    by omega, ?_, ?_, [], ?_, fun _ => Iff.rfl⟩ <;> simp [Heap.newNames, Heap.newBounds, Heap.newTypes, Heap.newObj, assign, positions]

/-- The object `o` describes one full token, with a list instead of a set. -/
structure SaysToken (h : Heap) (o : Nat) (ty : Ty) (n : Nat) (ns : List Str) : Prop where
  bounds : h.bounds (h.objs o).bounds = positions 0 [(ty, n)]
  types : h.types (h.objs o).types = [ty]
  names : h.names (h.objs o).names = .list ns

/-- **C77** The metadata of a single token: one full token.  It cannot be added to if the token records nothing that is not to be
split (a list is stored instead of a set). -/
theorem C77_token_violated (h : Heap) (ty : Ty) (n : Nat) (np : Option Nat)
    (hnp : ∀ r, np = some r → r < h.next ∧ (h.names r).elems = []) : ∃ o h', h.wrap ty n np = (.ok o, h') ∧ SaysToken h' o ty n [] ∧
    ∀ b, UpdateRaises h' o b .attributeError := by
  have hw : ∃ h', h.wrap ty n np = (.ok (h.next + 1 + 1 + 1), h') ∧ SaysToken h' (h.next + 1 + 1 + 1) ty n [] := by
    rw [Heap.wrap, make_none]
    cases np with
    | none =>
      refine ⟨_, rfl, ?_, ?_, ?_⟩ <;> simp [Heap.newNames, Heap.newBounds, Heap.newTypes, Heap.newObj, assign, positions]
    | some r =>
      obtain ⟨hr, hv⟩ := hnp r rfl
      simp only [Heap.newNames, Heap.newBounds, Heap.newTypes, Heap.newObj, assign_other _ _ (Nat.ne_of_lt hr), hv, if_true]
      refine ⟨_, rfl, ?_, ?_, ?_⟩ <;> simp [assign, positions]
  obtain ⟨h', e, hs⟩ := hw
  refine ⟨_, h', e, hs, fun b => ⟨0, h', ?_⟩⟩
  unfold Heap.update
  simp only [hs.names]

/-- **C77** Such metadata of two tokens is equal exactly if types, numbers of subtokens and the lists are … -/
theorem C77_token_equal {h : Heap} {a b : Nat} {ty ty' : Ty} {n n' : Nat} {ns ns' : List Str} (ha : SaysToken h a ty n ns)
    (hb : SaysToken h b ty' n' ns') : h.eq a b = true ↔ ty = ty' ∧ n = n' ∧ ns = ns' := by
  unfold Heap.eq
  rw [ha.names, hb.names, ha.bounds, hb.bounds, ha.types, hb.types]
  simp only [Names.eq, positions, Bool.and_eq_true, beq_iff_eq, List.cons.injEq, and_true, true_and, Nat.zero_add]
  exact ⟨fun ⟨⟨h1, h2⟩, h3⟩ => ⟨h3, h2, h1⟩, fun ⟨h1, h2, h3⟩ => ⟨⟨h3, h2⟩, h1⟩⟩

/-- **C77** … and never equal to other metadata that describes the same token. -/
theorem C77_token_equal_violated {h : Heap} {a b : Nat} {ty : Ty} {n : Nat} {ns : List Str} (ha : SaysToken h a ty n ns)
    (hb : Says h b [(ty, n)] ns) :
    h.eq a b = false ∧ h.eq b a = false := by
  obtain ⟨l, hl, -⟩ := hb.names
  unfold Heap.eq
  rw [ha.names, hl]
  exact ⟨rfl, rfl⟩

/-- **C77** Metadata of a token can be added to other metadata. -/
theorem C77_token_added {h : Heap} {a b : Nat} {ws : List (Ty × Nat)} {ns ms : List Str} {ty : Ty} {n : Nat} (ha : Says h a ws ns)
    (hb : SaysToken h b ty n ms) (hd : Apart h a b) : ∃ h', Updates h a b h' ∧ Says h' a (ws ++ [(ty, n)]) (ns ++ ms) := by
  obtain ⟨l, hl, hln⟩ := ha.names
  have hloop := appendLoop_apart (n := 0 + totalOf ws) (Ne.symm hd.bounds) (l := positions 0 [(ty, n)]) (positions 0 [(ty, n)]).length 0
    (assign h.bounds (h.objs a).bounds (positions 0 ws).dropLast)
    (by rw [assign_other _ _ (Ne.symm hd.bounds), hb.bounds]) (by omega)
  have hup : h.update ((positions 0 [(ty, n)]).length + 1) a b = some (.ok (),
      { h with
        names := assign h.names (h.objs a).names (.set (ms.foldl setAdd l))
        bounds := assign h.bounds (h.objs a).bounds (positions 0 (ws ++ [(ty, n)]))
        types := assign h.types (h.objs a).types ((ws ++ [(ty, n)]).map Prod.fst) }) := by
    unfold Heap.update
    simp only [hl]
    rw [ha.bounds, positions_last]
    simp only [hloop, ha.types, hb.types, hb.names, Names.elems, List.map_append]
    rw [assign_assign, assign_same, positions_append, List.drop_zero]
    exact congrArg (fun z => some (Except.ok (), { h with
        names := assign h.names (h.objs a).names (.set (ms.foldl setAdd l))
        bounds := assign h.bounds (h.objs a).bounds ((positions 0 ws).dropLast ++ z)
        types := assign h.types (h.objs a).types (ws.map Prod.fst ++ [ty]) })) (positions_shift (0 + totalOf ws) 0 [(ty, n)]).symm
  exact ⟨_, ⟨_, hup⟩, assign_same _ _ _, assign_same _ _ _, _, assign_same _ _ _, fun x => by rw [mem_foldl_setAdd, hln, List.mem_append]⟩

/-- … with a set that is not empty it can, as long as nobody else holds the set. -/
theorem C77_token {h : Heap} (ty : Ty) (n : Nat) {r : Nat} {x : Str} {l : List Str} (hr : r < h.next) (hv : h.names r = .set (x :: l)) :
    ∃ o h', h.wrap ty n (some r) = (.ok o, h') ∧ Says h' o [(ty, n)] (x :: l) ∧ (h'.objs o).names = r := by
  have hne : r ≠ h.next := Nat.ne_of_lt hr
  have hw : ∃ h', h.wrap ty n (some r) = (.ok (h.next + 1 + 1 + 1), h') ∧ (h'.objs (h.next + 1 + 1 + 1)).names = r ∧
      h'.bounds (h'.objs (h.next + 1 + 1 + 1)).bounds = positions 0 [(ty, n)] ∧
      h'.types (h'.objs (h.next + 1 + 1 + 1)).types = [ty] ∧ h'.names (h'.objs (h.next + 1 + 1 + 1)).names = .set (x :: l) := by
    rw [Heap.wrap, make_none]
    simp only [Heap.newNames, Heap.newBounds, Heap.newTypes, Heap.newObj, assign_other _ _ hne, hv, Names.elems,
      List.cons_ne_nil, if_false]
    refine ⟨_, rfl, ?_, ?_, ?_, ?_⟩ <;> simp [assign, positions, hne, hv]
  obtain ⟨h', e, hn, hb, ht, hl⟩ := hw
  exact ⟨_, h', e, ⟨hb, ht, _, hl, fun _ => Iff.rfl⟩, hn⟩

/-- **C77** A set and lists that do not fit are refused. -/
theorem C77_misfit (h : Heap) (n b t : Nat) (hn : (h.names n).elems ≠ []) (hb : h.bounds b ≠ []) (ht : h.types t ≠ [])
    (hl : (h.bounds b).length ≠ (h.types t).length + 1) : h.make (some n) (some b) (some t) = (.error .assertionError, h) := by
  simp only [Heap.make, namesOr, boundsOr, typesOr, if_neg hn, if_neg hb, if_neg ht, if_neg hl]

/-- **C77** A set and lists that fit and are not empty are held as they are, not copied (see `C77_shared_violated`). -/
theorem C77_kept (h : Heap) (n b t : Nat) (hn : (h.names n).elems ≠ []) (hb : h.bounds b ≠ []) (ht : h.types t ≠ [])
    (hl : (h.bounds b).length = (h.types t).length + 1) : ∃ o h', h.make (some n) (some b) (some t) = (.ok o, h') ∧
      h'.objs o = ⟨n, b, t⟩ ∧ h'.names = h.names ∧ h'.bounds = h.bounds ∧ h'.types = h.types := by
  refine ⟨h.next, (h.newObj ⟨n, b, t⟩).2, ?_, assign_same _ _ _, rfl, rfl, rfl⟩
  simp only [Heap.make, namesOr, boundsOr, typesOr, if_neg hn, if_neg hb, if_neg ht, if_pos hl]
  rfl

/-- **C77** An empty set and empty lists are not held: the new object has a set and lists of its own. -/
theorem C77_not_kept (h : Heap) (n b t : Nat) (hn : (h.names n).elems = [])
    (hb : h.bounds b = []) (ht : h.types t = []) : ∃ o h', h.make (some n) (some b) (some t) = (.ok o, h') ∧ Says h' o [] [] ∧
      h.next ≤ (h'.objs o).names ∧ h.next ≤ (h'.objs o).bounds ∧ h.next ≤ (h'.objs o).types := by
  have e : h.make (some n) (some b) (some t) = h.make none none none := by
    have e1 : namesOr h (some n) = namesOr h none := if_pos hn
    have e2 : boundsOr (namesOr h none).2 (some b) = boundsOr (namesOr h none).2 none := if_pos hb
    have e3 : typesOr (boundsOr (namesOr h none).2 none).2 (some t) = typesOr (boundsOr (namesOr h none).2 none).2 none := if_pos ht
    simp only [Heap.make, e1, e2, e3]
  rw [e, make_none]
  refine ⟨_, _, rfl, ⟨?_, ?_, [], ?_, fun _ => Iff.rfl⟩, ?_⟩ <;>
    simp [Heap.newNames, Heap.newBounds, Heap.newTypes, Heap.newObj, assign, positions] <;> omega

/-- **C77** The metadata of a text in two parts is that of the first part with that of the second one added (the value of `update`
on metadata that holds nothing in common: `C77_value`). -/
theorem C77_parts (env : Env) (hu : env.ucd.Laws) (load : Str → Except PyErr BpeData) (call : ApiCall)
    (hl : ∀ i, apiBpeCodesId call = some i → i ≠ [] ∧ ∃ d, load i = .ok d ∧ CacheOk d)
    (a b : List (TokType × Str)) (ty : TokType) (eof : Bool) :
    ∃ x y m m' m'', textApi env load call (a ++ [(ty, "\n".toList)]) false = .ok (x, m) ∧
      textApi env load call (b ++ [(ty, "\n".toList)]) eof = .ok (y, m') ∧ m.update m' = .ok m'' ∧
      textApi env load call (a ++ b ++ [(ty, "\n".toList)]) eof = .ok (x ++ y, m'') := by
  obtain ⟨m, ps, us, h1, h2, h3, h4⟩ := reference_newline env hu load call hl a ty false
  obtain ⟨m', qs, vs, g1, g2, g3, g4⟩ := reference_newline env hu load call hl b ty eof
  obtain ⟨n, rs, ws, k1, k2, k3, k4⟩ := reference_newline env hu load call hl (a ++ b) ty eof
  obtain rfl := modeOf_unique h1 g1
  obtain rfl := modeOf_unique h1 k1
  obtain rfl := describedAnyAll_unique hu k2 (describedAnyAll_append h2 g2)
  have h3' : SpelledAnyAll env.ucd m (optsOf call).noSpaces ps us := by simpa [eofPieces] using h3
  rw [List.append_assoc] at k3
  obtain rfl := spelledAnyAll_unique hu k3 (spelledAnyAll_append h3' g3)
  refine ⟨_, _, _, _, (flatForm (us ++ vs)).2, h4, g4, flatForm_update us vs, ?_⟩
  rw [k4]
  unfold outputOf
  simp only [List.flatMap_append]

/-- The object `o` holds the metadata `md`. -/
structure HoldsMeta (h : Heap) (o : Nat) (md : Meta) : Prop where
  names : h.names (h.objs o).names = .set md.nonproc
  bounds : h.bounds (h.objs o).bounds = md.bounds
  types : h.types (h.objs o).types = md.types

/-- **C77** `update` on objects that hold nothing in common is `update` of the values. -/
theorem C77_value {h : Heap} {a b : Nat} {x y z : Meta} (ha : HoldsMeta h a x) (hb : HoldsMeta h b y) (hd : Apart h a b)
    (hz : x.update y = .ok z) : ∃ h', Updates h a b h' ∧ HoldsMeta h' a z ∧ HoldsMeta h' b y := by
  unfold Meta.update at hz
  split at hz
  · cases hz
  · next n hn =>
    have hloop := appendLoop_apart (n := n) (Ne.symm hd.bounds) (l := y.bounds) y.bounds.length 0
      (assign h.bounds (h.objs a).bounds x.bounds.dropLast)
      (by rw [assign_other _ _ (Ne.symm hd.bounds), hb.bounds]) (by omega)
    have hup : h.update (y.bounds.length + 1) a b = some (.ok (),
        { h with
          names := assign h.names (h.objs a).names (.set (y.nonproc.foldl setAdd x.nonproc))
          bounds := assign h.bounds (h.objs a).bounds (x.bounds.dropLast ++ y.bounds.map (n + ·))
          types := assign h.types (h.objs a).types (x.types ++ y.types) }) := by
      unfold Heap.update
      simp only [ha.names, ha.bounds, hn, hloop, ha.types, hb.types, hb.names, Names.elems]
      rw [assign_assign, assign_same, List.drop_zero]
    obtain rfl := Except.ok.inj hz
    refine ⟨_, ⟨_, hup⟩, ⟨assign_same _ _ _, assign_same _ _ _, assign_same _ _ _⟩, ⟨?_, ?_, ?_⟩⟩
    · exact (assign_other _ _ (Ne.symm hd.names)).trans hb.names
    · exact (assign_other _ _ (Ne.symm hd.bounds)).trans hb.bounds
    · exact (assign_other _ _ (Ne.symm hd.types)).trans hb.types

/-! ## Examples -/

/-- No objects yet. -/
def noObjs : Heap := ⟨fun _ => .set [], fun _ => [], fun _ => [], fun _ => ⟨0, 0, 0⟩, 0⟩

/-- The second example in the documentation of `update` (metadata.py 43-44). -/
def docHeap : Heap :=
  (create (create noObjs [(.number, 2)] ["<comment>".toList]).2 [(.number, 1), (.number, 1), (.keyWord, 1)] ["<comment>".toList]).2

example : (create noObjs [(.number, 2)] ["<comment>".toList]).1.toOption = some 3 ∧
    (create (create noObjs [(.number, 2)] ["<comment>".toList]).2 [(.number, 1), (.number, 1), (.keyWord, 1)]
      ["<comment>".toList]).1.toOption = some 7 ∧
    (docHeap.update 9 3 7).map (fun x => (x.2.bounds (x.2.objs 3).bounds, x.2.types (x.2.objs 3).types, x.2.names (x.2.objs 3).names)) =
      some ([0, 2, 3, 4, 5], [.number, .number, .number, .keyWord], .set ["<comment>".toList]) ∧
    docHeap.eq 3 7 = false ∧ docHeap.eq 7 7 = true := by
  decide +kernel

example : (docHeap.update 50 3 3).isNone = true := by decide +kernel

/-- Two objects that are made from one list of positions (address 2), and a third one. -/
def sharedHeap : Heap :=
  let h := (((noObjs.newNames (.set ["a".toList])).2.newNames (.set ["b".toList])).2.newBounds [0, 2]).2
  let h := ((h.newTypes [.number]).2.newTypes [.keyWord]).2
  let h := ((h.make (some 0) (some 2) (some 3)).2.make (some 1) (some 2) (some 4)).2
  (create h [(.tab, 1)] ["c".toList]).2

example : sharedHeap.objs 5 = ⟨0, 2, 3⟩ ∧ sharedHeap.objs 6 = ⟨1, 2, 4⟩ ∧ sharedHeap.objs 10 = ⟨7, 8, 9⟩ ∧
    (sharedHeap.update 9 5 10).map (fun x => (x.2.bounds (x.2.objs 6).bounds, x.2.types (x.2.objs 6).types)) =
      some ([0, 2, 3], [.keyWord]) := by
  decide +kernel

/-- A history: two objects are made, the second one is added to the first one, types are changed. -/
example : ∃ h sheet o, MetaHistory h sheet ∧ sheet o = some ([(.stringLiteral, 2), (.stringLiteral, 1)], ["a".toList]) := by
  obtain ⟨o, h1, e1, s1, x1, k1, l1, -⟩ := C77_create noObjs [(.number, 2)] []
  obtain ⟨p, h2, e2, s2, x2, k2, l2, -⟩ := C77_create h1 [(.keyWord, 1)] ["a".toList]
  have m2 := MetaHistory.create (.create (.start noObjs) e1) e2
  have hop : o ≠ p := by omega
  obtain ⟨h3, e3⟩ := C77_returns m2 (a := o) (b := p) (by rw [assign_other _ _ hop]; exact assign_same _ _ _) (assign_same _ _ _) hop
  have m3 := MetaHistory.update m2 (by rw [assign_other _ _ hop]; exact assign_same _ _ _) (assign_same _ _ _) hop e3
  have m4 := MetaHistory.setAllTypes .stringLiteral m3 (assign_same _ _ _)
  exact ⟨_, _, o, m4, assign_same _ _ _⟩

end Verif.Props
