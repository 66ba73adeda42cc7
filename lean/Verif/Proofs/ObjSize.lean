import Verif.Spec.ObjSize
/-!
# Facts about the memory taken by an object
-/
namespace Verif.PyObj
open Verif Spec

/-- What looking at some objects leaves: `new` are the objects seen for the first time. -/
structure Seen (h : Nat → PyObj) (roots : List Nat) (seen : List Nat) (n : Nat) (new : List Nat) : Prop where
  nodup : new.Nodup
  fresh : ∀ y ∈ new, y ∉ seen
  given : ∀ y ∈ roots, y ∈ new ++ seen
  closed : ∀ y ∈ new, ∀ z, Refers h y z → z ∈ new ++ seen
  reach : ∀ y ∈ new, ∃ x ∈ roots, Star (Refers h) x y
  size : n = (new.map fun y => (h y).own).sum

theorem Seen.none (h : Nat → PyObj) (seen : List Nat) : Seen h [] seen 0 [] where
  nodup := List.nodup_nil
  fresh := by simp
  given := by simp
  closed := by simp
  reach := by simp
  size := rfl

theorem Seen.append {h : Nat → PyObj} {r1 r2 seen n1 n2 new1 new2} (h1 : Seen h r1 seen n1 new1)
    (h2 : Seen h r2 (new1 ++ seen) n2 new2) : Seen h (r1 ++ r2) seen (n1 + n2) (new2 ++ new1) where
  nodup := by
    rw [List.nodup_append]
    refine ⟨h2.nodup, h1.nodup, fun a ha b hb e => ?_⟩
    subst e
    exact h2.fresh a ha (List.mem_append.mpr (.inl hb))
  fresh y hy := by
    rcases List.mem_append.mp hy with hy | hy
    · exact fun hs => h2.fresh y hy (List.mem_append.mpr (.inr hs))
    · exact h1.fresh y hy
  given y hy := by
    rw [List.append_assoc]
    rcases List.mem_append.mp hy with hy | hy
    · exact List.mem_append.mpr (.inr (h1.given y hy))
    · exact h2.given y hy
  closed y hy z hz := by
    rw [List.append_assoc]
    rcases List.mem_append.mp hy with hy | hy
    · exact h2.closed y hy z hz
    · exact List.mem_append.mpr (.inr (h1.closed y hy z hz))
  reach y hy := by
    rcases List.mem_append.mp hy with hy | hy
    · obtain ⟨x, hx, hr⟩ := h2.reach y hy
      exact ⟨x, by simp [hx], hr⟩
    · obtain ⟨x, hx, hr⟩ := h1.reach y hy
      exact ⟨x, by simp [hx], hr⟩
  size := by rw [h1.size, h2.size, List.map_append, List.sum_append, Nat.add_comm]

theorem bind_ok {α β : Type} {a : Except PyErr α} {f : α → Except PyErr β} {b : β} (h : (a >>= f) = .ok b) :
    ∃ x, a = .ok x ∧ f x = .ok b := by
  cases a with
  | error e => cases h
  | ok x => exact ⟨x, rfl, h⟩

theorem bind_error {α β : Type} {a : Except PyErr α} {f : α → Except PyErr β} {e : PyErr} (h : (a >>= f) = .error e) :
    a = .error e ∨ ∃ x, a = .ok x ∧ f x = .error e := by
  cases a with
  | error e' => exact .inl (by cases h; rfl)
  | ok x => exact .inr ⟨x, rfl, h⟩

/-- A function that looks at single objects as it should. -/
def Looks (h : Nat → PyObj) (f : Nat → List Nat → Except PyErr (Nat × List Nat)) : Prop :=
  ∀ x seen n seen', f x seen = .ok (n, seen') → ∃ new, seen' = new ++ seen ∧ Seen h [x] seen n new

theorem sumMembers_seen {h : Nat → PyObj} {f} (hf : Looks h f) {l seen n seen'} (hs : sumMembers f l seen = .ok (n, seen')) :
    ∃ new, seen' = new ++ seen ∧ Seen h l seen n new := by
  induction l generalizing seen n with
  | nil => cases hs; exact ⟨[], rfl, .none h _⟩
  | cons x t ih =>
    obtain ⟨⟨a, s1⟩, h1, hs⟩ := bind_ok hs
    obtain ⟨⟨b, s2⟩, h2, hs⟩ := bind_ok hs
    cases hs
    obtain ⟨new1, rfl, g1⟩ := hf _ _ _ _ h1
    obtain ⟨new2, rfl, g2⟩ := ih h2
    exact ⟨new2 ++ new1, by rw [List.append_assoc], g1.append g2⟩

theorem sumItems_seen {h : Nat → PyObj} {f} (hf : Looks h f) {l seen n seen'} (hs : sumItems f l seen = .ok (n, seen')) :
    ∃ new, seen' = new ++ seen ∧ Seen h (l.map fun e => [e.1, e.2]).flatten seen n new := by
  induction l generalizing seen n with
  | nil => cases hs; exact ⟨[], rfl, .none h _⟩
  | cons e t ih =>
    obtain ⟨k, v⟩ := e
    obtain ⟨⟨a, s1⟩, h1, hs⟩ := bind_ok hs
    obtain ⟨⟨b, s2⟩, h2, hs⟩ := bind_ok hs
    obtain ⟨⟨c, s3⟩, h3, hs⟩ := bind_ok hs
    cases hs
    obtain ⟨new1, rfl, g1⟩ := hf _ _ _ _ h1
    obtain ⟨new2, rfl, g2⟩ := hf _ _ _ _ h2
    obtain ⟨new3, rfl, g3⟩ := ih h3
    refine ⟨new3 ++ (new2 ++ new1), by simp only [List.append_assoc], ?_⟩
    have := (g1.append g2).append (by rw [List.append_assoc]; exact g3)
    exact this

/-- The objects that an object refers to, in the order in which they are looked at. -/
def insideOf (o : PyObj) : List Nat :=
  match o.inside with
  | .nothing => []
  | .members l => l
  | .items l => (l.map fun e => [e.1, e.2]).flatten
  | .other => []

def refs (o : PyObj) : List Nat := o.insideOf ++ o.vars.toList ++ o.slots.filterMap id

theorem mem_refs {h : Nat → PyObj} {x y : Nat} : y ∈ (h x).refs ↔ Refers h x y := by
  unfold refs insideOf
  rw [List.mem_append, List.mem_append]
  constructor
  · rintro ((hy | hy) | hy)
    · split at hy
      · cases hy
      · rename_i l hl; exact .member hl hy
      · rename_i l hl
        obtain ⟨z, hz, hy⟩ := List.mem_flatten.mp hy
        obtain ⟨⟨k, v⟩, he, rfl⟩ := List.mem_map.mp hz
        rcases List.mem_cons.mp hy with rfl | hy
        · exact .key hl he
        · rcases List.mem_cons.mp hy with rfl | hy
          · exact .value hl he
          · cases hy
      · cases hy
    · exact .vars (by simpa using hy)
    · exact .slot (by simpa using hy)
  · intro hr
    cases hr with
    | member hl hy => rw [hl]; exact .inl (.inl hy)
    | key hl he =>
      rw [hl]
      exact .inl (.inl (List.mem_flatten.mpr ⟨_, List.mem_map_of_mem he, by simp⟩))
    | value hl he =>
      rw [hl]
      exact .inl (.inl (List.mem_flatten.mpr ⟨_, List.mem_map_of_mem he, by simp⟩))
    | vars hy => exact .inl (.inr (by simp [hy]))
    | slot hy => exact .inr (by simpa using hy)

theorem star_head {r : Nat → Nat → Prop} {a b c : Nat} (h : r a b) (hs : Star r b c) : Star r a c := by
  induction hs with
  | refl => exact .tail .refl h
  | tail _ h2 ih => exact .tail ih h2

theorem inner_looks (h : Nat → PyObj) (d : Nat) : Looks h (inner h d) := by
  induction d with
  | zero => intro x seen n seen' hs; cases hs
  | succ d ih =>
    intro x seen n seen' hs
    unfold inner at hs
    by_cases hx : x ∈ seen
    · rw [if_pos hx] at hs
      cases hs
      exact ⟨[], rfl, List.nodup_nil, by simp, by simpa using hx, by simp, by simp, rfl⟩
    · rw [if_neg hx] at hs
      obtain ⟨⟨a, s1⟩, h1, hs⟩ := bind_ok hs
      obtain ⟨⟨b, s2⟩, h2, hs⟩ := bind_ok hs
      obtain ⟨⟨c, s3⟩, h3, hs⟩ := bind_ok hs
      cases hs
      have g1 : ∃ new, s1 = new ++ x :: seen ∧ Seen h (h x).insideOf (x :: seen) a new := by
        unfold insideOf
        unfold sizeInside at h1
        split at h1
        · rename_i hi; rw [hi]; cases h1; exact ⟨[], rfl, .none h _⟩
        · rename_i l hi; rw [hi]; exact sumMembers_seen ih h1
        · rename_i l hi; rw [hi]; exact sumItems_seen ih h1
        · rename_i hi; rw [hi]; cases h1; exact ⟨[], rfl, .none h _⟩
      obtain ⟨new1, rfl, g1⟩ := g1
      have g2 : ∃ new, s2 = new ++ (new1 ++ x :: seen) ∧ Seen h (h x).vars.toList (new1 ++ x :: seen) b new := by
        unfold sizeVars at h2
        split at h2
        · rename_i hi; rw [hi]; cases h2; exact ⟨[], rfl, .none h _⟩
        · rename_i l hi; rw [hi]; exact ih _ _ _ _ h2
      obtain ⟨new2, rfl, g2⟩ := g2
      obtain ⟨new3, rfl, g3⟩ := sumMembers_seen ih h3
      have g := (g1.append g2).append (by rw [List.append_assoc]; exact g3)
      refine ⟨new3 ++ (new2 ++ new1) ++ [x], by simp only [List.append_assoc, List.cons_append, List.nil_append], ?_⟩
      have hin : ∀ y, y ∈ new3 ++ (new2 ++ new1) ++ x :: seen ↔ y ∈ new3 ++ (new2 ++ new1) ++ [x] ++ seen := by
        intro y; rw [List.append_assoc _ [x]]; rfl
      refine ⟨?_, ?_, ?_, ?_, ?_, ?_⟩
      · rw [List.nodup_append]
        refine ⟨g.nodup, by simp, fun u hu v hv e => ?_⟩
        rw [List.mem_singleton] at hv
        subst hv; subst e
        exact g.fresh u hu (by simp)
      · intro y hy
        rcases List.mem_append.mp hy with hy | hy
        · exact fun hs => g.fresh y hy (List.mem_cons_of_mem _ hs)
        · rw [List.mem_singleton] at hy; subst hy; exact hx
      · intro y hy
        rw [List.mem_singleton] at hy
        subst hy
        simp
      · intro y hy z hz
        rw [← hin]
        rcases List.mem_append.mp hy with hy | hy
        · exact g.closed y hy z hz
        · rw [List.mem_singleton] at hy
          subst hy
          exact g.given z (mem_refs.mpr hz)
      · intro y hy
        refine ⟨x, by simp, ?_⟩
        rcases List.mem_append.mp hy with hy | hy
        · obtain ⟨z, hz, hr⟩ := g.reach y hy
          exact star_head (mem_refs.mp hz) hr
        · rw [List.mem_singleton] at hy; subst hy; exact .refl
      · rw [List.map_append, List.sum_append, ← g.size]
        simp
        omega

theorem getsize_memory {h : Nat → PyObj} {limit x n : Nat} (hs : getsize h limit x = .ok n) : IsMemoryOf h x n := by
  obtain ⟨⟨m, s⟩, h1, hs⟩ := bind_ok hs
  cases hs
  obtain ⟨new, -, g⟩ := inner_looks h limit _ _ _ _ h1
  refine ⟨new, g.nodup, fun y => ⟨fun hy => ?_, fun hy => ?_⟩, g.size⟩
  · obtain ⟨z, hz, hr⟩ := g.reach y hy
    rw [List.mem_singleton] at hz
    exact hz ▸ hr
  · induction hy with
    | refl => simpa using g.given x (by simp)
    | tail _ hr ih => simpa using g.closed _ ih _ hr

/-! ### When it fails -/

/-- Objects that refer to each other in turn, all of them but the last one different from each other and not seen before. -/
structure Deep (h : Nat → PyObj) (seen : List Nat) (x : Nat) (d : Nat) (p : List Nat) : Prop where
  head : p.head? = some x
  length : p.length = d + 1
  chain : Linked h p
  nodup : p.dropLast.Nodup
  fresh : ∀ y ∈ p.dropLast, y ∉ seen

/-- If a function fails on an object, there is a long chain from it. -/
def Fails (h : Nat → PyObj) (d : Nat) (f : Nat → List Nat → Except PyErr (Nat × List Nat)) : Prop :=
  ∀ x seen e, f x seen = .error e → e = .runtimeError ∧ ∃ p, Deep h seen x d p

theorem Deep.mono {h : Nat → PyObj} {seen new x d p} (hp : Deep h (new ++ seen) x d p) : Deep h seen x d p :=
  ⟨hp.head, hp.length, hp.chain, hp.nodup, fun y hy hs => hp.fresh y hy (List.mem_append.mpr (.inr hs))⟩

theorem sumMembers_fails {h : Nat → PyObj} {d f} (hl : Looks h f) (hf : Fails h d f) {l seen e}
    (hs : sumMembers f l seen = .error e) : e = .runtimeError ∧ ∃ x ∈ l, ∃ p, Deep h seen x d p := by
  induction l generalizing seen with
  | nil => cases hs
  | cons x t ih =>
    rcases bind_error hs with h1 | ⟨⟨a, s1⟩, h1, hs⟩
    · obtain ⟨he, p, hp⟩ := hf _ _ _ h1
      exact ⟨he, x, by simp, p, hp⟩
    · rcases bind_error hs with h2 | ⟨⟨b, s2⟩, h2, hs⟩
      · obtain ⟨new, rfl, -⟩ := hl _ _ _ _ h1
        obtain ⟨he, y, hy, p, hp⟩ := ih h2
        exact ⟨he, y, by simp [hy], p, hp.mono⟩
      · cases hs

theorem sumItems_fails {h : Nat → PyObj} {d f} (hl : Looks h f) (hf : Fails h d f) {l seen e}
    (hs : sumItems f l seen = .error e) :
    e = .runtimeError ∧ ∃ x ∈ (l.map fun e => [e.1, e.2]).flatten, ∃ p, Deep h seen x d p := by
  induction l generalizing seen with
  | nil => cases hs
  | cons q t ih =>
    obtain ⟨k, v⟩ := q
    rcases bind_error hs with h1 | ⟨⟨a, s1⟩, h1, hs⟩
    · obtain ⟨he, p, hp⟩ := hf _ _ _ h1
      exact ⟨he, k, by simp, p, hp⟩
    · obtain ⟨new, rfl, -⟩ := hl _ _ _ _ h1
      rcases bind_error hs with h2 | ⟨⟨b, s2⟩, h2, hs⟩
      · obtain ⟨he, p, hp⟩ := hf _ _ _ h2
        exact ⟨he, v, by simp, p, hp.mono⟩
      · obtain ⟨new2, rfl, -⟩ := hl _ _ _ _ h2
        rcases bind_error hs with h3 | ⟨⟨c, s3⟩, h3, hs⟩
        · obtain ⟨he, y, hy, p, hp⟩ := ih h3
          refine ⟨he, y, ?_, p, hp.mono.mono⟩
          rw [List.map_cons, List.flatten_cons]
          exact List.mem_append.mpr (.inr hy)
        · cases hs

theorem Deep.cons {h : Nat → PyObj} {seen x y d p} (hx : x ∉ seen) (hr : Refers h x y) (hp : Deep h (x :: seen) y d p) :
    Deep h seen x (d + 1) (x :: p) := by
  obtain ⟨z, t, rfl⟩ : ∃ z t, p = z :: t := by
    cases p with
    | nil => cases hp.head
    | cons z t => exact ⟨z, t, rfl⟩
  have hz : z = y := Option.some.inj hp.head
  subst hz
  refine ⟨rfl, by rw [List.length_cons, hp.length], ⟨hr, hp.chain⟩, ?_, ?_⟩
  · rw [List.dropLast_cons_cons, List.nodup_cons]
    exact ⟨fun hm => hp.fresh x hm (by simp), hp.nodup⟩
  · intro w hw
    rw [List.dropLast_cons_cons] at hw
    rcases List.mem_cons.mp hw with rfl | hw
    · exact hx
    · exact fun hs => hp.fresh w hw (List.mem_cons_of_mem _ hs)

theorem inner_fails (h : Nat → PyObj) (d : Nat) : Fails h d (inner h d) := by
  induction d with
  | zero =>
    intro x seen e hs
    cases hs
    exact ⟨rfl, [x], rfl, rfl, trivial, by simp, by simp⟩
  | succ d ih =>
    intro x seen e hs
    unfold inner at hs
    by_cases hx : x ∈ seen
    · rw [if_pos hx] at hs; cases hs
    · rw [if_neg hx] at hs
      have key : e = .runtimeError ∧ ∃ y, Refers h x y ∧ ∃ p, Deep h (x :: seen) y d p := by
        rcases bind_error hs with h1 | ⟨⟨a, s1⟩, h1, hs⟩
        · unfold sizeInside at h1
          split at h1
          · cases h1
          · rename_i l hi
            obtain ⟨he, y, hy, p, hp⟩ := sumMembers_fails (inner_looks h d) ih h1
            exact ⟨he, y, .member hi hy, p, hp⟩
          · rename_i l hi
            obtain ⟨he, y, hy, p, hp⟩ := sumItems_fails (inner_looks h d) ih h1
            exact ⟨he, y, mem_refs.mp (by unfold refs insideOf; rw [hi]; simp only [List.mem_append]; exact .inl (.inl hy)), p, hp⟩
          · cases h1
        · have g1 : ∃ new, s1 = new ++ x :: seen := by
            unfold sizeInside at h1
            split at h1
            · cases h1; exact ⟨[], rfl⟩
            · obtain ⟨new, hn, -⟩ := sumMembers_seen (inner_looks h d) h1; exact ⟨new, hn⟩
            · obtain ⟨new, hn, -⟩ := sumItems_seen (inner_looks h d) h1; exact ⟨new, hn⟩
            · cases h1; exact ⟨[], rfl⟩
          obtain ⟨new1, rfl⟩ := g1
          rcases bind_error hs with h2 | ⟨⟨b, s2⟩, h2, hs⟩
          · unfold sizeVars at h2
            split at h2
            · cases h2
            · rename_i y hi
              obtain ⟨he, p, hp⟩ := ih _ _ _ h2
              exact ⟨he, y, .vars hi, p, hp.mono⟩
          · have g2 : ∃ new, s2 = new ++ (new1 ++ x :: seen) := by
              unfold sizeVars at h2
              split at h2
              · cases h2; exact ⟨[], rfl⟩
              · obtain ⟨new, hn, -⟩ := inner_looks h d _ _ _ _ h2; exact ⟨new, hn⟩
            obtain ⟨new2, rfl⟩ := g2
            rcases bind_error hs with h3 | ⟨⟨c, s3⟩, h3, hs⟩
            · obtain ⟨he, y, hy, p, hp⟩ := sumMembers_fails (inner_looks h d) ih h3
              exact ⟨he, y, .slot (by simpa using hy), p, hp.mono.mono⟩
            · cases hs
      obtain ⟨he, y, hr, p, hp⟩ := key
      exact ⟨he, x :: p, hp.cons hx hr⟩

theorem getsize_fails {h : Nat → PyObj} {limit x : Nat} {e : PyErr} (hs : getsize h limit x = .error e) :
    e = .runtimeError ∧ ∃ p, Deep h [] x limit p := by
  rcases bind_error hs with h1 | ⟨⟨n, s⟩, -, hs⟩
  · exact inner_fails h limit _ _ _ h1
  · cases hs

theorem chain_reach {h : Nat → PyObj} {x : Nat} {p : List Nat} (hh : p.head? = some x) (hc : Linked h p) :
    ∀ y ∈ p, Star (Refers h) x y := by
  induction p generalizing x with
  | nil => cases hh
  | cons z t ih =>
    have hz : z = x := Option.some.inj hh
    subst hz
    intro y hy
    rcases List.mem_cons.mp hy with rfl | hy
    · exact .refl
    · cases t with
      | nil => cases hy
      | cons w t =>
        exact star_head hc.1 (ih rfl hc.2 y hy)

end Verif.PyObj
