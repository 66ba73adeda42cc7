import Verif.Spec.Walk
import Verif.Proofs.FileSelect
/-!
# Facts about walking through directories
-/
namespace Verif.Tree
open Verif Spec

/-- The directories below one name, for any walk. -/
def nodeDirs (fs : Links) (follow : Bool) (links : Nat) (path : List Bytes) (n : Node) : List Visit :=
  match n with
  | .file _ => []
  | .dir _ es => walkDirs fs follow links path es
  | .link i => if follow then match links, fs i with
      | k + 1, some (.dir _ es) => walkDirs fs follow k path es
      | _, _ => []
    else []

/-- What `walkDirs` does with links. -/
def thr (fs : Links) (follow : Bool) : Nat → List Bytes → Node → List Visit
  | 0 => fun _ _ => []
  | k + 1 => fun p n => if follow then match n.asDir fs (k + 1) with
        | some (_, es', _) => walkDirs fs follow k p es'
        | none => []
      else []

theorem walkDirs_eq (fs : Links) (follow : Bool) (links : Nat) (path : List Bytes) (es : Entries) :
    walkDirs fs follow links path es = ⟨path, es, links⟩ :: below (thr fs follow links) links path es := by
  cases links <;> rw [walkDirs] <;> rfl

theorem belowNode_eq (fs : Links) (follow : Bool) (links : Nat) (path : List Bytes) (n : Node) :
    belowNode (thr fs follow links) links path n = nodeDirs fs follow links path n := by
  cases n with
  | file t => rw [belowNode]; rfl
  | dir t es => rw [belowNode]; exact (walkDirs_eq fs follow links path es).symm
  | link i =>
    rw [belowNode]
    cases links with
    | zero => cases follow <;> rfl
    | succ k =>
      cases follow with
      | false => rfl
      | true =>
        unfold thr nodeDirs Node.asDir
        rcases hfa : fs i with _ | (_ | _ | _) <;> simp only [hfa] <;> rfl

theorem below_eq (fs : Links) (follow : Bool) (links : Nat) (path : List Bytes) :
    ∀ es : Entries, below (thr fs follow links) links path es = es.toList.flatMap fun e => nodeDirs fs follow links (path ++ [e.1]) e.2
  | .nil => by rw [below, Entries.toList]; rfl
  | .cons name n r => by
    rw [below, Entries.toList, belowNode_eq, below_eq fs follow links path r, List.flatMap_cons]

theorem walkDirs_flatMap (fs : Links) (follow : Bool) (links : Nat) (path : List Bytes) (es : Entries) :
    walkDirs fs follow links path es = ⟨path, es, links⟩ :: es.toList.flatMap fun e => nodeDirs fs follow links (path ++ [e.1]) e.2 := by
  rw [walkDirs_eq, below_eq]

theorem sizeOf_sub {es : Entries} {name : Bytes} {n : Node} (h : (name, n) ∈ es.toList) : sizeOf n < sizeOf es := by
  match es with
  | .nil => rw [Entries.toList] at h; cases h
  | .cons name' n' r =>
    rw [Entries.toList] at h
    rcases List.mem_cons.mp h with h | h
    · cases h
      simp only [Entries.cons.sizeOf_spec]
      omega
    · have := sizeOf_sub h
      simp only [Entries.cons.sizeOf_spec]
      omega

/-- The directories of a walk that follows links. -/
theorem mem_walkDirs (fs : Links) (links : Nat) (path : List Bytes) (es : Entries) (v : Visit) :
    v ∈ walkDirs fs true links path es ↔ ∃ p k last, DirAt fs es p k last ∧ k ≤ links ∧ v = ⟨path ++ p, last, links - k⟩ := by
  constructor
  · intro h
    rw [walkDirs_flatMap] at h
    rcases List.mem_cons.mp h with h | h
    · exact ⟨[], 0, es, .here es, Nat.zero_le _, by rw [h, List.append_nil, Nat.sub_zero]⟩
    · obtain ⟨⟨name, n⟩, hm, hv⟩ := List.mem_flatMap.mp h
      have hs := sizeOf_sub hm
      match n, hm, hv, hs with
      | .file _, _, hv, _ => cases hv
      | .dir t sub, hm, hv, hs =>
        have : sizeOf sub < sizeOf es := by
          simp only [Node.dir.sizeOf_spec] at hs
          omega
        obtain ⟨p, k, last, hd, hk, rfl⟩ := (mem_walkDirs fs links (path ++ [name]) sub v).mp hv
        exact ⟨name :: p, k, last, .down hm hd, hk, by simp⟩
      | .link i, hm, hv, _ =>
        match links, hv with
        | 0, hv => cases hv
        | l + 1, hv =>
          rcases hfa : fs i with _ | (_ | ⟨t, sub⟩ | _)
          all_goals simp only [nodeDirs, hfa, if_true] at hv
          any_goals (cases hv; done)
          obtain ⟨p, k, last, hd, hk, rfl⟩ := (mem_walkDirs fs l (path ++ [name]) sub v).mp hv
          exact ⟨name :: p, k + 1, last, .through hm hfa hd, by omega, by simp⟩
  · rintro ⟨p, k, last, hd, hk, rfl⟩
    induction hd generalizing path links with
    | here es => rw [walkDirs_flatMap]; simp
    | @down es name t sub p k last hm _ ih =>
      rw [walkDirs_flatMap]
      refine List.mem_cons_of_mem _ (List.mem_flatMap.mpr ⟨_, hm, ?_⟩)
      have := ih links (path ++ [name]) hk
      rwa [List.append_assoc] at this
    | @through es name i t sub p k last hm hi _ ih =>
      rw [walkDirs_flatMap]
      refine List.mem_cons_of_mem _ (List.mem_flatMap.mpr ⟨_, hm, ?_⟩)
      obtain ⟨l, rfl⟩ : ∃ l, links = l + 1 := ⟨links - 1, by omega⟩
      have := ih l (path ++ [name]) (by omega)
      rw [List.append_assoc] at this
      simp only [nodeDirs, hi, if_true]
      rwa [Nat.add_sub_add_right]
termination_by (links, sizeOf es)

/-- The directories of a walk that does not follow links. -/
theorem mem_walkDirs' (fs : Links) (links : Nat) (path : List Bytes) (es : Entries) (v : Visit) :
    v ∈ walkDirs fs false links path es ↔ ∃ p last, DirAt fs es p 0 last ∧ v = ⟨path ++ p, last, links⟩ := by
  constructor
  · intro h
    rw [walkDirs_flatMap] at h
    rcases List.mem_cons.mp h with h | h
    · exact ⟨[], es, .here es, by rw [h, List.append_nil]⟩
    · obtain ⟨⟨name, n⟩, hm, hv⟩ := List.mem_flatMap.mp h
      have hs := sizeOf_sub hm
      match n, hm, hv, hs with
      | .file _, _, hv, _ => cases hv
      | .dir t sub, hm, hv, hs =>
        have : sizeOf sub < sizeOf es := by
          simp only [Node.dir.sizeOf_spec] at hs
          omega
        obtain ⟨p, last, hd, rfl⟩ := (mem_walkDirs' fs links (path ++ [name]) sub v).mp hv
        exact ⟨name :: p, last, .down hm hd, by simp⟩
      | .link i, hm, hv, _ => cases hv
  · rintro ⟨p, last, hd, rfl⟩
    generalize hk : 0 = k at hd
    induction hd generalizing path with
    | here es => rw [walkDirs_flatMap]; simp
    | @down es name t sub p k last hm _ ih =>
      rw [walkDirs_flatMap]
      refine List.mem_cons_of_mem _ (List.mem_flatMap.mpr ⟨_, hm, ?_⟩)
      have := ih (path ++ [name]) hk
      rwa [List.append_assoc] at this
    | through => cases hk
termination_by sizeOf es

/-- The directories of a walk without following links do not depend on what links lead to. -/
theorem walkDirs_indep (fs fs' : Links) (links : Nat) (path : List Bytes) (es : Entries) :
    walkDirs fs false links path es = walkDirs fs' false links path es := by
  cases links with
  | zero => rw [walkDirs, walkDirs]
  | succ k => rw [walkDirs, walkDirs]; rfl

theorem wellNamed_down {fs : Links} {es sub : Entries} {name : Bytes} {t : Nat} (h : WellNamed fs es)
    (hm : (name, Node.dir t sub) ∈ es.toList) : WellNamed fs sub := fun _ _ _ hd => h _ _ _ (.down hm hd)

theorem wellNamed_through {fs : Links} {es sub : Entries} {name : Bytes} {i t : Nat} (h : WellNamed fs es)
    (hm : (name, Node.link i) ∈ es.toList) (hi : fs i = some (.dir t sub)) : WellNamed fs sub := fun _ _ _ hd => h _ _ _ (.through hm hi hd)

theorem nodeDirs_path {fs : Links} {links : Nat} {path : List Bytes} {n : Node} {v : Visit} (h : v ∈ nodeDirs fs true links path n) :
    ∃ p, v.path = path ++ p := by
  cases n with
  | file t => cases h
  | dir t sub =>
    obtain ⟨p, k, last, _, _, rfl⟩ := (mem_walkDirs fs links path sub v).mp h
    exact ⟨p, rfl⟩
  | link i =>
    cases links with
    | zero => cases h
    | succ l =>
      rcases hfa : fs i with _ | (_ | ⟨t, sub⟩ | _)
      all_goals simp only [nodeDirs, hfa, if_true] at h
      any_goals (cases h; done)
      obtain ⟨p, k, last, _, _, rfl⟩ := (mem_walkDirs fs l path sub v).mp h
      exact ⟨p, rfl⟩

theorem flatMap_paths_nodup {fs : Links} {links : Nat} {path : List Bytes} (l : List (Bytes × Node)) (hn : (l.map (·.1)).Nodup)
    (h : ∀ e ∈ l, ((nodeDirs fs true links (path ++ [e.1]) e.2).map (·.path)).Nodup) :
    ((l.flatMap fun e => nodeDirs fs true links (path ++ [e.1]) e.2).map (·.path)).Nodup := by
  induction l with
  | nil => exact .nil
  | cons e r ih =>
    rw [List.map_cons, List.nodup_cons] at hn
    rw [List.flatMap_cons, List.map_append]
    refine List.nodup_append.mpr ⟨h e List.mem_cons_self, ih hn.2 fun e' h' => h e' (List.mem_cons_of_mem _ h'), ?_⟩
    intro a ha b hb hab
    subst hab
    obtain ⟨v, hv, rfl⟩ := List.mem_map.mp ha
    obtain ⟨w, hw, e1⟩ := List.mem_map.mp hb
    obtain ⟨e', he', hw⟩ := List.mem_flatMap.mp hw
    obtain ⟨p, hp⟩ := nodeDirs_path hv
    obtain ⟨q, hq⟩ := nodeDirs_path hw
    rw [hp, hq] at e1
    simp only [List.append_assoc, List.append_cancel_left_eq, List.cons_append, List.nil_append, List.cons.injEq] at e1
    exact hn.1 (e1.1 ▸ List.mem_map_of_mem he')

/-- No directory is delivered twice under the same path. -/
theorem walkDirs_nodup (fs : Links) (links : Nat) (path : List Bytes) (es : Entries) (hw : WellNamed fs es) :
    ((walkDirs fs true links path es).map (·.path)).Nodup := by
  rw [walkDirs_flatMap, List.map_cons, List.nodup_cons]
  constructor
  · intro h
    obtain ⟨v, hv, e1⟩ := List.mem_map.mp h
    obtain ⟨e, _, hv⟩ := List.mem_flatMap.mp hv
    obtain ⟨p, hp⟩ := nodeDirs_path hv
    rw [hp] at e1
    simp at e1
  · refine flatMap_paths_nodup _ (hw _ _ _ (.here es)).2 ?_
    rintro ⟨name, n⟩ hm
    have hs := sizeOf_sub hm
    match n, hm, hs with
    | .file _, _, _ => exact .nil
    | .dir t sub, hm, hs =>
      have : sizeOf sub < sizeOf es := by
        simp only [Node.dir.sizeOf_spec] at hs
        omega
      exact walkDirs_nodup fs links (path ++ [name]) sub (wellNamed_down hw hm)
    | .link i, hm, _ =>
      match links with
      | 0 => exact .nil
      | l + 1 =>
        rcases hfa : fs i with _ | (_ | ⟨t, sub⟩ | _)
        all_goals simp only [nodeDirs, hfa, if_true]
        any_goals (exact .nil)
        exact walkDirs_nodup fs l (path ++ [name]) sub (wellNamed_through hw hm hfa)
termination_by (links, sizeOf es)

/-! ## Paths -/

/-- Names without slashes, not empty, not a dot. -/
def GoodNames (p : List Bytes) : Prop := ∀ n ∈ p, PlainName n ∧ n ≠ [46]

theorem dirAt_good {fs : Links} {es last : Entries} {p : List Bytes} {k : Nat} (h : DirAt fs es p k last) (hw : WellNamed fs es) : GoodNames p := by
  induction h with
  | here es => intro n hn; cases hn
  | down hm _ ih =>
    intro n hn
    rcases List.mem_cons.mp hn with rfl | hn
    · have := (hw _ _ _ (.here _)).1 _ hm
      exact ⟨this.1, this.2.1⟩
    · exact ih (wellNamed_down hw hm) n hn
  | through hm hi _ ih =>
    intro n hn
    rcases List.mem_cons.mp hn with rfl | hn
    · have := (hw _ _ _ (.here _)).1 _ hm
      exact ⟨this.1, this.2.1⟩
    · exact ih (wellNamed_through hw hm hi) n hn

theorem relRoot_plain {p : List Bytes} (h : GoodNames p) : PlainRoot (relRoot p) := by
  match p, h with
  | [], _ => rw [relRoot]; exact ⟨by simp, by decide⟩
  | [c], h =>
    rw [relRoot]
    have := (h c (by simp)).1
    exact ⟨this.1, fun hl => this.2 (List.mem_of_getLast? hl)⟩
  | c :: d :: r, h =>
    rw [relRoot]
    have ih := relRoot_plain (p := d :: r) fun n hn => h n (List.mem_cons_of_mem _ hn)
    refine ⟨by simp, ?_⟩
    obtain ⟨x, y, e⟩ := List.exists_cons_of_ne_nil ih.1
    rw [List.getLast?_append, e, List.getLast?_cons_cons, ← e]
    rcases hl : (relRoot (d :: r)).getLast? with _ | z
    · rw [List.getLast?_eq_none_iff] at hl; exact absurd hl ih.1
    · have h2 := ih.2
      rw [hl] at h2
      simpa using h2

theorem slash_inj {a b r s : Bytes} (ha : 47 ∉ a) (hb : 47 ∉ b) (h : a ++ 47 :: r = b ++ 47 :: s) : a = b ∧ r = s := by
  induction a generalizing b with
  | nil =>
    cases b with
    | nil => exact ⟨rfl, (List.cons.inj h).2⟩
    | cons y b => exact absurd (List.cons.inj h).1 fun e => hb (e ▸ List.mem_cons_self)
  | cons x a ih =>
    cases b with
    | nil => exact absurd (List.cons.inj h).1 fun e => ha (e ▸ List.mem_cons_self)
    | cons y b =>
      obtain ⟨rfl, h'⟩ := List.cons.inj h
      obtain ⟨rfl, rfl⟩ := ih (fun m => ha (List.mem_cons_of_mem _ m)) (fun m => hb (List.mem_cons_of_mem _ m)) h'
      exact ⟨rfl, rfl⟩

theorem relRoot_inj {p q : List Bytes} (hp : GoodNames p) (hq : GoodNames q) (h : relRoot p = relRoot q) : p = q := by
  have two : ∀ (c d : Bytes) (r : List Bytes), (47 : UInt8) ∈ relRoot (c :: d :: r) := by
    intro c d r; rw [relRoot]; simp
  have dot : (47 : UInt8) ∉ relRoot [] := by decide
  match p, q, hp, hq with
  | [], [], _, _ => rfl
  | [], [c], _, hq => exact absurd (by simpa [relRoot] using h.symm) (hq c (by simp)).2
  | [c], [], hp, _ => exact absurd (by simpa [relRoot] using h) (hp c (by simp)).2
  | [], c :: d :: r, _, _ => exact absurd (h ▸ two c d r) dot
  | c :: d :: r, [], _, _ => exact absurd (h ▸ two c d r) dot
  | [c], [d], _, _ => simpa [relRoot] using h
  | [c], a :: b :: r, hp, _ => exact absurd (show (47 : UInt8) ∈ relRoot [c] from h ▸ two a b r) (hp c (by simp)).1.2
  | a :: b :: r, [c], _, hq => exact absurd (show (47 : UInt8) ∈ relRoot [c] from h ▸ two a b r) (hq c (by simp)).1.2
  | a :: b :: r, a' :: b' :: r', hp, hq =>
    rw [relRoot, relRoot] at h
    obtain ⟨rfl, h'⟩ := slash_inj (hp a (by simp)).1.2 (hq a' (by simp)).1.2 h
    rw [relRoot_inj (p := b :: r) (q := b' :: r') (fun n hn => hp n (List.mem_cons_of_mem _ hn))
      (fun n hn => hq n (List.mem_cons_of_mem _ hn)) h']

theorem relRoot_intercalate (c : Bytes) (r : List Bytes) : relRoot (c :: r) = List.intercalate [47] (c :: r) := by
  induction r generalizing c with
  | nil => simp [relRoot]
  | cons d r ih => rw [relRoot, ih d, List.intercalate_cons_cons]; simp

theorem join_relRoot {p : List Bytes} {name : Bytes} (hp : GoodNames p) (hn : PlainName name) : joinPath (relRoot p) name = shown (p ++ [name]) := by
  have hr := relRoot_plain hp
  have h1 : name.head? ≠ some 47 := fun h => hn.2 (List.mem_of_head? h)
  unfold joinPath
  rw [if_neg h1, if_neg (by rintro (h | h); exact hr.1 h; exact hr.2 h)]
  match p with
  | [] => rfl
  | c :: r =>
    rw [relRoot_intercalate]
    have e : shown (c :: r ++ [name]) = List.intercalate [47] (c :: r ++ [name]) := by
      cases r <;> rfl
    rw [e]
    clear e hr hp
    induction r generalizing c with
    | nil => simp [List.intercalate_cons_cons]
    | cons d r ih =>
      rw [List.intercalate_cons_cons, List.cons_append, List.cons_append, List.intercalate_cons_cons, ← List.cons_append, ← ih d]
      simp

end Verif.Tree
