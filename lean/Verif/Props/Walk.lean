import Verif.Proofs.Walk
import Verif.Props.Workers
/-!
# C71: which files of a directory are listed
-/
namespace Verif.Props
open Verif Spec Tree

theorem asDir_none_iff {fs : Links} {k : Nat} {n : Node} :
    n.asDir fs k = none ↔ (∃ t, n = .file t) ∨ ∃ i, n = .link i ∧ (k = 0 ∨ ∀ t es, fs i ≠ some (.dir t es)) := by
  cases n with
  | file t => simp [Node.asDir]
  | dir t es => simp [Node.asDir]
  | link i =>
    cases k with
    | zero => simp [Node.asDir]
    | succ k => rcases hfa : fs i with _ | (_ | _ | _) <;> simp [Node.asDir, hfa]

theorem asDir_some_iff {fs : Links} {k : Nat} {n : Node} {t k' : Nat} {es : Entries} :
    n.asDir fs k = some (t, es, k') ↔ (n = .dir t es ∧ k' = k) ∨ ∃ i, n = .link i ∧ fs i = some (.dir t es) ∧ k = k' + 1 := by
  cases n with
  | file t => simp [Node.asDir]
  | dir t es => simp [Node.asDir, eq_comm, and_assoc]
  | link i =>
    cases k with
    | zero => simp [Node.asDir]
    | succ k => rcases hfa : fs i with _ | (_ | _ | _) <;> simp [Node.asDir, hfa, eq_comm, and_assoc]

theorem mem_found (fs : Links) (links : Nat) (es : Entries) (p : Bytes) (l : Bool) (hw : WellNamed fs es) :
    (p, l) ∈ foundFiles ((walkDirs fs true links [] es).map (·.entry fs)) ↔
      ∃ path k n, Leads fs es path k n ∧ k ≤ links ∧ n.asDir fs (links - k) = none ∧ p = shown path ∧ l = n.isLink := by
  unfold foundFiles
  constructor
  · intro h
    obtain ⟨e, he, hf⟩ := List.mem_flatMap.mp h
    obtain ⟨v, hv, rfl⟩ := List.mem_map.mp he
    obtain ⟨q, k, last, hd, hk, rfl⟩ := (mem_walkDirs fs links [] es v).mp hv
    obtain ⟨f, hf, e1⟩ := List.mem_map.mp hf
    obtain ⟨⟨name, n⟩, hm, rfl⟩ := List.mem_map.mp hf
    obtain ⟨hm, hno⟩ := List.mem_filter.mp hm
    cases e1
    exact ⟨q ++ [name], k, n, ⟨q, name, last, rfl, hd, hm⟩, hk, Option.isNone_iff_eq_none.mp hno,
      join_relRoot (dirAt_good hd hw) ((hw _ _ _ hd).1 _ hm).1, rfl⟩
  · rintro ⟨path, k, n, ⟨q, name, last, rfl, hd, hm⟩, hk, hno, rfl, rfl⟩
    refine List.mem_flatMap.mpr ⟨_, List.mem_map_of_mem ((mem_walkDirs fs links [] es _).mpr ⟨q, k, last, hd, hk, rfl⟩), ?_⟩
    refine List.mem_map.mpr ⟨(name, n.isLink), List.mem_map.mpr ⟨(name, n), List.mem_filter.mpr ⟨hm, Option.isNone_iff_eq_none.mpr hno⟩, rfl⟩, ?_⟩
    rw [← join_relRoot (dirAt_good hd hw) ((hw _ _ _ hd).1 _ hm).1]
    rfl

/-- C71.  What is listed: everything that is a regular file, has one of the extensions, and is reached from the directory by names, some of
which may be links to directories, as long as there are not more links than the operating system allows. -/
theorem C71_listed (fs : Links) (links : Nat) (es : Entries) (hw : WellNamed fs es) (exts : Option (List Str)) (p : Bytes) :
    p ∈ (walkAndSave false exts (scan fs links es)).yielded ↔
      ∃ path k t, Leads fs es path k (.file t) ∧ k ≤ links ∧ p = shown path ∧ Wanted exts p false := by
  unfold scan
  rw [(C34_yielded exts _).1 p]
  constructor
  · rintro ⟨l, hf, hwant⟩
    obtain ⟨path, k, n, hl, hk, hno, hp, rfl⟩ := (mem_found fs links es p l hw).mp hf
    have hl' := hwant.1
    rcases asDir_none_iff.mp hno with ⟨t, rfl⟩ | ⟨i, rfl, _⟩
    · exact ⟨path, k, t, hl, hk, hp, hwant⟩
    · cases hl'
  · rintro ⟨path, k, t, hl, hk, hp, hwant⟩
    exact ⟨false, (mem_found fs links es p false hw).mpr ⟨path, k, .file t, hl, hk, rfl, hp, rfl⟩, hwant⟩

/-- C71.  The directories that are listed: the same for directories. -/
theorem C71_directories (fs : Links) (links : Nat) (es : Entries) (hw : WellNamed fs es) (exts : Option (List Str)) (p : Bytes) :
    p ∈ (walkAndSave true exts (scan fs links es)).yielded ↔
      ∃ path k last, path ≠ [] ∧ DirAt fs es path k last ∧ k ≤ links ∧ p = shown path := by
  unfold scan
  rw [(C34_yielded exts _).2.2]
  unfold foundDirs
  have snoc : ∀ {es : Entries} {q : List Bytes} {k : Nat} {last : Entries} {name : Bytes} {k' : Nat} {last' : Entries},
      DirAt fs es q k last → DirAt fs last [name] k' last' → DirAt fs es (q ++ [name]) (k' + k) last' := by
    intro es q k last name k' last' h h'
    induction h with
    | here es => exact h'
    | down hm _ ih => exact .down hm (ih h')
    | through hm hi _ ih => exact .through hm hi (ih h')
  have unsnoc : ∀ {es : Entries} {path : List Bytes} {k : Nat} {last : Entries}, DirAt fs es path k last → path ≠ [] →
      ∃ q name k1 k2 mid, path = q ++ [name] ∧ k = k1 + k2 ∧ DirAt fs es q k1 mid ∧ DirAt fs mid [name] k2 last := by
    intro es path k last h
    induction h with
    | here es => intro h; exact absurd rfl h
    | @down es name t sub path k last hm hr ih =>
      intro _
      rcases Classical.em (path = []) with hp | hp
      · subst hp
        exact ⟨[], name, 0, k, es, rfl, by omega, .here es, .down hm hr⟩
      · obtain ⟨q, nm, k1, k2, mid, rfl, rfl, h1, h2⟩ := ih hp
        exact ⟨name :: q, nm, k1, k2, mid, rfl, rfl, .down hm h1, h2⟩
    | @through es name i t sub path k last hm hi hr ih =>
      intro _
      rcases Classical.em (path = []) with hp | hp
      · subst hp
        exact ⟨[], name, 0, k + 1, es, rfl, by omega, .here es, .through hm hi hr⟩
      · obtain ⟨q, nm, k1, k2, mid, rfl, rfl, h1, h2⟩ := ih hp
        exact ⟨name :: q, nm, k1 + 1, k2, mid, rfl, by omega, .through hm hi h1, h2⟩
  constructor
  · intro h
    obtain ⟨e, he, hf⟩ := List.mem_flatMap.mp h
    obtain ⟨v, hv, rfl⟩ := List.mem_map.mp he
    obtain ⟨q, k, last, hd, hk, rfl⟩ := (mem_walkDirs fs links [] es v).mp hv
    obtain ⟨f, hf', rfl⟩ := List.mem_map.mp hf
    obtain ⟨⟨name, n⟩, hm, rfl⟩ := List.mem_map.mp hf'
    obtain ⟨hm, hno⟩ := List.mem_filter.mp hm
    obtain ⟨⟨t, sub, k'⟩, hsome⟩ := Option.isSome_iff_exists.mp hno
    have hsh : joinPath (relRoot ([] ++ q)) name = shown (q ++ [name]) := join_relRoot (dirAt_good hd hw) ((hw _ _ _ hd).1 _ hm).1
    rcases asDir_some_iff.mp hsome with ⟨rfl, _⟩ | ⟨i, rfl, hi, hk'⟩
    · exact ⟨q ++ [name], _, sub, by simp, snoc hd (.down hm (.here sub)), by omega, hsh⟩
    · refine ⟨q ++ [name], _, sub, by simp, snoc hd (.through hm hi (.here sub)), ?_, hsh⟩
      simp only at hk'
      omega
  · rintro ⟨path, k, last, hne, hd, hk, rfl⟩
    obtain ⟨q, name, k1, k2, mid, rfl, rfl, h1, h2⟩ := unsnoc hd hne
    refine List.mem_flatMap.mpr ⟨_, List.mem_map_of_mem ((mem_walkDirs fs links [] es _).mpr ⟨q, k1, mid, h1, by omega, rfl⟩), ?_⟩
    have fin : ∀ n, (name, n) ∈ mid.toList → (n.asDir fs (links - k1)).isSome →
        shown (q ++ [name]) ∈ ((⟨[] ++ q, mid, links - k1⟩ : Visit).entry fs).dirs.map fun d =>
          joinPath ((⟨[] ++ q, mid, links - k1⟩ : Visit).entry fs).root d := by
      intro n hm hs
      refine List.mem_map.mpr ⟨name, List.mem_map.mpr ⟨(name, n), List.mem_filter.mpr ⟨hm, hs⟩, rfl⟩, ?_⟩
      exact join_relRoot (dirAt_good h1 hw) ((hw _ _ _ h1).1 _ hm).1
    cases h2 with
    | down hm hr => exact fin _ hm rfl
    | @through _ _ i t sub _ k _ hm hi hr =>
      refine fin _ hm ?_
      obtain ⟨l, hl⟩ : ∃ l, links - k1 = l + 1 := ⟨links - k1 - 1, by omega⟩
      rw [hl]
      simp [Node.asDir, hi]

/-- C71.  No file is listed twice under the same path. -/
theorem C71_once (fs : Links) (links : Nat) (es : Entries) (hw : WellNamed fs es) (exts : Option (List Str)) :
    (walkAndSave false exts (scan fs links es)).yielded.Nodup := by
  have hv : ∀ v ∈ walkDirs fs true links [] es, ∃ k, DirAt fs es v.path k v.entries := by
    intro v hv
    obtain ⟨q, k, last, hd, hk, rfl⟩ := (mem_walkDirs fs links [] es v).mp hv
    exact ⟨k, hd⟩
  refine C34_distinct exts _ ?_ ?_ ?_ ?_
  · have h1 := walkDirs_nodup fs links [] es hw
    generalize walkDirs fs true links [] es = vs at hv h1
    induction vs with
    | nil => exact .nil
    | cons v r ih =>
      rw [List.map_cons, List.nodup_cons] at h1
      rw [List.map_cons, List.map_cons, List.nodup_cons]
      refine ⟨fun hm => ?_, ih (fun v' h' => hv v' (List.mem_cons_of_mem _ h')) h1.2⟩
      rw [List.map_map] at hm
      obtain ⟨w, hw', e1⟩ := List.mem_map.mp hm
      obtain ⟨k, hd⟩ := hv v List.mem_cons_self
      obtain ⟨k', hd'⟩ := hv w (List.mem_cons_of_mem _ hw')
      have := relRoot_inj (dirAt_good hd' hw) (dirAt_good hd hw) e1
      exact h1.1 (this ▸ List.mem_map_of_mem hw')
  · intro e he
    obtain ⟨v, hm, rfl⟩ := List.mem_map.mp he
    obtain ⟨k, hd⟩ := hv v hm
    exact relRoot_plain (dirAt_good hd hw)
  · intro e he f hf
    obtain ⟨v, hm, rfl⟩ := List.mem_map.mp he
    obtain ⟨k, hd⟩ := hv v hm
    obtain ⟨g, hg, rfl⟩ := List.mem_map.mp hf
    exact ((hw _ _ _ hd).1 _ (List.mem_filter.mp hg).1).1
  · intro e he
    obtain ⟨v, hm, rfl⟩ := List.mem_map.mp he
    obtain ⟨k, hd⟩ := hv v hm
    refine List.Nodup.sublist ?_ (hw _ _ _ hd).2
    change List.Sublist (((v.entries.toList.filter _).map _).map _) _
    rw [List.map_map]
    exact List.filter_sublist.map _

/-- What is listed for a file, in the words of the theorems about results. -/
theorem found_at {fs : Links} {es : Entries} (hw : WellNamed fs es) {dirs : List Bytes} {k : Nat} {last : Entries} {name : Bytes} {n : Node}
    (hd : DirAt fs es dirs k last) (hm : (name, n) ∈ last.toList) : Pool.FoundAt dirs name (shown (dirs ++ [name])) := by
  have clean : ∀ {es : Entries} {p : List Bytes} {k : Nat} {last : Entries}, DirAt fs es p k last → WellNamed fs es → ∀ d ∈ p, Pool.CleanName d := by
    intro es p k last h hw
    induction h with
    | here es => intro n hn; cases hn
    | down hm _ ih =>
      intro n hn
      rcases List.mem_cons.mp hn with rfl | hn
      · exact (hw _ _ _ (.here _)).1 _ hm
      · exact ih (wellNamed_down hw hm) n hn
    | through hm hi _ ih =>
      intro n hn
      rcases List.mem_cons.mp hn with rfl | hn
      · exact (hw _ _ _ (.here _)).1 _ hm
      · exact ih (wellNamed_through hw hm hi) n hn
  refine ⟨clean hd hw, (hw _ _ _ hd).1 _ hm, ?_⟩
  cases dirs with
  | nil => rfl
  | cons c r =>
    have e : shown (c :: r ++ [name]) = List.intercalate [47] (c :: r ++ [name]) := by
      cases r <;> rfl
    rw [if_neg (by simp), e]
    clear e hm hd
    induction r generalizing c with
    | nil => simp [List.intercalate_cons_cons, joinSlash]
    | cons d r ih =>
      rw [List.cons_append, List.cons_append, List.intercalate_cons_cons, ← List.cons_append, ih d, joinSlash]
      simp

/-- C71, C33.  The files that are listed are what the theorems about results (C33) and about programs that run at the same time (C64) start
from, so every file has a result file of its own. -/
theorem C71_results (fs : Links) (links : Nat) (es : Entries) (hw : WellNamed fs es) (exts : Option (List Str)) :
    Pool.GoodFiles (walkAndSave false exts (scan fs links es)).yielded := by
  refine ⟨C71_once fs links es hw exts, fun f hf => ?_⟩
  obtain ⟨path, k, t, ⟨dirs, name, last, rfl, hd, hm⟩, _, rfl, -⟩ := (C71_listed fs links es hw exts f).mp hf
  exact ⟨dirs, name, found_at hw hd hm⟩

/-! ## Examples -/

/-- A directory with a file `a`, a directory `d` with a file `b`, and links: `f` to a file, `l` to a directory with a file `c`, and `x` to
nowhere. -/
def someEntries : Entries :=
  .cons [97] (.file 5) (.cons [100] (.dir 4 (.cons [98] (.file 6) .nil)) (.cons [102] (.link 0) (.cons [108] (.link 1) (.cons [120] (.link 2) .nil))))

/-- Where the links lead; the file `c` has the given time. -/
def someLinks (t : Nat) : Links := fun i => if i = 0 then some (.file 9) else if i = 1 then some (.dir 3 (.cons [99] (.file t) .nil)) else none

theorem some_named (t : Nat) : WellNamed (someLinks t) someEntries := by
  have one : ∀ (c : UInt8) (u : Nat) (path : List Bytes) (k : Nat) (last : Entries), DirAt (someLinks t) (.cons [c] (.file u) .nil) path k last →
      last = .cons [c] (.file u) .nil := by
    intro c u path k last h
    cases h with
    | here => rfl
    | down hm _ => simp [Entries.toList] at hm
    | through hm _ _ => simp [Entries.toList] at hm
  intro path k last h
  have hlast : last = someEntries ∨ last = .cons [98] (.file 6) .nil ∨ last = .cons [99] (.file t) .nil := by
    cases h with
    | here => exact .inl rfl
    | down hm h =>
      simp [someEntries, Entries.toList] at hm
      obtain ⟨_, _, rfl⟩ := hm
      exact .inr (.inl (one _ _ _ _ _ h))
    | @through _ _ i _ _ _ _ _ hm hi h =>
      simp [someEntries, Entries.toList] at hm
      rcases hm with ⟨_, rfl⟩ | ⟨_, rfl⟩ | ⟨_, rfl⟩
      · simp [someLinks] at hi
      · simp [someLinks] at hi
        obtain ⟨_, rfl⟩ := hi
        exact .inr (.inr (one _ _ _ _ _ h))
      · simp [someLinks] at hi
  rcases hlast with rfl | rfl | rfl
  · simp [someEntries, Entries.toList, PlainName]
  · simp [Entries.toList, PlainName]
  · simp [Entries.toList, PlainName]

/-- `./a`, `d/b` and `l/c` are listed; the link `f` to a file and the link `x` are not. -/
example : (walkAndSave false none (scan (someLinks 7) 40 someEntries)).yielded = [[46, 47, 97], [100, 47, 98], [108, 47, 99]] := by decide

/-- The directories. -/
example : (walkAndSave true none (scan (someLinks 7) 40 someEntries)).yielded = [[46, 47, 100], [46, 47, 108]] := by decide

/-- Without links there is no `l/c`. -/
example : (walkAndSave false none (scan (someLinks 7) 0 someEntries)).yielded = [[46, 47, 97], [100, 47, 98]] := by decide

example : (walkAndSave false none (scan (someLinks 7) 40 someEntries)).yielded.Nodup := C71_once _ _ _ (some_named 7) _

example : Pool.GoodFiles (walkAndSave false none (scan (someLinks 7) 40 someEntries)).yielded := C71_results _ _ _ (some_named 7) _

example : [108, 47, 99] ∈ (walkAndSave false none (scan (someLinks 7) 40 someEntries)).yielded :=
  (C71_listed _ _ _ (some_named 7) _ _).mpr ⟨[[108], [99]], 1, 7,
    ⟨[[108]], [99], .cons [99] (.file 7) .nil, rfl, .through (i := 1) (t := 3) (by simp [someEntries, Entries.toList]) rfl (.here _),
      by simp [Entries.toList]⟩, by decide, rfl, ⟨rfl, .inl rfl⟩⟩

/-! ## Links to directories -/

/-- C71.  A link that leads back to the directory it is in: every file next to it is listed once for every number of links that the
operating system allows. -/
theorem C71_loop (fs : Links) (links : Nat) (es : Entries) (hw : WellNamed fs es) (i t u : Nat) (name file : Bytes)
    (hl : (name, Node.link i) ∈ es.toList) (hi : fs i = some (.dir t es)) (hf : (file, Node.file u) ∈ es.toList) (j : Nat) :
    shown (List.replicate j name ++ [file]) ∈ (walkAndSave false none (scan fs links es)).yielded ↔ j ≤ links := by
  have hd : ∀ j, DirAt fs es (List.replicate j name) j es := by
    intro j
    induction j with
    | zero => exact .here es
    | succ j ih => exact .through hl hi ih
  have only : ∀ j k last, DirAt fs es (List.replicate j name) k last → k = j ∧ last = es := by
    intro j
    induction j with
    | zero => intro k last h; cases h; exact ⟨rfl, rfl⟩
    | succ j ih =>
      intro k last h
      have hn := (hw _ _ _ (.here es)).2
      have uniq : ∀ l : List (Bytes × Node), (l.map (·.1)).Nodup → ∀ n n', (name, n) ∈ l → (name, n') ∈ l → n = n' := by
        intro l hl
        induction l with
        | nil => intro n n' h; cases h
        | cons e r ihr =>
          rw [List.map_cons, List.nodup_cons] at hl
          intro n n' h h'
          rcases List.mem_cons.mp h with h1 | h1 <;> rcases List.mem_cons.mp h' with h2 | h2
          · rw [← h1] at h2; exact (Prod.mk.inj h2).2.symm
          · exact absurd (List.mem_map_of_mem (f := (·.1)) h2) (by rw [← h1] at hl; exact hl.1)
          · exact absurd (List.mem_map_of_mem (f := (·.1)) h1) (by rw [← h2] at hl; exact hl.1)
          · exact ihr hl.2 n n' h1 h2
      rw [List.replicate_succ] at h
      cases h with
      | down hm h => exact absurd (uniq _ hn _ _ hm hl) (by simp)
      | @through _ _ i' t' sub _ k _ hm hi' h =>
        have := uniq _ hn _ _ hm hl
        cases this
        rw [hi] at hi'
        cases hi'
        obtain ⟨rfl, rfl⟩ := ih _ _ h
        exact ⟨rfl, rfl⟩
  rw [C71_listed fs links es hw]
  constructor
  · rintro ⟨path, k, t', ⟨q, nm, last, rfl, hq, hm⟩, hk, hp, _⟩
    have g1 : GoodNames (List.replicate j name) := dirAt_good (hd j) hw
    have g2 := dirAt_good hq hw
    have p1 := ((hw _ _ _ (.here es)).1 _ hf).1
    have p2 := ((hw _ _ _ hq).1 _ hm).1
    rw [← join_relRoot g1 p1, ← join_relRoot g2 p2] at hp
    obtain ⟨e1, _⟩ := join_inj (relRoot_plain g1) p1 (relRoot_plain g2) p2 hp
    have := relRoot_inj g1 g2 e1
    rw [← this] at hq
    have := (only _ _ _ hq).1
    omega
  · intro hj
    exact ⟨_, j, u, ⟨_, file, es, rfl, hd j, hf⟩, hj, rfl, rfl, .inl rfl⟩

/-- A directory with a file `a` and a link `l` to itself. -/
def loopEntries : Entries := .cons [97] (.file 5) (.cons [108] (.link 0) .nil)

theorem loop_named : WellNamed (fun _ => some (.dir 1 loopEntries)) loopEntries := by
  intro path k last h
  have : last = loopEntries := by
    have key : ∀ es, DirAt (fun _ => some (.dir 1 loopEntries)) es path k last → es = loopEntries → last = loopEntries := by
      clear h
      intro es h
      induction h with
      | here => exact id
      | down hm h ih => intro e; subst e; simp [loopEntries, Entries.toList] at hm
      | through hm hi h ih =>
        intro _
        simp only [Option.some.injEq, Node.dir.injEq] at hi
        exact ih hi.2.symm
    exact key _ h rfl
  subst this
  simp [loopEntries, Entries.toList, PlainName]

/-- `./a`, `l/a`, `l/l/a`. -/
example : (walkAndSave false none (scan (fun _ => some (.dir 1 loopEntries)) 2 loopEntries)).yielded =
    [[46, 47, 97], [108, 47, 97], [108, 47, 108, 47, 97]] := by decide

example : shown (List.replicate 40 [108] ++ [[97]]) ∈ (walkAndSave false none (scan (fun _ => some (.dir 1 loopEntries)) 40 loopEntries)).yielded :=
  (C71_loop _ 40 _ loop_named 0 1 5 [108] [97] (by simp [loopEntries, Entries.toList]) rfl (by simp [loopEntries, Entries.toList]) 40).mpr (by decide)

/-- C71, the claim that every file is listed once is false: with one link to the directory itself and the 40 links that Linux allows, one
file is listed 41 times. -/
theorem C71_twice_violated :
    (walkAndSave false none (scan (fun _ => some (.dir 1 loopEntries)) 40 loopEntries)).yielded.length = 41 := by decide +kernel

/-! ## Modification times -/

/-- The times in a directory that is visited without following links. -/
theorem mem_times (fs : Links) (links : Nat) (es : Entries) (hl : 0 < links) (u : Nat) :
    u ∈ allTimes ((walkDirs fs false links [] es).map (·.times fs)) ↔ ∃ path n, Leads fs es path 0 n ∧ TimeOf fs n u := by
  obtain ⟨l, rfl⟩ : ∃ l, links = l + 1 := ⟨links - 1, by omega⟩
  unfold allTimes
  constructor
  · intro h
    obtain ⟨e, he, h⟩ := List.mem_flatMap.mp h
    obtain ⟨v, hv, rfl⟩ := List.mem_map.mp he
    obtain ⟨q, last, hd, rfl⟩ := (mem_walkDirs' fs _ [] es v).mp hv
    rcases List.mem_append.mp h with h | h
    · obtain ⟨⟨name, n⟩, hm, e1⟩ := List.mem_filterMap.mp h
      obtain ⟨⟨t, sub, k'⟩, hs, rfl⟩ := Option.map_eq_some_iff.mp e1
      refine ⟨q ++ [name], n, ⟨q, name, last, rfl, hd, hm⟩, ?_⟩
      rcases asDir_some_iff.mp hs with ⟨rfl, _⟩ | ⟨i, rfl, hi, _⟩
      · exact .inr (.inl ⟨sub, rfl⟩)
      · exact .inr (.inr ⟨i, sub, rfl, hi⟩)
    · obtain ⟨o, ho, e1⟩ := List.mem_filterMap.mp h
      obtain ⟨⟨name, n⟩, hm, rfl⟩ := List.mem_map.mp ho
      refine ⟨q ++ [name], n, ⟨q, name, last, rfl, hd, (List.mem_filter.mp hm).1⟩, ?_⟩
      cases n with
      | file t => cases e1; exact .inl rfl
      | dir t sub => cases e1
      | link i => cases e1
  · rintro ⟨path, n, ⟨q, name, last, rfl, hd, hm⟩, ht⟩
    refine List.mem_flatMap.mpr ⟨_, List.mem_map_of_mem ((mem_walkDirs' fs (l + 1) [] es _).mpr ⟨q, last, hd, rfl⟩), ?_⟩
    rcases ht with rfl | ⟨sub, rfl⟩ | ⟨i, sub, rfl, hi⟩
    · exact List.mem_append_right _ (List.mem_filterMap.mpr ⟨some u, List.mem_map.mpr ⟨_, List.mem_filter.mpr ⟨hm, rfl⟩, rfl⟩, rfl⟩)
    · exact List.mem_append_left _ (List.mem_filterMap.mpr ⟨_, hm, rfl⟩)
    · exact List.mem_append_left _ (List.mem_filterMap.mpr ⟨_, hm, by simp [Node.asDir, hi]⟩)

/-- C71, partial.  If the limit is large enough, the time of a directory is the latest of the times of everything that is reached without
passing through a link; links to directories count with the time of the directory.  What is behind links is missing. -/
theorem C71_time_partial (fs : Links) (links : Nat) (hl : 0 < links) (mtime : Nat) (es : Entries) :
    ∃ enough, ∀ limit, enough ≤ limit → ∀ t, (es ≠ .nil → (lastModification fs limit links mtime es = .ok t ↔
      (∃ path n, Leads fs es path 0 n ∧ TimeOf fs n t) ∧ ∀ path n u, Leads fs es path 0 n → TimeOf fs n u → u ≤ t)) ∧
      (es = .nil → lastModification fs limit links mtime es = .ok mtime) := by
  refine ⟨(allTimes ((walkDirs fs false links [] es).map (·.times fs))).length, fun limit hlim t => ⟨fun hne => ?_, fun h => by rw [h]; rfl⟩⟩
  have e : lastModification fs limit links mtime es = dirLastModification limit ((walkDirs fs false links [] es).map (·.times fs)) := by
    cases es with
    | nil => exact absurd rfl hne
    | cons => rfl
  rw [e, C51_time, List.take_of_length_le hlim, mem_times fs links es hl]
  constructor
  · rintro ⟨h1, h2⟩
    exact ⟨h1, fun path n u h3 h4 => h2 u ((mem_times fs links es hl u).mpr ⟨path, n, h3, h4⟩)⟩
  · rintro ⟨h1, h2⟩
    refine ⟨h1, fun u hu => ?_⟩
    obtain ⟨path, n, h3, h4⟩ := (mem_times fs links es hl u).mp hu
    exact h2 path n u h3 h4

example : lastModification (someLinks 7) 1000 40 1 someEntries = .ok 6 := by rfl

/-- C71.  What is in the directories that links lead to has no influence on the time: only the times of these directories count. -/
theorem C71_unnoticed (fs fs' : Links) (h : ∀ i, linkTime fs i = linkTime fs' i) (limit links mtime : Nat) (es : Entries) :
    lastModification fs limit links mtime es = lastModification fs' limit links mtime es := by
  have hd : ∀ (k : Nat) (n : Node), (n.asDir fs k).map (·.1) = (n.asDir fs' k).map (·.1) := by
    intro k n
    cases n with
    | file t => rfl
    | dir t es => rfl
    | link i =>
      have := h i
      unfold linkTime at this
      cases k with
      | zero => rfl
      | succ k =>
        rcases hfa : fs i with _ | (_ | _ | _) <;> rcases hfb : fs' i with _ | (_ | _ | _) <;>
          simp_all [Node.asDir]
  have hn : ∀ (k : Nat) (n : Node), (n.asDir fs k).isNone = (n.asDir fs' k).isNone := by
    intro k n
    have := congrArg Option.isNone (hd k n)
    simpa using this
  have ht : ∀ v : Visit, v.times fs = v.times fs' := by
    intro v
    unfold Visit.times
    simp only [hd, hn]
  unfold lastModification
  rw [walkDirs_indep fs fs' links [] es]
  simp only [ht]

/-- C71, the claim that changes of listed files are noticed is false: the file `l/c` is listed, but the time of the directory is the same
whenever it is changed. -/
theorem C71_unnoticed_violated (t u limit links mtime : Nat) :
    lastModification (someLinks t) limit links mtime someEntries = lastModification (someLinks u) limit links mtime someEntries ∧
    (1 ≤ links → [108, 47, 99] ∈ (walkAndSave false none (scan (someLinks t) links someEntries)).yielded) := by
  constructor
  · refine C71_unnoticed _ _ (fun i => ?_) _ _ _ _
    unfold linkTime someLinks
    rcases Classical.em (i = 0) with h | h
    · rw [if_pos h, if_pos h]
    · rw [if_neg h, if_neg h]
      rcases Classical.em (i = 1) with h | h
      · rw [if_pos h, if_pos h]
      · rw [if_neg h, if_neg h]
  · intro hl
    exact (C71_listed _ _ _ (some_named t) _ _).mpr ⟨[[108], [99]], 1, t,
      ⟨[[108]], [99], .cons [99] (.file t) .nil, rfl, .through (i := 1) (t := 3) (by simp [someEntries, Entries.toList]) rfl (.here _),
        by simp [Entries.toList]⟩, hl, rfl, ⟨rfl, .inl rfl⟩⟩

/-! ## The files for the script that computes vocabularies -/

theorem joinAll_eq (top : Bytes) (ht : PlainRoot top) (path : List Bytes) (hp : GoodNames path) :
    joinAll top path = List.intercalate [47] (top :: path) ∧ PlainRoot (joinAll top path) := by
  induction path generalizing top with
  | nil => exact ⟨by simp [joinAll], ht⟩
  | cons c r ih =>
    have hc := (hp c (by simp)).1
    have e : joinPath top c = top ++ 47 :: c := by
      have := ((C34_join top c).2 fun h => hc.2 (List.mem_of_head? h)).2.2 ht
      simpa using this
    have hpl : PlainRoot (joinPath top c) := by
      rw [e]
      refine ⟨by simp, fun h => ?_⟩
      obtain ⟨x, y, e'⟩ := List.exists_cons_of_ne_nil hc.1
      rw [List.getLast?_append, e', List.getLast?_cons_cons, ← e'] at h
      rcases hz : c.getLast? with _ | z
      · rw [List.getLast?_eq_none_iff] at hz; exact absurd hz hc.1
      · rw [hz] at h
        simp at h
        exact hc.2 (List.mem_of_getLast? (h ▸ hz))
    have := ih (joinPath top c) hpl fun n hn => hp n (List.mem_cons_of_mem _ hn)
    refine ⟨?_, this.2⟩
    change joinAll (joinPath top c) r = _
    rw [this.1, e, List.intercalate_cons_cons]
    cases r with
    | nil => simp
    | cons d r => rw [List.intercalate_cons_cons, List.intercalate_cons_cons]; simp

theorem endsWith_suffix (name suf : Bytes) : bytesEndsWith name suf = true ↔ suf <:+ name := by
  unfold bytesEndsWith
  rw [List.isPrefixOf_iff_prefix, List.reverse_prefix]

/-- C71.  The files that the script for vocabularies reads: everything that is not a directory and not a link to one, links to files and
broken links too, if it is reached without passing through a link and its name ends with the letters given, with or without a dot. -/
theorem C71_script (fs : Links) (links : Nat) (hl : 0 < links) (top : Bytes) (ht : PlainRoot top) (es : Entries) (hw : WellNamed fs es)
    (ext p : Bytes) :
    p ∈ plainWalk fs links top es (some ext) ↔ ∃ dirs name n, Leads fs es (dirs ++ [name]) 0 n ∧ ext <:+ name ∧
      ((∃ t, n = .file t) ∨ ∃ i, n = .link i ∧ ∀ t sub, fs i ≠ some (.dir t sub)) ∧ p = List.intercalate [47] (top :: (dirs ++ [name])) := by
  have hend : ∀ name, endsWell (some ext) name = true ↔ ext <:+ name := by
    intro name
    cases ext with
    | nil => exact ⟨fun _ => List.nil_suffix, fun _ => rfl⟩
    | cons c x => exact endsWith_suffix _ _
  have hj : ∀ {q name last n}, DirAt fs es q 0 last → (name, n) ∈ last.toList →
      joinPath (joinAll top q) name = List.intercalate [47] (top :: (q ++ [name])) := by
    intro q name last n hd hm
    have hn := (hw _ _ _ hd).1 _ hm
    have g : GoodNames (q ++ [name]) := by
      intro x hx
      rcases List.mem_append.mp hx with hx | hx
      · exact dirAt_good hd hw x hx
      · simp at hx; exact hx ▸ ⟨hn.1, hn.2.1⟩
    rw [← (joinAll_eq top ht _ g).1]
    simp [joinAll]
  unfold plainWalk
  constructor
  · intro h
    obtain ⟨v, hv, h⟩ := List.mem_flatMap.mp h
    obtain ⟨q, last, hd, rfl⟩ := (mem_walkDirs' fs _ [] es v).mp hv
    obtain ⟨name₀, h1, rfl⟩ := List.mem_map.mp h
    obtain ⟨h2, hx⟩ := List.mem_filter.mp h1
    obtain ⟨⟨name, n⟩, h3, rfl⟩ := List.mem_map.mp h2
    obtain ⟨hm, hno⟩ := List.mem_filter.mp h3
    refine ⟨q, name, n, ⟨q, name, last, rfl, hd, hm⟩, (hend _).mp hx, ?_, hj hd hm⟩
    rcases asDir_none_iff.mp (Option.isNone_iff_eq_none.mp hno) with h | ⟨i, rfl, h | h⟩
    · exact .inl h
    · simp only at h; omega
    · exact .inr ⟨i, rfl, h⟩
  · rintro ⟨dirs, name, n, ⟨q, name', last, e, hd, hm⟩, hx, hno, rfl⟩
    obtain ⟨rfl, e2⟩ := List.append_inj' e rfl
    cases e2
    refine List.mem_flatMap.mpr ⟨_, (mem_walkDirs' fs links [] es _).mpr ⟨dirs, last, hd, rfl⟩, ?_⟩
    refine List.mem_map.mpr ⟨name, List.mem_filter.mpr ⟨List.mem_map.mpr ⟨(name, n), List.mem_filter.mpr ⟨hm, ?_⟩, rfl⟩, (hend _).mpr hx⟩, hj hd hm⟩
    rw [Option.isNone_iff_eq_none, asDir_none_iff]
    rcases hno with h | ⟨i, rfl, h⟩
    · exact .inl h
    · exact .inr ⟨i, rfl, .inr h⟩

/-- `top/a`, `top/f`, `top/x` and `top/d/b`; `l/c` is missing. -/
example : plainWalk (someLinks 7) 40 [116] someEntries none =
    [[116, 47, 97], [116, 47, 102], [116, 47, 120], [116, 47, 100, 47, 98]] := by decide

/-- C71.  Without an extension the script reads what it reads for an empty one; a single file is read if its path ends with the letters. -/
theorem C71_script_rest (fs : Links) (links : Nat) (top : Bytes) (es : Entries) (ext : Bytes) :
    plainWalk fs links top es none = plainWalk fs links top es (some []) ∧ plainWalkFile top none = [top] ∧
    (ext <:+ top → plainWalkFile top (some ext) = [top]) ∧ (¬ ext <:+ top → plainWalkFile top (some ext) = []) := by
  have hend : endsWell (some ext) top = true ↔ ext <:+ top := by
    cases ext with
    | nil => exact ⟨fun _ => List.nil_suffix, fun _ => rfl⟩
    | cons c x => exact endsWith_suffix _ _
  refine ⟨rfl, rfl, fun h => ?_, fun h => ?_⟩
  · unfold plainWalkFile
    rw [if_pos (hend.mpr h)]
  · unfold plainWalkFile
    rw [if_neg fun h' => h (hend.mp h')]

example : ¬ ([106] : Bytes) <:+ [97] := by decide

end Verif.Props
