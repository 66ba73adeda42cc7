import Verif.Model.MergeText
import Verif.Spec.MergeText
import Verif.Props.BpeLearn
/-!
# Learning on spacedTexts finds the same pairs as learning on lists of subwords
-/
namespace Verif.Txt
open Verif Spec

/-- Subwords with a space after each. -/
def lead (w : List Str) : Str := w.flatMap fun s => s ++ [' ']

/-- Subwords with a space before each. -/
def trail (w : List Str) : Str := w.flatMap fun s => ' ' :: s

theorem join_cons (z : Str) (r : List Str) : pyJoin [' '] (z :: r) = z ++ trail r := by
  induction r generalizing z with
  | nil => simp [pyJoin, trail]
  | cons a r ih =>
    have : pyJoin [' '] (z :: a :: r) = z ++ ' ' :: pyJoin [' '] (a :: r) := by simp [pyJoin]
    rw [this, ih]
    simp [trail]

theorem join_cons_cons (z a : Str) (r : List Str) : pyJoin [' '] (z :: a :: r) = z ++ ' ' :: pyJoin [' '] (a :: r) := by
  simp [pyJoin]

theorem join_mid (pre : List Str) (z : Str) (post : List Str) :
    pyJoin [' '] (pre ++ z :: post) = lead pre ++ z ++ trail post := by
  induction pre with
  | nil => simp [lead, join_cons]
  | cons a t ih =>
    cases t with
    | nil =>
      rw [List.cons_append, List.nil_append, join_cons_cons, join_cons]
      simp [lead]
    | cons b t =>
      rw [List.cons_append, List.cons_append, join_cons_cons]
      rw [List.cons_append] at ih
      rw [ih]
      simp [lead]

theorem _root_.Verif.Spec.Clean.split {w : List Str} (h : Clean w) : pySplit ' ' (pyJoin [' '] w) = w :=
  pySplit_pyJoin h.ne fun s hs => (h.sym s hs).2

theorem _root_.Verif.Spec.Clean.tail {a b : Str} {r : List Str} (h : Clean (a :: b :: r)) : Clean (b :: r) := by
  refine ⟨by simp, fun s hs => h.sym s (List.mem_cons_of_mem _ hs), fun s hs => h.last s ?_⟩
  rw [List.getLast?_cons_cons]; exact hs

theorem _root_.Verif.Spec.Clean.noNewline {w : List Str} (h : Clean w) (x : Str) : pyJoin [' '] w ≠ x ++ ['\n'] := by
  intro e
  rcases List.eq_nil_or_concat w with hw | ⟨pre, z, hw⟩
  · exact h.ne hw
  · rw [List.concat_eq_append] at hw
    have hz := h.last z (by rw [hw]; simp)
    rw [hw, join_mid] at e
    have hzn : z ≠ [] := (h.sym z (by rw [hw]; simp)).1
    have := congrArg List.getLast? e
    simp only [trail, List.flatMap_nil, List.append_nil] at this
    rw [List.getLast?_append_of_ne_nil _ hzn] at this
    rw [this] at hz
    simp at hz

theorem spacedText_eq (w : List Str) : spacedText w = pyJoin [' '] w := by
  unfold spacedText
  cases w with
  | nil => rfl
  | cons z r =>
    rw [join_cons]
    induction r generalizing z with
    | nil => simp [trail, List.intercalate]
    | cons a r ih =>
      have e : List.intercalate [' '] (z :: a :: r) = z ++ ' ' :: List.intercalate [' '] (a :: r) := by
        simp [List.intercalate, List.intersperse]
      rw [e, ih]
      simp [trail]

/-! ## The parts of the regular expression -/

theorem runs_stop {s : Str} (h : s = [] ∨ ∃ r, s = ' ' :: r) : runs s = [] := by
  rcases h with rfl | ⟨r, rfl⟩ <;> simp [runs]

theorem runs_head {rest : Str} (h : rest = [] ∨ ∃ r, rest = ' ' :: r) : ∀ {u : Str}, u ≠ [] → ' ' ∉ u →
    (runs (u ++ rest)).head? = some (u, rest)
  | [], hu, _ => absurd rfl hu
  | [c], _, hs => by
    have hc : c ≠ ' ' := fun e => hs (by simp [e])
    simp [runs, hc, runs_stop h]
  | c :: d :: u, _, hs => by
    have hc : c ≠ ' ' := fun e => hs (by simp [e])
    have ih := runs_head h (u := d :: u) (by simp) (fun hm => hs (List.mem_cons_of_mem _ hm))
    rw [List.cons_append, runs, if_neg hc, List.head?_append, List.head?_map, ih]
    rfl

theorem spaceAfter_cons (c : Char) (m : Str × Str) : spaceAfter (c :: m.1, m.2) = (spaceAfter m).map fun m => (c :: m.1, m.2) := by
  simp only [spaceAfter]
  split <;> simp

theorem spaceAfter_ne {c d : Char} (h : d ≠ ' ') (r : Str) : spaceAfter ([c], d :: r) = none := by
  simp only [spaceAfter]
  split
  · rename_i e; simp only [List.cons.injEq] at e; exact absurd e.1 h
  · rfl

theorem filterMap_spaceAfter (c : Char) (l : List (Str × Str)) :
    (l.map fun m => (c :: m.1, m.2)).filterMap spaceAfter = (l.filterMap spaceAfter).map fun m => (c :: m.1, m.2) := by
  induction l with
  | nil => rfl
  | cons m l ih =>
    rw [List.map_cons, List.filterMap_cons, List.filterMap_cons, spaceAfter_cons]
    cases spaceAfter m with
    | none => simpa using ih
    | some k => simpa using ih

theorem group1_last (b : Bool) {u : Str} (hs : ' ' ∉ u) : group1 b u = if b then [([], u)] else [] := by
  have : (runs u).filterMap spaceAfter = [] := by
    induction u with
    | nil => rfl
    | cons c r ih =>
      have hc : c ≠ ' ' := fun e => hs (by simp [e])
      have hr : ' ' ∉ r := fun e => hs (by simp [e])
      rw [runs, if_neg hc, List.filterMap_append, filterMap_spaceAfter, ih hr]
      cases r with
      | nil => rfl
      | cons d r =>
        have hd : d ≠ ' ' := fun e => hr (by simp [e])
        simp [spaceAfter_ne hd]
  rw [group1, this, List.append_nil]

theorem group1_inner (b : Bool) {u : Str} (r : Str) (hs : ' ' ∉ u) :
    group1 b (u ++ ' ' :: r) =
      (if b then [([], u ++ ' ' :: r)] else []) ++ (if u = [] then [] else [(u ++ [' '], r)]) := by
  have : (runs (u ++ ' ' :: r)).filterMap spaceAfter = if u = [] then [] else [(u ++ [' '], r)] := by
    induction u with
    | nil => simp [runs]
    | cons c u ih =>
      have hc : c ≠ ' ' := fun e => hs (by simp [e])
      have hu : ' ' ∉ u := fun e => hs (by simp [e])
      rw [List.cons_append, runs, if_neg hc, List.filterMap_append, filterMap_spaceAfter, ih hu]
      cases u with
      | nil => rfl
      | cons d u =>
        have hd : d ≠ ' ' := fun e => hu (by simp [e])
        simp [spaceAfter_ne hd]
  rw [group1, this]

/-- What groups 3 and the rest of the text are, if these subwords follow the pair. -/
def restOf : List Str → Str × Str
  | [] => ([], [])
  | z :: q => (' ' :: z, trail q)

/-- The matches of groups 2 and 3. -/
def tailMatches (t s : Str) : List (Str × Str) := (group2 t s).flatMap group3

theorem matchesAt_eq (t before s : Str) : matchesAt t before s =
    (group1 (before = []) s).flatMap fun m1 => (tailMatches t m1.2).map fun m3 => ⟨before, m1.1, m3.1, m3.2⟩ := by
  simp only [matchesAt, tailMatches, List.map_flatMap]

theorem tail_found {x y : Str} {post : List Str} (hc : ∀ s ∈ post, s ≠ [] ∧ ' ' ∉ s) :
    (tailMatches (pyJoin [' '] [x, y]) (pyJoin [' '] (x :: y :: post))).head? =
      some (restOf post) := by
  have e : pyJoin [' '] (x :: y :: post) = pyJoin [' '] [x, y] ++ trail post := by
    rw [join_cons, join_cons]; simp [trail]
  rw [tailMatches, group2, e, if_pos (by simp), List.drop_left]
  simp only [List.flatMap_cons, List.flatMap_nil, List.append_nil]
  cases post with
  | nil => simp [group3, trail, restOf]
  | cons z q =>
    obtain ⟨h1, h2⟩ := hc z (by simp)
    have et : trail (z :: q) = ' ' :: (z ++ trail q) := by simp [trail]
    have hq : trail q = [] ∨ ∃ r, trail q = ' ' :: r := by
      cases q with
      | nil => left; rfl
      | cons b q => right; exact ⟨_, by simp only [trail, List.flatMap_cons, List.cons_append]; rfl⟩
    rw [et, group3]
    simp only [List.head?_append, List.head?_map, runs_head hq h1 h2]
    rfl

theorem tail_none {x y : Str} (hx : ' ' ∉ x) (hy : ' ' ∉ y) {w : List Str} (hw : Clean w)
    (hn : ∀ post, w ≠ x :: y :: post) : tailMatches (pyJoin [' '] [x, y]) (pyJoin [' '] w) = [] := by
  rw [tailMatches, group2]
  split
  · rename_i hp
    rw [List.isPrefixOf_iff_prefix] at hp
    obtain ⟨s2, e⟩ := hp
    rw [← e, List.drop_left]
    simp only [List.flatMap_cons, List.flatMap_nil, List.append_nil]
    have exy : pyJoin [' '] [x, y] = x ++ ' ' :: y := by rw [join_cons_cons]; rfl
    rw [exy] at e
    have hsp := hw.split
    rw [← e, List.append_assoc, List.cons_append, pySplit_append_sep hx] at hsp
    unfold group3
    have h1 : ¬ (s2 = [] ∨ s2 = ['\n']) := by
      rintro (rfl | rfl)
      · rw [List.append_nil, pySplit_noSep hy] at hsp
        exact hn [] hsp.symm
      · exact hw.noNewline _ e.symm
    rw [if_neg h1, List.append_nil]
    split
    · rename_i r
      rw [pySplit_append_sep hy] at hsp
      exact absurd hsp.symm (hn _)
    · rfl
  · rfl

/-! ## Searching -/

theorem findPair_cons {p : Pair} {a : Str} {r : List Str} (h : ∀ post, a :: r ≠ p.1 :: p.2 :: post) :
    findPair p (a :: r) = (findPair p r).map fun (pre, post) => (a :: pre, post) := by
  cases r with
  | nil => rfl
  | cons b r =>
    rw [findPair, if_neg]
    rintro ⟨rfl, rfl⟩
    exact h r rfl

theorem search_first {t before s : Str} {m : Match} (h : (matchesAt t before s).head? = some m) : search t before s = some m := by
  cases s with
  | nil => rw [search, h]
  | cons c r => rw [search, h]

theorem search_last (t : Str) : ∀ {u before : Str}, before ≠ [] → ' ' ∉ u → search t before u = none
  | [], before, hb, hs => by
    rw [search, matchesAt_eq, group1_last _ hs]; simp [hb]
  | c :: u, before, hb, hs => by
    have : (matchesAt t before (c :: u)).head? = none := by
      rw [matchesAt_eq, group1_last _ hs]; simp [hb]
    rw [search, this]
    exact search_last t (by simp) (fun hm => hs (List.mem_cons_of_mem _ hm))

theorem search_skip (t : Str) {s : Str} (hn : tailMatches t s = []) : ∀ {u before : Str}, before ≠ [] → ' ' ∉ u →
    search t before (u ++ ' ' :: s) = search t (before ++ u ++ [' ']) s
  | [], before, hb, hs => by
    have : (matchesAt t before (' ' :: s)).head? = none := by
      rw [matchesAt_eq]
      have := group1_inner (before = []) (u := []) s (by simp)
      rw [List.nil_append] at this
      rw [this]; simp [hb]
    rw [List.nil_append, search, this]
    simp
  | c :: u, before, hb, hs => by
    have : (matchesAt t before (c :: u ++ ' ' :: s)).head? = none := by
      rw [matchesAt_eq, group1_inner _ s hs]; simp [hb, hn]
    rw [List.cons_append] at this ⊢
    rw [search, this]
    show search t (before ++ [c]) (u ++ ' ' :: s) = _
    rw [search_skip t hn (by simp) (fun hm => hs (List.mem_cons_of_mem _ hm))]
    simp

/-- What a match says about the subwords around the pair. -/
structure Fits (m : Match) (front : Str) (pre post : List Str) : Prop where
  front : m.before ++ m.g1 = front ++ lead pre
  g1 : m.g1 = match pre.getLast? with | none => [] | some z => z ++ [' ']
  g3 : m.g3 = match post.head? with | none => [] | some z => ' ' :: z
  back : m.g3 ++ m.after = trail post

theorem cons_append_ne {u s : Str} (h : u ≠ []) : ∃ c r, u = c :: r ∧ u ++ s = c :: (r ++ s) := by
  cases u with
  | nil => exact absurd rfl h
  | cons c r => exact ⟨c, r, rfl, rfl⟩

theorem search_inner {p : Pair} (hx : ' ' ∉ p.1) (hy : ' ' ∉ p.2) : ∀ {a : Str} {r : List Str} {before : Str}, Clean (a :: r) →
    before ≠ [] →
    (findPair p r = none → search (pyJoin [' '] [p.1, p.2]) before (pyJoin [' '] (a :: r)) = none) ∧
    (∀ pre post, findPair p r = some (pre, post) →
      ∃ m, search (pyJoin [' '] [p.1, p.2]) before (pyJoin [' '] (a :: r)) = some m ∧ Fits m before (a :: pre) post)
  | a, [], before, hc, hb => by
    refine ⟨fun _ => ?_, fun pre post h => by simp [findPair] at h⟩
    exact search_last _ hb (hc.sym a (by simp)).2
  | a, b :: r, before, hc, hb => by
    obtain ⟨ha1, ha2⟩ := hc.sym a (by simp)
    rw [join_cons_cons a b r]
    by_cases hp : ∃ post, b :: r = p.1 :: p.2 :: post
    · obtain ⟨post, e⟩ := hp
      have hf : findPair p (b :: r) = some ([], post) := by rw [e, findPair, if_pos ⟨rfl, rfl⟩]
      rw [hf]
      refine ⟨fun h => (nomatch h), fun pre' post' h => ?_⟩
      simp only [Option.some.injEq, Prod.mk.injEq] at h
      obtain ⟨rfl, rfl⟩ := h
      have ht := tail_found (x := p.1) (y := p.2) (post := post)
        (fun s hs => hc.sym s (List.mem_cons_of_mem _ (by rw [e]; simp [hs])))
      have hm : (matchesAt (pyJoin [' '] [p.1, p.2]) before (a ++ ' ' :: pyJoin [' '] (b :: r))).head? =
          some ⟨before, a ++ [' '], (restOf post).1,
            (restOf post).2⟩ := by
        rw [matchesAt_eq, group1_inner _ _ ha2, if_neg ha1, if_neg (by simpa using hb), List.nil_append, List.flatMap_cons,
          List.flatMap_nil, List.append_nil, List.head?_map, e, ht]
        rfl
      refine ⟨_, search_first hm, ⟨by simp [lead], by simp, ?_, ?_⟩⟩
      · cases post <;> rfl
      · cases post <;> simp [trail, restOf]
    · have hp' : ∀ post, b :: r ≠ p.1 :: p.2 :: post := fun post e => hp ⟨post, e⟩
      have ht := tail_none hx hy hc.tail hp'
      rw [search_skip _ ht hb ha2, findPair_cons hp']
      obtain ⟨i1, i2⟩ := search_inner hx hy (a := b) (r := r) (before := before ++ a ++ [' ']) hc.tail (by simp)
      refine ⟨fun h => i1 (by simpa using h), fun pre post h => ?_⟩
      simp only [Option.map_eq_some_iff, Prod.mk.injEq, Prod.exists] at h
      obtain ⟨pre', post', h, rfl, rfl⟩ := h
      obtain ⟨m, hm, f⟩ := i2 _ _ h
      refine ⟨m, hm, ⟨by rw [f.front]; simp [lead], by rw [f.g1, List.getLast?_cons_cons], f.g3, f.back⟩⟩

/-- The regular expression finds the leftmost pair of neighbouring subwords. -/
theorem search_eq {p : Pair} (hx : ' ' ∉ p.1) (hy : ' ' ∉ p.2) {w : List Str} (hc : Clean w) :
    (findPair p w = none → search (pyJoin [' '] [p.1, p.2]) [] (pyJoin [' '] w) = none) ∧
    (∀ pre post, findPair p w = some (pre, post) →
      ∃ m, search (pyJoin [' '] [p.1, p.2]) [] (pyJoin [' '] w) = some m ∧ Fits m [] pre post) := by
  obtain ⟨a, r, rfl⟩ := List.exists_cons_of_ne_nil hc.ne
  obtain ⟨ha1, ha2⟩ := hc.sym a (by simp)
  by_cases hp : ∃ post, a :: r = p.1 :: p.2 :: post
  · obtain ⟨post, e⟩ := hp
    have hf : findPair p (a :: r) = some ([], post) := by rw [e, findPair, if_pos ⟨rfl, rfl⟩]
    rw [hf]
    refine ⟨fun h => (nomatch h), fun pre' post' h => ?_⟩
    simp only [Option.some.injEq, Prod.mk.injEq] at h
    obtain ⟨rfl, rfl⟩ := h
    have ht := tail_found (x := p.1) (y := p.2) (post := post)
      (fun s hs => hc.sym s (by rw [e]; simp [hs]))
    have hm : (matchesAt (pyJoin [' '] [p.1, p.2]) [] (pyJoin [' '] (a :: r))).head? =
        some ⟨[], [], (restOf post).1,
            (restOf post).2⟩ := by
      rw [matchesAt_eq, group1, decide_eq_true rfl, if_pos rfl, List.cons_append, List.flatMap_cons, List.head?_append,
        List.head?_map, e, ht]
      rfl
    refine ⟨_, search_first hm, ⟨by simp [lead], by simp, ?_, ?_⟩⟩
    · cases post <;> rfl
    · cases post <;> simp [trail, restOf]
  · have hp' : ∀ post, a :: r ≠ p.1 :: p.2 :: post := fun post e => hp ⟨post, e⟩
    have ht := tail_none hx hy hc hp'
    rw [findPair_cons hp']
    cases r with
    | nil =>
      refine ⟨fun _ => ?_, fun pre post h => by simp [findPair] at h⟩
      obtain ⟨c, u, eu, -⟩ := cons_append_ne (s := []) ha1
      have hm : (matchesAt (pyJoin [' '] [p.1, p.2]) [] a).head? = none := by
        rw [matchesAt_eq, group1_last _ ha2]
        have ht' : tailMatches (pyJoin [' '] [p.1, p.2]) a = [] := ht
        simp [ht']
      show search _ [] a = none
      rw [eu] at hm ha2 ⊢
      rw [search, hm]
      exact search_last _ (by simp) (fun h => ha2 (List.mem_cons_of_mem _ h))
    | cons b r =>
      obtain ⟨c, u, eu, eu'⟩ := cons_append_ne (s := ' ' :: pyJoin [' '] (b :: r)) ha1
      by_cases hq : ∃ post, b :: r = p.1 :: p.2 :: post
      · obtain ⟨post, e⟩ := hq
        have hf : findPair p (b :: r) = some ([], post) := by rw [e, findPair, if_pos ⟨rfl, rfl⟩]
        rw [hf]
        refine ⟨fun h => (nomatch h), fun pre' post' h => ?_⟩
        simp only [Option.map_some, Option.some.injEq, Prod.mk.injEq] at h
        obtain ⟨rfl, rfl⟩ := h
        have ht2 := tail_found (x := p.1) (y := p.2) (post := post)
          (fun s hs => hc.sym s (List.mem_cons_of_mem _ (by rw [e]; simp [hs])))
        rw [join_cons_cons a b r] at ht ⊢
        have hm : (matchesAt (pyJoin [' '] [p.1, p.2]) [] (a ++ ' ' :: pyJoin [' '] (b :: r))).head? =
            some ⟨[], a ++ [' '], (restOf post).1,
              (restOf post).2⟩ := by
          rw [matchesAt_eq, group1_inner _ _ ha2, if_neg ha1, decide_eq_true rfl, if_pos rfl, List.cons_append, List.nil_append,
            List.flatMap_cons, ht, List.map_nil, List.nil_append, List.flatMap_cons,
            List.flatMap_nil, List.append_nil, List.head?_map, e, ht2]
          rfl
        refine ⟨_, search_first hm, ⟨by simp [lead], by simp, ?_, ?_⟩⟩
        · cases post <;> rfl
        · cases post <;> simp [trail, restOf]
      · have hq' : ∀ post, b :: r ≠ p.1 :: p.2 :: post := fun post e => hq ⟨post, e⟩
        have ht2 := tail_none hx hy hc.tail hq'
        rw [join_cons_cons a b r] at ht ⊢
        have hm : (matchesAt (pyJoin [' '] [p.1, p.2]) [] (a ++ ' ' :: pyJoin [' '] (b :: r))).head? = none := by
          rw [matchesAt_eq, group1_inner _ _ ha2]; simp [ht, ht2]
        have hstep : search (pyJoin [' '] [p.1, p.2]) [] (a ++ ' ' :: pyJoin [' '] (b :: r)) =
            search (pyJoin [' '] [p.1, p.2]) (a ++ [' ']) (pyJoin [' '] (b :: r)) := by
          rw [eu'] at hm ⊢
          rw [search, hm]
          show search _ ([] ++ [c]) (u ++ _) = _
          rw [search_skip _ ht2 (by simp) (fun h => ha2 (by rw [eu]; exact List.mem_cons_of_mem _ h)), eu]
          simp
        rw [hstep, findPair_cons hq']
        obtain ⟨i1, i2⟩ := search_inner hx hy (a := b) (r := r) (before := a ++ [' ']) hc.tail (by simp)
        refine ⟨fun h => i1 (by simpa using h), fun pre post h => ?_⟩
        simp only [Option.map_eq_some_iff, Prod.mk.injEq, Prod.exists] at h
        obtain ⟨pre1, post1, ⟨pre2, post2, h, rfl, rfl⟩, rfl, rfl⟩ := h
        obtain ⟨m, hm, f⟩ := i2 _ _ h
        refine ⟨m, hm, ⟨by rw [f.front]; simp [lead], by rw [f.g1, List.getLast?_cons_cons], f.g3, f.back⟩⟩

/-! ## Merging -/

theorem Fits.added {p : Pair} {occ : Nat} {m : Match} {pre post : List Str} (h : Fits m [] pre post) :
    Txt.addedFor p occ m = Verif.addedFor p occ pre post := by
  unfold Txt.addedFor Verif.addedFor
  congr 1
  · have := h.g1
    cases e : pre.getLast? with
    | none => rw [e] at this; simp only at this; rw [this]; simp
    | some z => rw [e] at this; simp only at this; rw [this]; simp
  · have := h.g3
    cases e : post.head? with
    | none => rw [e] at this; simp only at this; rw [this]; simp
    | some z => rw [e] at this; simp only at this; rw [this, if_pos (by simp)]; rfl

theorem _root_.Verif.Spec.Clean.merged {p : Pair} {w pre post : List Str} (hc : Clean w) (h : findPair p w = some (pre, post)) :
    Clean (pre ++ (p.1 ++ p.2) :: post) := by
  obtain ⟨e, -⟩ := findPair_some h
  subst e
  refine ⟨by simp, fun s hs => ?_, fun s hs => ?_⟩
  · rw [List.mem_append, List.mem_cons] at hs
    rcases hs with hs | rfl | hs
    · exact hc.sym s (by simp [hs])
    · have h1 := hc.sym p.1 (by simp)
      have h2 := hc.sym p.2 (by simp)
      refine ⟨by simp [h1.1], by rw [List.mem_append]; rintro (h | h); exact h1.2 h; exact h2.2 h⟩
    · exact hc.sym s (by simp [hs])
  · cases post with
    | nil =>
      have h2 := hc.sym p.2 (by simp)
      have : s = p.1 ++ p.2 := by simpa using hs.symm
      rw [this, List.getLast?_append_of_ne_nil _ h2.1]
      exact hc.last p.2 (by simp)
    | cons a r =>
      refine hc.last s ?_
      rw [List.getLast?_append] at hs ⊢
      rw [← hs]
      simp [List.getLast?_cons_cons]

theorem findPair_length {p : Pair} {w pre post : List Str} (h : findPair p w = some (pre, post)) :
    (pre ++ (p.1 ++ p.2) :: post).length + 1 = w.length := by
  obtain ⟨e, -⟩ := findPair_some h
  subst e; simp; omega

/-- Merging a pair in the text of a word. -/
theorem mergeWord_text {p : Pair} (hx : ' ' ∉ p.1) (hy : ' ' ∉ p.2) (occ : Nat) : ∀ (g f : Nat) (w : List Str) (acc : List (Pair × Int)),
    Clean w → w.length ≤ g → w.length ≤ f →
    Txt.mergeWord p occ f (spacedText w) acc =
      (spacedText (Verif.mergeWord p occ g w acc).1, (Verif.mergeWord p occ g w acc).2) ∧ Clean (Verif.mergeWord p occ g w acc).1
  | 0, _, w, acc, hc, hg, _ => absurd (List.length_eq_zero_iff.1 (by omega)) hc.ne
  | _, 0, w, acc, hc, _, hf => absurd (List.length_eq_zero_iff.1 (by omega)) hc.ne
  | g + 1, f + 1, w, acc, hc, hg, hf => by
    obtain ⟨h1, h2⟩ := search_eq hx hy hc
    rw [Txt.mergeWord, Verif.mergeWord]
    cases e : findPair p w with
    | none =>
      simp only [spacedText_eq, h1 e]
      exact ⟨trivial, hc⟩
    | some q =>
      obtain ⟨pre, post⟩ := q
      obtain ⟨m, hm, f'⟩ := h2 pre post e
      simp only [spacedText_eq, hm]
      have et : m.before ++ m.g1 ++ (p.1 ++ p.2) ++ m.g3 ++ m.after = pyJoin [' '] (pre ++ (p.1 ++ p.2) :: post) := by
        rw [join_mid, f'.front, List.nil_append, List.append_assoc _ m.g3, f'.back]
      have hl := findPair_length e
      rw [et, f'.added]
      rw [← spacedText_eq, ← spacedText_eq]
      exact mergeWord_text hx hy occ g f _ _ (hc.merged e) (by omega) (by omega)

theorem length_textOf {w : List Str} (hc : Clean w) : w.length ≤ (spacedText w).length := by
  have h := hc.sym
  rw [spacedText_eq]
  cases w with
  | nil => simp
  | cons z r =>
    rw [join_cons]
    have hz := List.length_pos_iff.2 (h z (by simp)).1
    have : r.length ≤ (trail r).length := by
      clear h hc
      induction r with
      | nil => simp
      | cons a r ih =>
        have : trail (a :: r) = ' ' :: (a ++ trail r) := by simp [trail]
        rw [this]; simp; omega
    simp; omega

theorem textOf_inj {v w : List Str} (hv : Clean v) (hw : Clean w) (h : spacedText v = spacedText w) : v = w := by
  rw [← hv.split, ← hw.split]; rw [spacedText_eq, spacedText_eq] at h; rw [h]

theorem set_texts {w : List Str} (hw : Clean w) (occ : Nat) : ∀ {v : SplitVocab}, (∀ e ∈ v, Clean e.1) →
    Dict.set (spacedTexts v) (spacedText w) occ = spacedTexts (Dict.set v w occ) ∧ ∀ e ∈ Dict.set v w occ, Clean e.1
  | [], _ => by
    refine ⟨rfl, ?_⟩
    intro e he
    simp only [Dict.set, List.mem_singleton] at he
    rw [he]; exact hw
  | (k, x) :: v, hv => by
    have hk := hv (k, x) (by simp)
    obtain ⟨i1, i2⟩ := set_texts hw occ (v := v) (fun e he => hv e (List.mem_cons_of_mem _ he))
    by_cases e : k = w
    · subst e
      simp only [spacedTexts, List.map_cons, Dict.set, if_true, true_and]
      intro e he
      rw [List.mem_cons] at he
      rcases he with rfl | he
      · exact hw
      · exact hv e (List.mem_cons_of_mem _ he)
    · have e' : spacedText k ≠ spacedText w := fun h => e (textOf_inj hk hw h)
      simp only [spacedTexts, List.map_cons, Dict.set, e, e', if_false] at i1 ⊢
      refine ⟨by rw [i1], ?_⟩
      intro e he
      rw [List.mem_cons] at he
      rcases he with rfl | he
      · exact hk
      · exact i2 e he

theorem mergeVocabLoop_text {p : Pair} (hx : ' ' ∉ p.1) (hy : ' ' ∉ p.2) : ∀ (v out : SplitVocab) (acc : List (Pair × Int)),
    (∀ e ∈ v, Clean e.1) → (∀ e ∈ out, Clean e.1) →
    Txt.mergeVocabLoop p (spacedTexts v) (spacedTexts out) acc =
      (spacedTexts (Verif.mergeVocabLoop p v out acc).1, (Verif.mergeVocabLoop p v out acc).2) ∧
      ∀ e ∈ (Verif.mergeVocabLoop p v out acc).1, Clean e.1
  | [], out, acc, _, ho => ⟨rfl, ho⟩
  | (w, occ) :: v, out, acc, hv, ho => by
    have hw := hv (w, occ) (by simp)
    obtain ⟨h1, h2⟩ := mergeWord_text hx hy occ w.length (spacedText w).length w acc hw (by omega) (length_textOf hw)
    obtain ⟨h3, h4⟩ := set_texts h2 occ ho
    have := mergeVocabLoop_text hx hy v _ (Verif.mergeWord p occ w.length w acc).2 (fun e he => hv e (List.mem_cons_of_mem _ he)) h4
    rw [← h3] at this
    have el : spacedTexts ((w, occ) :: v) = (spacedText w, occ) :: spacedTexts v := rfl
    rw [el, Txt.mergeVocabLoop, h1]
    exact this

theorem mergeVocab_text {p : Pair} (hx : ' ' ∉ p.1) (hy : ' ' ∉ p.2) {v : SplitVocab} (hv : ∀ e ∈ v, Clean e.1) :
    Txt.mergeVocab p (spacedTexts v) = (spacedTexts (Verif.mergeVocab p v).1, (Verif.mergeVocab p v).2) ∧
      ∀ e ∈ (Verif.mergeVocab p v).1, Clean e.1 :=
  mergeVocabLoop_text hx hy v [] [] hv (fun e he => by simp at he)

/-! ## The pairs have no spaces -/

theorem mergeWord_added {p : Pair} (hp : NoSpace p) (occ : Nat) : ∀ (g : Nat) (w : List Str) (acc : List (Pair × Int)),
    Clean w → (∀ a ∈ acc, NoSpace a.1) → ∀ a ∈ (Verif.mergeWord p occ g w acc).2, NoSpace a.1
  | 0, w, acc, _, ha => ha
  | g + 1, w, acc, hc, ha => by
    rw [Verif.mergeWord]
    cases e : findPair p w with
    | none => exact ha
    | some q =>
      obtain ⟨pre, post⟩ := q
      refine mergeWord_added hp occ g _ _ (hc.merged e) ?_
      obtain ⟨ew, -⟩ := findPair_some e
      have hpp : ' ' ∉ p.1 ++ p.2 := by rw [List.mem_append]; rintro (h | h); exact hp.1 h; exact hp.2 h
      intro a hm
      rw [List.mem_append] at hm
      rcases hm with hm | hm
      · exact ha a hm
      · unfold Verif.addedFor at hm
        rw [List.mem_append] at hm
        rcases hm with hm | hm
        · cases eb : pre.getLast? with
          | none => rw [eb] at hm; simp at hm
          | some b =>
            have hb : ' ' ∉ b := (hc.sym b (by rw [ew]; simp [List.mem_of_getLast? eb])).2
            rw [eb] at hm
            simp only [List.mem_cons] at hm
            rcases hm with rfl | hm
            · exact ⟨hb, hpp⟩
            · split at hm
              · simp only [List.mem_singleton] at hm
                subst hm; exact ⟨hb, hp.1⟩
              · simp at hm
        · cases eb : post.head? with
          | none => rw [eb] at hm; simp at hm
          | some b =>
            have hb : ' ' ∉ b := (hc.sym b (by rw [ew]; simp [List.mem_of_head? eb])).2
            rw [eb] at hm
            simp only [List.mem_cons] at hm
            rcases hm with rfl | hm
            · exact ⟨hpp, hb⟩
            · split at hm
              · simp only [List.mem_singleton] at hm
                subst hm; exact ⟨hp.2, hb⟩
              · simp at hm

theorem mergeVocab_added {p : Pair} (hp : NoSpace p) {v : SplitVocab} (hv : ∀ e ∈ v, Clean e.1) :
    ∀ a ∈ (Verif.mergeVocab p v).2, NoSpace a.1 := by
  have : ∀ (v out : SplitVocab) (acc : List (Pair × Int)), (∀ e ∈ v, Clean e.1) → (∀ a ∈ acc, NoSpace a.1) →
      ∀ a ∈ (Verif.mergeVocabLoop p v out acc).2, NoSpace a.1 := by
    intro v
    induction v with
    | nil => intro out acc _ ha; exact ha
    | cons e v ih =>
      intro out acc hv ha
      obtain ⟨w, occ⟩ := e
      rw [Verif.mergeVocabLoop]
      exact ih _ _ (fun e he => hv e (List.mem_cons_of_mem _ he))
        (mergeWord_added hp occ _ w acc (hv (w, occ) (by simp)) ha)
  exact this v [] [] hv (fun a ha => by simp at ha)

/-- All pairs of the queue have a property. -/
def AllKeys {α : Type} (P : α → Prop) (c : PriorityCounter α) : Prop := ∀ e ∈ c.pq, ∀ k, e.key = some k → P k

theorem allKeys_remove {α : Type} [DecidableEq α] {P : α → Prop} {c c' : PriorityCounter α} {k : α} (h : AllKeys P c)
    (hr : c.removeTask k = some c') : AllKeys P c' := by
  unfold PriorityCounter.removeTask at hr
  split at hr
  · simp at hr
  · simp only [Option.some.injEq] at hr
    subst hr
    intro e he k' hk
    simp only [List.mem_map] at he
    obtain ⟨e0, he0, rfl⟩ := he
    split at hk
    · simp at hk
    · exact h e0 he0 k' hk

theorem allKeys_add {α : Type} [DecidableEq α] {P : α → Prop} {c c' : PriorityCounter α} {k : α} {x : Int} (h : AllKeys P c) (hk : P k)
    (ha : c.add k x = some c') : AllKeys P c' := by
  have hnew : ∀ (c0 : PriorityCounter α), AllKeys P c0 → ∀ (pr : Int) (n : Nat) (f : Dict α (Int × Nat)),
      AllKeys P { c0 with finder := f, pq := ⟨pr, n, some k⟩ :: c0.pq } := by
    intro c0 h0 pr n f e he k' hk'
    simp only [List.mem_cons] at he
    rcases he with rfl | he
    · simp only [Option.some.injEq] at hk'; rw [← hk']; exact hk
    · exact h0 e he k' hk'
  unfold PriorityCounter.add at ha
  simp only at ha
  split at ha
  · split at ha
    · simp at ha
    · rename_i hr
      have h1 := allKeys_remove (c := { c with next := c.next + 1 }) (P := P) h hr
      split at ha
      · simp only [Option.some.injEq] at ha
        rw [← ha]; exact hnew _ h1 _ _ _
      · simp only [Option.some.injEq] at ha
        rw [← ha]; exact h1
  · split at ha
    · simp only [Option.some.injEq] at ha
      rw [← ha]; exact hnew { c with next := c.next + 1 } h _ _ _
    · simp only [Option.some.injEq] at ha
      rw [← ha]; exact h

theorem allKeys_addAll : ∀ {l : List (Pair × Int)} {c c' : PriorityCounter Pair}, AllKeys NoSpace c → (∀ a ∈ l, NoSpace a.1) →
    addAll c l = .ok c' → AllKeys NoSpace c'
  | [], c, c', h, _, ha => by
    rw [addAll] at ha
    cases ha; exact h
  | (p, x) :: l, c, c', h, hl, ha => by
    rw [addAll] at ha
    split at ha
    · simp at ha
    · rename_i h1
      exact allKeys_addAll (allKeys_add h (hl (p, x) (by simp)) h1) (fun a ha => hl a (List.mem_cons_of_mem _ ha)) ha

theorem allKeys_pop {α : Type} [DecidableEq α] {P : α → Prop} : ∀ {n : Nat} {c c' : PriorityCounter α} {k : α} {x : Int}, AllKeys P c →
    PriorityCounter.popLoop n c = some (k, x, c') → P k ∧ AllKeys P c'
  | 0, c, c', k, x, _, hp => by simp [PriorityCounter.popLoop] at hp
  | n + 1, c, c', k, x, h, hp => by
    rw [PriorityCounter.popLoop] at hp
    split at hp
    · simp at hp
    · rename_i e r hh
      obtain ⟨hperm, -⟩ := heapPop_some hh
      split at hp
      · rename_i k' hk'
        simp only [Option.some.injEq, Prod.mk.injEq] at hp
        obtain ⟨rfl, -, rfl⟩ := hp
        exact ⟨h e (hperm.mem_iff.2 (by simp)) k' hk', fun e' he' => h e' (hperm.mem_iff.2 (by simp [he']))⟩
      · exact allKeys_pop (fun e' he' => h e' (hperm.mem_iff.2 (by simp [he']))) hp

theorem initEntries_keys {α : Type} {P : α → Prop} : ∀ (l : List (α × Int)) (n : Nat), (∀ a ∈ l, P a.1) →
    ∀ e ∈ PriorityCounter.initEntries n l, ∀ k, e.key = some k → P k
  | [], _, _ => by intro e he; simp [PriorityCounter.initEntries] at he
  | (a, x) :: l, n, h => by
    intro e he k hk
    rw [PriorityCounter.initEntries, List.mem_cons] at he
    rcases he with rfl | he
    · simp only [Option.some.injEq] at hk
      rw [← hk]; exact h (a, x) (by simp)
    · exact initEntries_keys l (n + 1) (fun a ha => h a (List.mem_cons_of_mem _ ha)) e he k hk

theorem mem_set {α β : Type} [DecidableEq α] : ∀ {d : Dict α β} {k : α} {x : β} {e : α × β}, e ∈ d.set k x → e.1 = k ∨ e ∈ d
  | [], k, x, e, h => by
    simp only [Dict.set, List.mem_singleton] at h
    left; rw [h]
  | (k', x') :: d, k, x, e, h => by
    rw [Dict.set] at h
    split at h
    · rename_i ek
      rw [List.mem_cons] at h
      rcases h with rfl | h
      · left; exact ek
      · right; simp [h]
    · rw [List.mem_cons] at h
      rcases h with rfl | h
      · right; simp
      · rcases mem_set h with h | h
        · left; exact h
        · right; simp [h]

theorem statsWord_noSpace (f : Nat) : ∀ (w : List Str) (d : Dict Pair Int), (∀ s ∈ w, ' ' ∉ s) → (∀ a ∈ d, NoSpace a.1) →
    ∀ a ∈ statsWord f w d, NoSpace a.1
  | [], d, _, hd => by simpa [statsWord] using hd
  | [_], d, _, hd => by simpa [statsWord] using hd
  | x :: y :: r, d, hw, hd => by
    rw [statsWord]
    refine statsWord_noSpace f (y :: r) _ (fun s hs => hw s (List.mem_cons_of_mem _ hs)) ?_
    intro a ha
    rcases mem_set ha with h | h
    · rw [h]; exact ⟨hw x (by simp), hw y (by simp)⟩
    · exact hd a h

theorem statsDict_noSpace {v : SplitVocab} (hv : ∀ e ∈ v, Clean e.1) : ∀ a ∈ Verif.statsDict v, NoSpace a.1 := by
  have : ∀ (v : SplitVocab) (d : Dict Pair Int), (∀ e ∈ v, Clean e.1) → (∀ a ∈ d, NoSpace a.1) →
      ∀ a ∈ v.foldl (fun d e => statsWord e.2 e.1 d) d, NoSpace a.1 := by
    intro v
    induction v with
    | nil => intro d _ hd; exact hd
    | cons e v ih =>
      intro d hv hd
      rw [List.foldl_cons]
      exact ih _ (fun e he => hv e (List.mem_cons_of_mem _ he))
        (statsWord_noSpace _ _ _ (fun s hs => ((hv e (by simp)).sym s hs).2) hd)
  exact this v [] hv (fun a ha => by simp at ha)

theorem foldl_texts {β : Type} (f : β → List Str × Nat → β) : ∀ (v : SplitVocab) (d : β), (∀ e ∈ v, Clean e.1) →
    (spacedTexts v).foldl (fun d e => f d (pySplit ' ' e.1, e.2)) d = v.foldl f d
  | [], d, _ => rfl
  | (w, x) :: v, d, h => by
    have hw := (h (w, x) (by simp)).split
    have el : spacedTexts ((w, x) :: v) = (spacedText w, x) :: spacedTexts v := rfl
    rw [el, List.foldl_cons, List.foldl_cons, spacedText_eq, hw]
    exact foldl_texts f v _ (fun e he => h e (List.mem_cons_of_mem _ he))

theorem getStats_text {v : SplitVocab} (hv : ∀ e ∈ v, Clean e.1) : Txt.getStats (spacedTexts v) = Verif.getStats v := by
  unfold Txt.getStats Verif.getStats Txt.statsDict Verif.statsDict
  rw [← foldl_texts (fun d e => statsWord e.2 e.1 d) v [] hv]

theorem createBpeCache_text {v : SplitVocab} (hv : ∀ e ∈ v, Clean e.1) : Txt.createBpeCache (spacedTexts v) = Verif.createBpeCache v := by
  unfold Txt.createBpeCache Verif.createBpeCache
  rw [← foldl_texts (fun (d : BpeCache) e => d.set e.1.flatten e.1) v [] hv]
  simp only [concat_eq_flatten]

theorem createResultingVocab_text {v : SplitVocab} (hv : ∀ e ∈ v, Clean e.1) :
    Txt.createResultingVocab (spacedTexts v) = Verif.createResultingVocab v := by
  unfold Txt.createResultingVocab Verif.createResultingVocab
  rw [← foldl_texts (fun d e => e.1.foldl (fun d s => bumpN d s e.2) d) v [] hv]

/-- The outcome of learning, with the split words as spacedTexts. -/
def textResult : Except PyErr (SplitVocab × MergeList) → Except PyErr (TextVocab × MergeList)
  | .ok (v, ms) => .ok (spacedTexts v, ms)
  | .error e => .error e

theorem doMergesLoop_text : ∀ (n i : Nat) (v : SplitVocab) (c : PriorityCounter Pair) (ms : MergeList), (∀ e ∈ v, Clean e.1) →
    AllKeys NoSpace c → Txt.doMergesLoop n i (spacedTexts v) c ms = textResult (Verif.doMergesLoop n i v c ms) ∧
      ∀ v' ms', Verif.doMergesLoop n i v c ms = .ok (v', ms') → ∀ e ∈ v', Clean e.1
  | 0, _, v, _, ms, hv, _ => ⟨rfl, fun v' ms' h => by cases h; exact hv⟩
  | n + 1, i, v, c, ms, hv, hc => by
    rw [Txt.doMergesLoop, Verif.doMergesLoop]
    cases hp : c.popPair with
    | none => exact ⟨rfl, fun v' ms' h => by cases h; exact hv⟩
    | some q =>
      obtain ⟨best, occ, c'⟩ := q
      obtain ⟨hb, hc'⟩ := allKeys_pop hc hp
      simp only
      cases ha : ms.append ⟨best, some occ, some i⟩ with
      | error e => exact ⟨rfl, fun v' ms' h => by cases h⟩
      | ok ms1 =>
        obtain ⟨h1, h2⟩ := mergeVocab_text hb.1 hb.2 hv
        simp only [bind, Except.bind, h1]
        cases hall : addAll c' (Verif.mergeVocab best v).2 with
        | error e => exact ⟨rfl, fun v' ms' h => by cases h⟩
        | ok c'' =>
          exact doMergesLoop_text n (i + 1) _ c'' ms1 h2 (allKeys_addAll hc' (mergeVocab_added hb hv) hall)

theorem doMerges_text {v : SplitVocab} (hv : ∀ e ∈ v, Clean e.1) (n : Nat) :
    Txt.doMerges (spacedTexts v) n = textResult (Verif.doMerges v n) ∧
      ∀ v' ms', Verif.doMerges v n = .ok (v', ms') → ∀ e ∈ v', Clean e.1 := by
  unfold Txt.doMerges Verif.doMerges
  rw [getStats_text hv]
  exact doMergesLoop_text n 0 v _ [] hv (initEntries_keys _ 0 (statsDict_noSpace hv))

/-! ## A run of the learner -/

theorem foldl_set_texts {γ : Type} (f : γ → List Str) (g : γ → Str) (x : γ → Nat) : ∀ (l : List γ) (v : SplitVocab),
    (∀ e ∈ l, Clean (f e) ∧ g e = spacedText (f e)) → (∀ e ∈ v, Clean e.1) →
    l.foldl (fun d e => Dict.set d (g e) (x e)) (spacedTexts v) = spacedTexts (l.foldl (fun d e => Dict.set d (f e) (x e)) v) ∧
      ∀ e ∈ l.foldl (fun d e => Dict.set d (f e) (x e)) v, Clean e.1
  | [], v, _, hv => ⟨rfl, hv⟩
  | a :: l, v, hl, hv => by
    obtain ⟨h1, h2⟩ := hl a (by simp)
    obtain ⟨h3, h4⟩ := set_texts h1 (x a) hv
    rw [List.foldl_cons, List.foldl_cons, h2, h3]
    exact foldl_set_texts f g x l _ (fun e he => hl e (List.mem_cons_of_mem _ he)) h4

theorem clean_initial {w : Str} (hs : ' ' ∉ w) : Clean (initialSymbols w) := by
  refine ⟨by simp [initialSymbols], fun s h => ?_, fun s h => ?_⟩
  · unfold initialSymbols at h
    rw [List.mem_append] at h
    rcases h with h | h
    · rw [List.mem_map] at h
      obtain ⟨c, hc, rfl⟩ := h
      have : c ≠ ' ' := fun e => hs (e ▸ hc)
      split
      · exact ⟨by simp, by decide⟩
      · exact ⟨by simp, by simpa using Ne.symm this⟩
    · rw [List.mem_singleton] at h
      subst h
      exact ⟨by simp, by decide⟩
  · unfold initialSymbols at h
    rw [List.getLast?_append_of_ne_nil _ (by simp)] at h
    cases h
    decide

theorem doubleEsc_space {w : Str} (hs : ' ' ∉ w) : ' ' ∉ doubleEsc w := by
  unfold doubleEsc
  rw [List.mem_flatMap]
  rintro ⟨c, hc, h⟩
  split at h
  · exact absurd h (by decide)
  · rw [List.mem_singleton] at h
    exact hs (by rw [h]; exact hc)

theorem clean_escape {w : Str} (hs : ' ' ∉ w) : Clean [escape w true] := by
  have e : escape w true = doubleEsc w ++ [escChar] := by simp [escape]
  refine ⟨by simp, fun s h => ?_, fun s h => ?_⟩
  · rw [List.mem_singleton] at h
    subst h
    rw [e]
    refine ⟨by simp, ?_⟩
    rw [List.mem_append]
    rintro (h | h)
    · exact doubleEsc_space hs h
    · rw [List.mem_singleton] at h; exact absurd h (by decide)
  · have : s = escape w true := by simpa using h.symm
    rw [this, e, List.getLast?_append_of_ne_nil _ (by simp)]
    decide

/-- The words to learn from, as texts. -/
theorem splitBaseVocab_text {words : Dict Str Nat} (hs : ∀ e ∈ words, ' ' ∉ e.1 ∧ e.1 ≠ []) :
    Txt.splitBaseVocab words = spacedTexts (Verif.splitBaseVocab words) ∧ ∀ e ∈ Verif.splitBaseVocab words, Clean e.1 := by
  unfold Txt.splitBaseVocab Verif.splitBaseVocab
  refine foldl_set_texts (fun e : Str × Nat => pySplit ' ' (escape (pyJoin [' '] (e.1.map fun c => [c])) false))
    (fun e => escape (pyJoin [' '] (e.1.map fun c => [c])) false) (fun e => e.2) words [] (fun e he => ?_) (fun e he => by simp at he)
  obtain ⟨h1, h2⟩ := hs e he
  have hone := Props.splitBaseVocab_eq [e] (by simp [Dict.WF, Dict.keys]) (fun x hx => by
    rw [List.mem_singleton] at hx; rw [hx]; exact ⟨h1, h2⟩)
  have hsym : pySplit ' ' (escape (pyJoin [' '] (e.1.map fun c => [c])) false) = initialSymbols e.1 := by
    have := congrArg (List.map (·.1)) hone
    simpa [Verif.splitBaseVocab, trainingVocab, Dict.set] using this
  refine ⟨by rw [hsym]; exact clean_initial h1, ?_⟩
  rw [spacedText_eq, pyJoin_pySplit]

theorem escapedOther_text {words : Dict Str Nat} (hs : ∀ e ∈ words, ' ' ∉ e.1) :
    Txt.escapedOther words = spacedTexts (Verif.escapedOther words) ∧ ∀ e ∈ Verif.escapedOther words, Clean e.1 := by
  unfold Txt.escapedOther Verif.escapedOther
  refine foldl_set_texts (fun e : Str × Nat => [escape e.1 true]) (fun e => escape e.1 true) (fun e => e.2) words []
    (fun e he => ⟨clean_escape (hs e he), by rw [spacedText_eq]; rfl⟩) (fun e he => by simp at he)

theorem separate_mem {κ : Type} [DecidableEq κ] {excl : κ → Bool} {P : κ → Prop} : ∀ (v : Dict κ Nat) (st : Dict κ Nat × Dict κ Nat),
    (∀ e ∈ v, P e.1) → (∀ e ∈ st.1, P e.1) → (∀ e ∈ st.2, P e.1) →
    (∀ e ∈ (v.foldl (fun st e => if ¬ excl e.1 then (st.1.set e.1 e.2, st.2) else (st.1, st.2.set e.1 e.2)) st).1, P e.1) ∧
    ∀ e ∈ (v.foldl (fun st e => if ¬ excl e.1 then (st.1.set e.1 e.2, st.2) else (st.1, st.2.set e.1 e.2)) st).2, P e.1
  | [], st, _, h1, h2 => ⟨h1, h2⟩
  | a :: v, st, hv, h1, h2 => by
    have ha := hv a (by simp)
    rw [List.foldl_cons]
    refine separate_mem v _ (fun e he => hv e (List.mem_cons_of_mem _ he)) ?_ ?_
    · intro e he
      split at he
      · rcases mem_set he with h | h
        · rw [h]; exact ha
        · exact h1 e h
      · exact h1 e he
    · intro e he
      split at he
      · exact h2 e he
      · rcases mem_set he with h | h
        · rw [h]; exact ha
        · exact h2 e h

theorem prepareScratch_text {all : Dict Str Nat} (hs : ∀ e ∈ all, ' ' ∉ e.1 ∧ e.1 ≠ []) (nonBpe : List Str) :
    Txt.prepareScratch all nonBpe =
      (spacedTexts (Verif.prepareScratch all nonBpe).1, spacedTexts (Verif.prepareScratch all nonBpe).2) ∧
    (∀ e ∈ (Verif.prepareScratch all nonBpe).1, Clean e.1) ∧ ∀ e ∈ (Verif.prepareScratch all nonBpe).2, Clean e.1 := by
  obtain ⟨h1, h2⟩ := separate_mem (excl := fun w => decide (w ∈ nonBpe)) (P := fun w => ' ' ∉ w ∧ w ≠ []) all ([], []) hs
    (fun e he => by simp at he) (fun e he => by simp at he)
  obtain ⟨h3, h4⟩ := splitBaseVocab_text h1
  obtain ⟨h5, h6⟩ := escapedOther_text (fun e he => (h2 e he).1)
  refine ⟨?_, h4, h6⟩
  show (Txt.splitBaseVocab _, Txt.escapedOther _) = _
  exact Prod.ext h3 h5

theorem prepareResume_text {saved : SplitVocab} (hv : ∀ e ∈ saved, Clean e.1) {nonBpe : List Str} (hn : ∀ w ∈ nonBpe, ' ' ∉ w) :
    Txt.prepareResume (spacedTexts saved) nonBpe =
      (spacedTexts (Verif.prepareResume saved nonBpe).1, spacedTexts (Verif.prepareResume saved nonBpe).2) ∧
    (∀ e ∈ (Verif.prepareResume saved nonBpe).1, Clean e.1) ∧ ∀ e ∈ (Verif.prepareResume saved nonBpe).2, Clean e.1 := by
  have hmem : ∀ w, Clean w → ((spacedText w ∈ nonBpe.map fun w => escape w true) ↔ w ∈ nonBpe.map fun w => [escape w true]) := by
    intro w hw
    simp only [List.mem_map]
    constructor
    · rintro ⟨k, hk, e⟩
      refine ⟨k, hk, textOf_inj (clean_escape (hn k hk)) hw ?_⟩
      rw [← e, spacedText_eq]; rfl
    · rintro ⟨k, hk, e⟩
      refine ⟨k, hk, ?_⟩
      rw [← e, spacedText_eq]; rfl
  have : ∀ (v a b : SplitVocab), (∀ e ∈ v, Clean e.1) → (∀ e ∈ a, Clean e.1) → (∀ e ∈ b, Clean e.1) →
      (spacedTexts v).foldl (fun st e => if ¬ decide (e.1 ∈ nonBpe.map fun w => escape w true) then (st.1.set e.1 e.2, st.2)
          else (st.1, st.2.set e.1 e.2)) ((spacedTexts a, spacedTexts b) : Dict Str Nat × Dict Str Nat) =
        (fun r : SplitVocab × SplitVocab => ((spacedTexts r.1, spacedTexts r.2) : Dict Str Nat × Dict Str Nat))
        (v.foldl (fun st e => if ¬ decide (e.1 ∈ nonBpe.map fun w => [escape w true]) then (st.1.set e.1 e.2, st.2)
          else (st.1, st.2.set e.1 e.2)) ((a, b) : SplitVocab × SplitVocab)) := by
    intro v
    induction v with
    | nil => intro a b _ _ _; rfl
    | cons e v ih =>
      intro a b hv ha hb
      have he := hv e (by simp)
      have hv' : ∀ e ∈ v, Clean e.1 := fun e h => hv e (List.mem_cons_of_mem _ h)
      have el : spacedTexts (e :: v) = (spacedText e.1, e.2) :: spacedTexts v := rfl
      rw [el, List.foldl_cons, List.foldl_cons]
      by_cases hx : e.1 ∈ nonBpe.map fun w => [escape w true]
      · have hx' := (hmem e.1 he).2 hx
        obtain ⟨h3, h4⟩ := set_texts he e.2 hb
        rw [if_neg (by simp only [hx', decide_true, not_true, not_false_iff]), if_neg (by simp only [hx, decide_true, not_true, not_false_iff])]
        show List.foldl _ (spacedTexts a, Dict.set (spacedTexts b) (spacedText e.1) e.2) _ = _
        rw [h3]
        exact ih _ _ hv' ha h4
      · have hx' := fun h => hx ((hmem e.1 he).1 h)
        obtain ⟨h3, h4⟩ := set_texts he e.2 ha
        rw [if_pos (show ¬ decide _ = true from by rw [decide_eq_true_eq]; exact hx'),
          if_pos (show ¬ decide _ = true from by rw [decide_eq_true_eq]; exact hx)]
        show List.foldl _ (Dict.set (spacedTexts a) (spacedText e.1) e.2, spacedTexts b) _ = _
        rw [h3]
        exact ih _ _ hv' h4 hb
  refine ⟨this saved [] [] hv (fun e he => by simp at he) (fun e he => by simp at he), ?_⟩
  exact separate_mem (excl := fun s => decide (s ∈ nonBpe.map fun w => [escape w true])) saved ([], []) hv (fun e he => by simp at he) (fun e he => by simp at he)

theorem learnRun_text {base other : SplitVocab} (hb : ∀ e ∈ base, Clean e.1) (ho : ∀ e ∈ other, Clean e.1) (done : MergeList) (n : Nat) :
    Txt.learnRun (spacedTexts base) (spacedTexts other) done n = textResult (Verif.learnRun base other done n) ∧
      ∀ v' ms', Verif.learnRun base other done n = .ok (v', ms') → ∀ e ∈ v', Clean e.1 := by
  obtain ⟨h1, h2⟩ := doMerges_text hb (n - done.length)
  unfold Txt.learnRun Verif.learnRun
  rw [h1]
  cases hd : Verif.doMerges base (n - done.length) with
  | error e => exact ⟨rfl, fun v' ms' h => by cases h⟩
  | ok r =>
    obtain ⟨v, ms⟩ := r
    have hv := h2 v ms hd
    obtain ⟨h3, h4⟩ := foldl_set_texts (fun e : List Str × Nat => e.1) (fun e => spacedText e.1) (fun e => e.2) other v
      (fun e he => ⟨ho e he, rfl⟩) hv
    have h5 : (spacedTexts other).foldl (fun d e => Dict.set d e.1 e.2) (spacedTexts v) =
        other.foldl (fun d e => Dict.set d (spacedText e.1) e.2) (spacedTexts v) := by
      show List.foldl _ _ (List.map _ other) = _
      rw [List.foldl_map]
    simp only [textResult, bind, Except.bind]
    cases done.add ms with
    | error e => exact ⟨rfl, fun v' ms' h => by cases h⟩
    | ok ms1 =>
      simp only
      refine ⟨?_, fun v' ms' h => by cases h; exact h4⟩
      rw [← h3, ← h5]

end Verif.Txt
