import Verif.Spec.MergeObj
import Verif.Props.MetaObj
import Verif.Proofs.Str
import Verif.Proofs.BpeLearn
/-!
# Lists of merges that share merges (C79)
-/
namespace Verif.Props.Share
open Verif Spec Obj MObj

/-! ## The merges of a list as values -/

/-- A merge takes the place of the one with the same pair, or the place after the last one. -/
def putV : List Merge → Merge → List Merge
  | [], mg => [mg]
  | x :: xs, mg => if x.pair = mg.pair then mg :: xs else x :: putV xs mg

theorem putV_new {ms : List Merge} {mg : Merge} (h : ¬ Pairs ms mg.pair) : putV ms mg = ms ++ [mg] := by
  induction ms with
  | nil => rfl
  | cons x xs ih =>
    have h1 : x.pair ≠ mg.pair := fun e => h ⟨x, List.mem_cons_self, e⟩
    have h2 : ¬ Pairs xs mg.pair := fun ⟨y, hy, e⟩ => h ⟨y, List.mem_cons_of_mem _ hy, e⟩
    rw [putV, if_neg h1, ih h2]; rfl

theorem putV_old {xs ys : List Merge} {x mg : Merge} (h : ¬ Pairs xs mg.pair) (e : x.pair = mg.pair) :
    putV (xs ++ x :: ys) mg = xs ++ mg :: ys := by
  induction xs with
  | nil => simp [putV, e]
  | cons y xs ih =>
    have h1 : y.pair ≠ mg.pair := fun e => h ⟨y, List.mem_cons_self, e⟩
    have h2 : ¬ Pairs xs mg.pair := fun ⟨z, hz, e⟩ => h ⟨z, List.mem_cons_of_mem _ hz, e⟩
    rw [List.cons_append, putV, if_neg h1, ih h2]; rfl

theorem first_pair {ms : List Merge} {p : Str × Str} (h : Pairs ms p) :
    ∃ xs x ys, ms = xs ++ x :: ys ∧ x.pair = p ∧ ¬ Pairs xs p := by
  induction ms with
  | nil => obtain ⟨_, h, _⟩ := h; cases h
  | cons y ms ih =>
    by_cases e : y.pair = p
    · exact ⟨[], y, ms, rfl, e, fun ⟨_, h, _⟩ => nomatch h⟩
    · have : Pairs ms p := by
        obtain ⟨z, hz, hp⟩ := h
        rcases List.mem_cons.1 hz with rfl | hz
        · exact absurd hp e
        · exact ⟨z, hz, hp⟩
      obtain ⟨xs, x, ys, rfl, h1, h2⟩ := ih this
      refine ⟨y :: xs, x, ys, rfl, h1, ?_⟩
      rintro ⟨z, hz, hp⟩
      rcases List.mem_cons.1 hz with rfl | hz
      · exact e hp
      · exact h2 ⟨z, hz, hp⟩

theorem putV_length_old {ms : List Merge} {mg : Merge} (h : Pairs ms mg.pair) : (putV ms mg).length = ms.length := by
  obtain ⟨xs, x, ys, rfl, h1, h2⟩ := first_pair h
  rw [putV_old h2 h1]; simp

/-! ## Objects -/

/-- What holds of the lists of all programs. -/
structure HeapOk (h : MObj.Heap) : Prop where
  keys : ∀ l < h.nextList, (h.lists l).WF
  entry : ∀ l < h.nextList, ∀ e ∈ h.lists l,
    e.2 < h.nextMerge ∧ (h.merges e.2).pair = e.1 ∧ (h.merges e.2).priority ≠ none

theorem map_set (f : Nat → Merge) {d : Dict (Str × Str) Nat} (m : Nat) (h : ∀ e ∈ d, (f e.2).pair = e.1) :
    (d.set (f m).pair m).map (fun e => f e.2) = putV (d.map fun e => f e.2) (f m) := by
  induction d with
  | nil => rfl
  | cons x r ih =>
    have hx := h x List.mem_cons_self
    obtain ⟨k, v⟩ := x
    simp only at hx
    rw [Dict.set, List.map_cons, putV, hx]
    split
    · rfl
    · rw [List.map_cons, ih fun e he => h e (List.mem_cons_of_mem _ he)]

theorem mergesOf_length (h : MObj.Heap) (l : Nat) : (mergesOf h l).length = (h.lists l).length := List.length_map _

theorem pairs_mergesOf {h : MObj.Heap} (hk : HeapOk h) {l : Nat} (hl : l < h.nextList) (p : Str × Str) :
    Pairs (mergesOf h l) p ↔ p ∈ (h.lists l).keys := by
  constructor
  · rintro ⟨mg, hm, rfl⟩
    obtain ⟨e, he, rfl⟩ := List.mem_map.1 hm
    rw [(hk.entry l hl e he).2.1]
    exact List.mem_map.2 ⟨e, he, rfl⟩
  · intro hp
    obtain ⟨e, he, rfl⟩ := List.mem_map.1 hp
    exact ⟨_, List.mem_map.2 ⟨e, he, rfl⟩, (hk.entry l hl e he).2.1⟩

theorem put_ok {h : MObj.Heap} (hk : HeapOk h) {l m : Nat} (hm : m < h.nextMerge)
    (hp : (h.merges m).priority ≠ none) : HeapOk (h.put l m) := by
  refine ⟨fun k hkl => ?_, fun k hkl e he => ?_⟩
  · show (assign h.lists l _ k).WF
    by_cases e : k = l
    · subst e; rw [assign_same]; exact Dict.WF_set (hk.keys k hkl) _ _
    · rw [assign_other _ _ e]; exact hk.keys k hkl
  · replace he : e ∈ assign h.lists l _ k := he
    by_cases e' : k = l
    · subst e'
      rw [assign_same] at he
      rcases mem_set he with he | rfl
      · exact hk.entry k hkl e he
      · exact ⟨hm, rfl, hp⟩
    · rw [assign_other _ _ e'] at he; exact hk.entry k hkl e he

theorem setPriority_pair (h : MObj.Heap) (m p r : Nat) : ((h.setPriority m p).merges r).pair = (h.merges r).pair := by
  show (assign h.merges m _ r).pair = _
  by_cases e : r = m
  · subst e; rw [assign_same]
  · rw [assign_other _ _ e]

theorem setPriority_some {h : MObj.Heap} {m p r : Nat} (hp : (h.merges r).priority ≠ none) :
    ((h.setPriority m p).merges r).priority ≠ none := by
  show (assign h.merges m _ r).priority ≠ _
  by_cases e : r = m
  · subst e; rw [assign_same]; exact Option.some_ne_none _
  · rw [assign_other _ _ e]; exact hp

theorem setPriority_ok {h : MObj.Heap} (hk : HeapOk h) (m p : Nat) : HeapOk (h.setPriority m p) := by
  refine ⟨hk.keys, fun k hkl e he => ?_⟩
  obtain ⟨h1, h2, h3⟩ := hk.entry k hkl e he
  exact ⟨h1, by rw [setPriority_pair]; exact h2, setPriority_some h3⟩

theorem append_ok {h : MObj.Heap} (hk : HeapOk h) {l m : Nat} (hm : m < h.nextMerge) : HeapOk (h.append l m).2 := by
  unfold MObj.Heap.append
  split
  · refine put_ok (setPriority_ok hk _ _) hm ?_
    show (assign h.merges m _ m).priority ≠ none
    rw [assign_same]; exact Option.some_ne_none _
  · next p hp =>
    split
    · exact hk
    · exact put_ok hk hm (by rw [hp]; exact Option.some_ne_none _)

theorem newMerge_ok {h : MObj.Heap} (hk : HeapOk h) (mg : Merge) : HeapOk (h.newMerge mg).2 := by
  refine ⟨hk.keys, fun k hkl e he => ?_⟩
  obtain ⟨h1, h2, h3⟩ := hk.entry k hkl e he
  have : (h.newMerge mg).2.merges e.2 = h.merges e.2 := assign_other _ _ (Nat.ne_of_lt h1)
  rw [this]
  exact ⟨Nat.lt_succ_of_lt h1, h2, h3⟩

theorem newListOf_ok {h : MObj.Heap} (hk : HeapOk h) {d : Dict (Str × Str) Nat} (hd : d.WF)
    (he : ∀ e ∈ d, e.2 < h.nextMerge ∧ (h.merges e.2).pair = e.1 ∧ (h.merges e.2).priority ≠ none) :
    HeapOk (h.newListOf d).2 := by
  refine ⟨fun k hkl => ?_, fun k hkl e hm => ?_⟩
  · show (assign h.lists h.nextList d k).WF
    by_cases e : k = h.nextList
    · rw [e, assign_same]; exact hd
    · rw [assign_other _ _ e]
      have : k < h.nextList + 1 := hkl
      exact hk.keys k (by omega)
  · replace hm : e ∈ assign h.lists h.nextList d k := hm
    by_cases e' : k = h.nextList
    · rw [e', assign_same] at hm; exact he e hm
    · rw [assign_other _ _ e'] at hm
      have : k < h.nextList + 1 := hkl
      exact hk.entry k (by omega) e hm

/-! ## Copies -/

/-- What copying the entries of a list does. -/
structure Copied (h : MObj.Heap) (es : Dict (Str × Str) Nat) (d : Dict (Str × Str) Nat) (h' : MObj.Heap) : Prop where
  keys : d.keys = es.keys
  same : d.map (fun e => h'.merges e.2) = es.map fun e => h.merges e.2
  old : ∀ x < h.nextMerge, h'.merges x = h.merges x
  new : ∀ e ∈ d, h.nextMerge ≤ e.2 ∧ e.2 < h'.nextMerge
  nodup : (d.map (·.2)).Nodup
  lists : h'.lists = h.lists
  nextList : h'.nextList = h.nextList
  next : h.nextMerge ≤ h'.nextMerge

theorem copy_spec (es : Dict (Str × Str) Nat) : ∀ (h : MObj.Heap) (memo : List (Nat × Nat)),
    (es.map (·.2)).Nodup → (∀ e ∈ es, e.2 < h.nextMerge ∧ memo.lookup e.2 = none) →
    Copied h es (copyEntries h memo es).1 (copyEntries h memo es).2 := by
  induction es with
  | nil =>
    intro h memo _ _
    exact ⟨rfl, rfl, fun _ _ => rfl, fun e he => (nomatch he), List.nodup_nil, rfl, rfl, Nat.le_refl _⟩
  | cons e es ih =>
    intro h memo hn hm
    rw [List.map_cons, List.nodup_cons] at hn
    obtain ⟨he, hl⟩ := hm e List.mem_cons_self
    have hc : copyEntries h memo (e :: es) =
        ((e.1, h.nextMerge) :: (copyEntries (h.newMerge (h.merges e.2)).2 ((e.2, h.nextMerge) :: memo) es).1,
          (copyEntries (h.newMerge (h.merges e.2)).2 ((e.2, h.nextMerge) :: memo) es).2) := by
      rw [copyEntries, hl]; rfl
    rw [hc]
    have ih' := ih (h.newMerge (h.merges e.2)).2 ((e.2, h.nextMerge) :: memo) hn.2 (fun e' he' => by
      obtain ⟨h1, h2⟩ := hm e' (List.mem_cons_of_mem _ he')
      refine ⟨Nat.lt_succ_of_lt h1, ?_⟩
      have hne : e'.2 ≠ e.2 := fun e0 => hn.1 (e0 ▸ List.mem_map.2 ⟨e', he', rfl⟩)
      have : (e'.2 == e.2) = false := by simpa using hne
      rw [List.lookup_cons, this]; exact h2)
    generalize copyEntries (h.newMerge (h.merges e.2)).2 ((e.2, h.nextMerge) :: memo) es = r at ih'
    have hold : ∀ x < h.nextMerge, r.2.merges x = h.merges x := fun x hx => by
      rw [ih'.old x (Nat.lt_succ_of_lt hx)]; exact assign_other _ _ (Nat.ne_of_lt hx)
    have hnew : r.2.merges h.nextMerge = h.merges e.2 := by
      rw [ih'.old _ (Nat.lt_succ_self _)]; exact assign_same _ _ _
    have hnm : h.nextMerge + 1 ≤ r.2.nextMerge := ih'.next
    refine ⟨?_, ?_, hold, ?_, ?_, ih'.lists, ih'.nextList, Nat.le_of_succ_le hnm⟩
    · have := ih'.keys
      simp only [Dict.keys, List.map_cons] at this ⊢
      rw [this]
    · simp only [List.map_cons]
      rw [hnew, ih'.same]
      congr 1
      exact List.map_congr_left fun x hx => assign_other _ _ (Nat.ne_of_lt (hm x (List.mem_cons_of_mem _ hx)).1)
    · intro x hx
      rcases List.mem_cons.1 hx with rfl | hx
      · exact ⟨Nat.le_refl _, hnm⟩
      · have := ih'.new x hx
        exact ⟨Nat.le_of_succ_le this.1, this.2⟩
    · show (h.nextMerge :: r.1.map (·.2)).Nodup
      refine List.nodup_cons.2 ⟨fun hx => ?_, ih'.nodup⟩
      obtain ⟨x, hx, e0⟩ := List.mem_map.1 hx
      have : h.nextMerge + 1 ≤ x.2 := (ih'.new x hx).1
      omega

/-- No merge is twice in a list. -/
theorem refs_nodup {h : MObj.Heap} (hk : HeapOk h) {l : Nat} (hl : l < h.nextList) : ((h.lists l).map (·.2)).Nodup := by
  have hw : ((h.lists l).map (·.1)).Nodup := hk.keys l hl
  have he : (h.lists l).map (·.1) = ((h.lists l).map (·.2)).map fun r => (h.merges r).pair := by
    rw [List.map_map]
    exact List.map_congr_left fun e he => (hk.entry l hl e he).2.1.symm
  rw [he] at hw
  exact List.Nodup.of_map _ hw

/-- Copies of the entries of a list can be in a list. -/
theorem copied_ok {h h' : MObj.Heap} {es d : Dict (Str × Str) Nat} (hc : Copied h es d h') (hk : HeapOk h) : HeapOk h' := by
  refine ⟨fun l hl => ?_, fun l hl e he => ?_⟩
  · rw [hc.lists]; rw [hc.nextList] at hl; exact hk.keys l hl
  · rw [hc.lists] at he; rw [hc.nextList] at hl
    obtain ⟨h1, h2, h3⟩ := hk.entry l hl e he
    rw [hc.old _ h1]
    exact ⟨Nat.lt_of_lt_of_le h1 hc.next, h2, h3⟩

theorem copied_entry {h h' : MObj.Heap} {es d : Dict (Str × Str) Nat} (hc : Copied h es d h')
    (he : ∀ e ∈ es, (h.merges e.2).pair = e.1 ∧ (h.merges e.2).priority ≠ none) :
    ∀ e ∈ d, e.2 < h'.nextMerge ∧ (h'.merges e.2).pair = e.1 ∧ (h'.merges e.2).priority ≠ none := by
  intro e hm
  obtain ⟨i, hi, rfl⟩ := List.getElem_of_mem hm
  have hlen : d.length = es.length := by have := congrArg List.length hc.keys; simpa [Dict.keys] using this
  have hi' : i < es.length := hlen ▸ hi
  have hs : h'.merges d[i].2 = h.merges es[i].2 := by
    have := congrArg (·[i]?) hc.same
    simpa [hi, hi'] using this
  have hk : d[i].1 = es[i].1 := by
    have := congrArg (·[i]?) hc.keys
    simpa [Dict.keys, hi, hi'] using this
  rw [hs, hk]
  exact ⟨(hc.new _ hm).2, he _ (List.getElem_mem hi')⟩

theorem copy_list {h : MObj.Heap} (hk : HeapOk h) {l : Nat} (hl : l < h.nextList) :
    Copied h (h.lists l) (copyEntries h [] (h.lists l)).1 (copyEntries h [] (h.lists l)).2 :=
  copy_spec _ h [] (refs_nodup hk hl) fun e he => ⟨(hk.entry l hl e he).1, rfl⟩

/-! ## The loop of `__add__` -/

/-- The loop for values. -/
def addV (n : Nat) : List Merge → List Merge → Except PyErr (List Merge)
  | acc, [] => .ok acc
  | acc, mg :: r =>
    match mg.priority with
    | none => .error .typeError
    | some p => if p + n ≠ acc.length then .error .valueError else addV n (putV acc { mg with priority := some (p + n) }) r

/-- What the loop leaves as it was. -/
structure Kept (h h' : MObj.Heap) (dst : Nat) (rs : List Nat) : Prop where
  lists : ∀ l, l ≠ dst → h'.lists l = h.lists l
  merges : ∀ r, r ∉ rs → h'.merges r = h.merges r
  nextMerge : h'.nextMerge = h.nextMerge
  nextList : h'.nextList = h.nextList

theorem addLoop_cons (h : MObj.Heap) (dst n r : Nat) (rs : List Nat) {p : Nat} (hp : (h.merges r).priority = some p) :
    h.addLoop dst n (r :: rs) =
      if p + n ≠ (h.lists dst).length then (.error .valueError, h.setPriority r (p + n))
      else ((h.setPriority r (p + n)).put dst r).addLoop dst n rs := by
  have hq : ((h.setPriority r (p + n)).merges r).priority = some (p + n) := by
    show (assign h.merges r _ r).priority = _
    rw [assign_same]
  have ha : (h.setPriority r (p + n)).append dst r =
      if p + n ≠ (h.lists dst).length then (.error .valueError, h.setPriority r (p + n))
      else (.ok (), (h.setPriority r (p + n)).put dst r) := by
    unfold MObj.Heap.append
    rw [hq]; rfl
  rw [MObj.Heap.addLoop, hp]
  simp only [ha]
  by_cases hc : p + n ≠ (h.lists dst).length
  · rw [if_pos hc, if_pos hc]
  · rw [if_neg hc, if_neg hc]

theorem setPriority_other (h : MObj.Heap) {m r : Nat} (p : Nat) (e : r ≠ m) : (h.setPriority m p).merges r = h.merges r :=
  assign_other _ _ e

theorem setPriority_same (h : MObj.Heap) (m p : Nat) : (h.setPriority m p).merges m = { h.merges m with priority := some p } :=
  assign_same _ _ _

theorem addLoop_kept (dst n : Nat) (rs : List Nat) : ∀ h : MObj.Heap, Kept h (h.addLoop dst n rs).2 dst rs := by
  induction rs with
  | nil => intro h; exact ⟨fun _ _ => rfl, fun _ _ => rfl, rfl, rfl⟩
  | cons r rs ih =>
    intro h
    cases hp : (h.merges r).priority with
    | none =>
      rw [MObj.Heap.addLoop, hp]
      exact ⟨fun _ _ => rfl, fun _ _ => rfl, rfl, rfl⟩
    | some p =>
      rw [addLoop_cons h dst n r rs hp]
      split
      · exact ⟨fun _ _ => rfl, fun x hx => setPriority_other h _ fun e => hx (e ▸ List.mem_cons_self), rfl, rfl⟩
      · have := ih ((h.setPriority r (p + n)).put dst r)
        refine ⟨fun l hl => ?_, fun x hx => ?_, this.nextMerge, this.nextList⟩
        · rw [this.lists l hl]; exact assign_other _ _ hl
        · rw [this.merges x fun hm => hx (List.mem_cons_of_mem _ hm)]
          exact setPriority_other h _ fun e => hx (e ▸ List.mem_cons_self)

theorem addLoop_ok (dst n : Nat) (rs : List Nat) : ∀ h : MObj.Heap, HeapOk h → (∀ r ∈ rs, r < h.nextMerge) →
    HeapOk (h.addLoop dst n rs).2 := by
  induction rs with
  | nil => intro h hk _; exact hk
  | cons r rs ih =>
    intro h hk hr
    cases hp : (h.merges r).priority with
    | none => rw [MObj.Heap.addLoop, hp]; exact hk
    | some p =>
      rw [addLoop_cons h dst n r rs hp]
      split
      · exact setPriority_ok hk _ _
      · refine ih _ (put_ok (setPriority_ok hk _ _) (hr r List.mem_cons_self) ?_) fun x hx => hr x (List.mem_cons_of_mem _ hx)
        rw [setPriority_same]; exact Option.some_ne_none _

theorem addLoop_values (dst n : Nat) (rs : List Nat) : ∀ h : MObj.Heap, rs.Nodup →
    (∀ e ∈ h.lists dst, (h.merges e.2).pair = e.1 ∧ e.2 ∉ rs) →
    match addV n (mergesOf h dst) (rs.map h.merges) with
    | .ok ms => (h.addLoop dst n rs).1 = .ok () ∧ mergesOf (h.addLoop dst n rs).2 dst = ms
    | .error e => (h.addLoop dst n rs).1 = .error e := by
  induction rs with
  | nil => intro h _ _; exact ⟨rfl, rfl⟩
  | cons r rs ih =>
    intro h hn he
    rw [List.nodup_cons] at hn
    rw [List.map_cons, addV]
    cases hp : (h.merges r).priority with
    | none => simp only; rw [MObj.Heap.addLoop, hp]
    | some p =>
      simp only
      rw [addLoop_cons h dst n r rs hp, mergesOf_length]
      by_cases hc : p + n ≠ (h.lists dst).length
      · rw [if_pos hc, if_pos hc]
      · rw [if_neg hc, if_neg hc]
        have hm : mergesOf ((h.setPriority r (p + n)).put dst r) dst =
            putV (mergesOf h dst) { h.merges r with priority := some (p + n) } := by
          show (assign h.lists dst ((h.lists dst).set ((h.setPriority r (p + n)).merges r).pair r) dst).map _ = _
          rw [assign_same]
          have h1 := map_set (h.setPriority r (p + n)).merges (d := h.lists dst) r fun e hm => by
            rw [setPriority_pair]; exact (he e hm).1
          refine h1.trans ?_
          rw [setPriority_same]
          congr 1
          exact List.map_congr_left fun e hm => setPriority_other h _ fun e0 => (he e hm).2 (e0 ▸ List.mem_cons_self)
        have hrs : rs.map ((h.setPriority r (p + n)).put dst r).merges = rs.map h.merges :=
          List.map_congr_left fun x hx => setPriority_other h _ fun e0 => hn.1 (e0 ▸ hx)
        have := ih ((h.setPriority r (p + n)).put dst r) hn.2 (fun e hm => by
          replace hm : e ∈ assign h.lists dst ((h.lists dst).set ((h.setPriority r (p + n)).merges r).pair r) dst := hm
          rw [assign_same] at hm
          show ((h.setPriority r (p + n)).merges e.2).pair = e.1 ∧ _
          rw [setPriority_pair]
          rcases mem_set hm with hm | rfl
          · exact ⟨(he e hm).1, fun h0 => (he e hm).2 (List.mem_cons_of_mem _ h0)⟩
          · exact ⟨(setPriority_pair h r (p + n) r).symm, hn.1⟩)
        rw [hm, hrs] at this
        exact this

/-! ## Adding lists -/

/-- `a + b` after the copies were made. -/
def addTail (c : Nat) (e : Dict (Str × Str) Nat × MObj.Heap) : Except PyErr Nat × MObj.Heap :=
  match e.2.addLoop c (e.2.lists c).length (e.1.map (·.2)) with
  | (.error e, h) => (.error e, h)
  | (.ok _, h) => (.ok c, h)

theorem add_def (h : MObj.Heap) (a b : Nat) :
    h.add a b = addTail (h.deepCopy a).1 (copyEntries (h.deepCopy a).2 [] ((h.deepCopy a).2.lists b)) := rfl

/-- What `a + b` does, in terms of values. -/
theorem add_values {h : MObj.Heap} (hk : HeapOk h) {a b : Nat} (ha : a < h.nextList) (hb : b < h.nextList) :
    Untouched h (h.add a b).2 ∧ HeapOk (h.add a b).2 ∧ (h.add a b).2.nextList = h.nextList + 1 ∧
    match addV (mergesOf h a).length (mergesOf h a) (mergesOf h b) with
    | .ok ms => (h.add a b).1 = .ok h.nextList ∧ mergesOf (h.add a b).2 h.nextList = ms
    | .error e => (h.add a b).1 = .error e := by
  have hc := copy_list hk ha
  generalize hr : copyEntries h [] (h.lists a) = r at hc
  obtain ⟨d1, h1⟩ := r
  simp only at hc
  have hk1 := copied_ok hc hk
  have he1 := copied_entry hc fun e he => (hk.entry a ha e he).2
  have hk2 : HeapOk (h1.newListOf d1).2 := newListOf_ok hk1 (by rw [Dict.WF, hc.keys]; exact hk.keys a ha) he1
  have hd : h.deepCopy a = (h1.newListOf d1) := by rw [MObj.Heap.deepCopy, hr]
  have hb2 : b < (h1.newListOf d1).2.nextList := by
    show b < h1.nextList + 1
    rw [hc.nextList]; omega
  have hlb : (h1.newListOf d1).2.lists b = h.lists b := by
    show assign h1.lists h1.nextList d1 b = _
    rw [assign_other _ _ (by rw [hc.nextList]; omega), hc.lists]
  have hc2 := copy_list hk2 hb2
  generalize hr2 : copyEntries (h1.newListOf d1).2 [] ((h1.newListOf d1).2.lists b) = r2 at hc2
  obtain ⟨d2, h2⟩ := r2
  simp only at hc2
  have hk3 := copied_ok hc2 hk2
  have hadd : h.add a b = match h2.addLoop h1.nextList (h2.lists h1.nextList).length (d2.map (·.2)) with
      | (.error e, h) => (.error e, h)
      | (.ok _, h) => (.ok h1.nextList, h) := by
    rw [add_def, hd, hr2]; rfl
  have hl1 : h2.lists h1.nextList = d1 := by rw [hc2.lists]; exact assign_same _ _ _
  have hm1 : mergesOf h2 h1.nextList = mergesOf h a := by
    unfold mergesOf
    rw [hl1]
    refine Eq.trans ?_ hc.same
    exact List.map_congr_left fun e he => hc2.old _ (hc.new e he).2
  have hm2 : (d2.map (·.2)).map h2.merges = mergesOf h b := by
    rw [List.map_map]
    refine hc2.same.trans ?_
    rw [hlb]
    exact List.map_congr_left fun e he => hc.old _ (hk.entry b hb e he).1
  have hv := addLoop_values h1.nextList (h2.lists h1.nextList).length (d2.map (·.2)) h2 hc2.nodup (fun e he => by
    rw [hl1] at he
    obtain ⟨q1, q2, _⟩ := he1 e he
    refine ⟨?_, fun h0 => ?_⟩
    · rw [hc2.old _ q1]; exact q2
    · obtain ⟨x, hx, e0⟩ := List.mem_map.1 h0
      have : h1.nextMerge ≤ x.2 := (hc2.new x hx).1
      omega)
  have hkept := addLoop_kept h1.nextList (h2.lists h1.nextList).length (d2.map (·.2)) h2
  have hok := addLoop_ok h1.nextList (h2.lists h1.nextList).length (d2.map (·.2)) h2 hk3 (fun r hr => by
    obtain ⟨x, hx, rfl⟩ := List.mem_map.1 hr
    exact (hc2.new x hx).2)
  have hlen : (h2.lists h1.nextList).length = (mergesOf h a).length := by rw [← hm1, mergesOf_length]
  rw [hm1, hm2, hlen] at hv
  rw [hlen] at hkept hok hadd
  generalize hL : h2.addLoop h1.nextList (mergesOf h a).length (d2.map (·.2)) = L at hv hkept hok hadd
  obtain ⟨L1, L2⟩ := L
  simp only at hv hkept hok
  have hsnd : (h.add a b).2 = L2 := by rw [hadd]; cases L1 <;> rfl
  have hfst : (h.add a b).1 = L1.map fun _ => h1.nextList := by rw [hadd]; cases L1 <;> rfl
  have hmerge : ∀ m < h.nextMerge, L2.merges m = h.merges m := fun m hm => by
    rw [hkept.merges m, hc2.old m (Nat.lt_of_lt_of_le hm hc.next)]
    · exact hc.old m hm
    · intro h0
      obtain ⟨x, hx, e0⟩ := List.mem_map.1 h0
      have h3 : h1.nextMerge ≤ x.2 := (hc2.new x hx).1
      have h4 := hc.next
      omega
  rw [hsnd, hfst]
  refine ⟨⟨fun l hl => ?_, hmerge⟩, hok, ?_, ?_⟩
  · unfold mergesOf
    rw [hkept.lists l (by rw [hc.nextList]; omega), hc2.lists]
    show List.map _ (assign h1.lists h1.nextList d1 l) = _
    rw [assign_other _ _ (by rw [hc.nextList]; omega), hc.lists]
    exact List.map_congr_left fun e he => hmerge _ (hk.entry l hl e he).1
  · rw [hkept.nextList, hc2.nextList]
    show h1.nextList + 1 = _
    rw [hc.nextList]
  · rw [← hc.nextList]
    cases hV : addV (mergesOf h a).length (mergesOf h a) (mergesOf h b) with
    | error e => rw [hV] at hv; simp only at hv ⊢; rw [hv]; rfl
    | ok ms => rw [hV] at hv; simp only at hv ⊢; rw [hv.1]; exact ⟨rfl, hv.2⟩

theorem noObjects_ok : HeapOk noObjects := ⟨fun _ h => (nomatch h), fun _ h => (nomatch h)⟩

theorem history_ok {h : MObj.Heap} (hh : MergeHistory h) : HeapOk h := by
  induction hh with
  | start => exact noObjects_ok
  | newMerge mg _ ih => exact newMerge_ok ih mg
  | newList _ ih => exact newListOf_ok ih List.nodup_nil fun e he => (nomatch he)
  | append _ _ hm ih => exact append_ok ih hm
  | add _ ha hb ih => exact (add_values ih ha hb).2.1

/-- The pairs of a list are different. -/
theorem pairs_nodup {h : MObj.Heap} (hk : HeapOk h) {l : Nat} (hl : l < h.nextList) :
    ((mergesOf h l).map (·.pair)).Nodup := by
  have : (mergesOf h l).map (·.pair) = (h.lists l).keys := by
    unfold mergesOf Dict.keys
    rw [List.map_map]
    exact List.map_congr_left fun e he => (hk.entry l hl e he).2.1
  rw [this]; exact hk.keys l hl

theorem addV_new (n : Nat) (xs : List Merge) : ∀ (ys acc : List Merge) (k : Nat), acc.length = k + n →
    (∀ (i : Nat) (mg : Merge), xs[i]? = some mg → mg.priority = some (k + i)) → (xs.map (·.pair)).Nodup →
    (∀ mg ∈ xs, ¬ Pairs acc mg.pair) → addV n acc (xs ++ ys) = addV n (acc ++ later n xs) ys := by
  induction xs with
  | nil => intro ys acc k _ _ _ _; simp [later]
  | cons x xs ih =>
    intro ys acc k hl hr hn hp
    rw [List.map_cons, List.nodup_cons] at hn
    have hx : x.priority = some k := hr 0 x rfl
    have hc : ¬ (k + n ≠ acc.length) := fun e => e hl.symm
    rw [List.cons_append, addV, hx]
    simp only
    rw [if_neg hc, putV_new (mg := { x with priority := some (k + n) }) (hp x List.mem_cons_self)]
    rw [ih ys (acc ++ [({ x with priority := some (k + n) } : Merge)]) (k + 1) (by rw [List.length_append, hl]; simp; omega) (fun i mg h => by
      rw [hr (i + 1) mg h]; congr 1; omega) hn.2 (fun mg hm => ?_)]
    · simp [later, hx]
    · rintro ⟨y, hy, e⟩
      rcases List.mem_append.1 hy with hy | hy
      · exact hp mg (List.mem_cons_of_mem _ hm) ⟨y, hy, e⟩
      · rw [List.mem_singleton.1 hy] at e
        exact hn.1 (List.mem_map.2 ⟨mg, hm, e.symm⟩)

theorem later_length (n : Nat) (xs : List Merge) : (later n xs).length = xs.length := List.length_map _

/-! ## The theorems -/

/-- **C79** A merge can be appended to a list exactly if it has no priority yet or its priority is the length of the list.  Its
priority is the length of the list then, and it is the last merge of the list unless its pair is in the list.  No other list and
no other merge changes. -/
theorem C79_append {h : MObj.Heap} (hh : MergeHistory h) {l m : Nat} (hl : l < h.nextList) (hm : m < h.nextMerge)
    (hp : (h.merges m).priority = none ∨ (h.merges m).priority = some (mergesOf h l).length) :
    ∃ h', h.append l m = (.ok (), h') ∧
      h'.merges m = { h.merges m with priority := some (mergesOf h l).length } ∧
      (¬ Pairs (mergesOf h l) (h.merges m).pair → mergesOf h' l = mergesOf h l ++ [h'.merges m]) ∧
      (∀ k < h.nextList, k ≠ l → mergesOf h' k = mergesOf h k) ∧
      (∀ x < h.nextMerge, x ≠ m → h'.merges x = h.merges x) := by
  have hk := history_ok hh
  have hlen : (h.lists l).length = (mergesOf h l).length := (mergesOf_length h l).symm
  -- it is as if the priority were assigned in both cases
  have hs : h.append l m = (.ok (), (h.setPriority m (h.lists l).length).put l m) := by
    unfold MObj.Heap.append
    rcases hp with hp | hp
    · rw [hp]
    · rw [hp, hlen]
      simp only [ne_eq, not_true_eq_false, if_false]
      have : h.setPriority m (mergesOf h l).length = h := by
        unfold MObj.Heap.setPriority
        have : assign h.merges m { h.merges m with priority := some (mergesOf h l).length } = h.merges := by
          funext x
          by_cases e : x = m
          · subst e; rw [assign_same, ← hp]
          · exact assign_other _ _ e
        rw [this]
      rw [this]
  -- the merge is in no list if it has no priority
  have hsame : ∀ k < h.nextList, (h.lists k).map (fun e => (h.setPriority m (h.lists l).length).merges e.2) = mergesOf h k := by
    intro k hk'
    refine List.map_congr_left fun e he => ?_
    by_cases e0 : e.2 = m
    · obtain ⟨_, _, q⟩ := hk.entry k hk' e he
      rcases hp with hp | hp
      · rw [e0] at q; exact absurd hp q
      · rw [e0, setPriority_same, hlen, ← hp]
    · exact setPriority_other h _ e0
  have hmm : ((h.setPriority m (h.lists l).length).put l m).merges m =
      { h.merges m with priority := some (mergesOf h l).length } := by
    rw [← hlen]; exact setPriority_same h m _
  refine ⟨_, hs, hmm, fun hnew => ?_, fun k hkl hne => ?_, fun x _ hne => setPriority_other h _ hne⟩
  · rw [hmm]
    show (assign h.lists l ((h.lists l).set ((h.setPriority m (h.lists l).length).merges m).pair m) l).map _ = _
    rw [assign_same]
    have h1 := map_set (h.setPriority m (h.lists l).length).merges (d := h.lists l) m fun e he => by
      rw [setPriority_pair]; exact (hk.entry l hl e he).2.1
    refine h1.trans ?_
    rw [hsame l hl, setPriority_same, hlen]
    exact putV_new (mg := { h.merges m with priority := some (mergesOf h l).length }) hnew
  · show (assign h.lists l _ k).map _ = _
    rw [assign_other _ _ hne]
    exact hsame k hkl

/-- **C79** … otherwise nothing happens. -/
theorem C79_append_refused (h : MObj.Heap) {l m p : Nat} (hp : (h.merges m).priority = some p)
    (hne : p ≠ (mergesOf h l).length) : h.append l m = (.error .valueError, h) := by
  unfold MObj.Heap.append
  rw [hp]
  rw [mergesOf_length] at hne
  exact if_pos hne

/-- **C79** Appending a merge whose pair is in the list replaces the one that is there: the length stays the same, and the
priority is no position of the list. -/
theorem C79_append_again {h : MObj.Heap} (hh : MergeHistory h) {l m : Nat} (hl : l < h.nextList) (hm : m < h.nextMerge)
    {xs ys : List Merge} {x : Merge} (hx : mergesOf h l = xs ++ x :: ys) (he : x.pair = (h.merges m).pair)
    {h' : MObj.Heap} (ha : h.append l m = (.ok (), h')) :
    mergesOf h' l = xs ++ { h.merges m with priority := some (mergesOf h l).length } :: ys := by
  have hk := history_ok hh
  have hp : (h.merges m).priority = none ∨ (h.merges m).priority = some (mergesOf h l).length := by
    cases hp : (h.merges m).priority with
    | none => exact .inl rfl
    | some p =>
      by_cases e : p = (mergesOf h l).length
      · exact .inr (by rw [e])
      · rw [C79_append_refused h hp e] at ha; cases ha
  obtain ⟨h2, ha2, hmm, _, _, hoth⟩ := C79_append hh hl hm hp
  have e2 : h2 = h' := by rw [ha2] at ha; exact (Prod.mk.inj ha).2
  subst e2
  have hlist : h2.lists l = (h.lists l).set (h.merges m).pair m := by
    have : h2 = (h.append l m).2 := by rw [ha2]
    rw [this]
    unfold MObj.Heap.append
    rcases hp with hp | hp
    · rw [hp]
      show assign h.lists l ((h.lists l).set ((h.setPriority m (h.lists l).length).merges m).pair m) l = _
      rw [assign_same, setPriority_pair]
    · rw [hp, mergesOf_length]
      simp only [ne_eq, not_true_eq_false, if_false]
      exact assign_same _ _ _
  have hsame : (h.lists l).map (fun e => h2.merges e.2) = mergesOf h l := by
    refine List.map_congr_left fun e he' => ?_
    obtain ⟨q1, _, q⟩ := hk.entry l hl e he'
    by_cases e0 : e.2 = m
    · rw [e0] at q
      rw [e0, hmm]
      rcases hp with hp | hp
      · exact absurd hp q
      · rw [← hp]
    · exact hoth _ q1 e0
  have h1 := map_set h2.merges (d := h.lists l) m fun e he' => by
    obtain ⟨q1, q2, _⟩ := hk.entry l hl e he'
    by_cases e0 : e.2 = m
    · rw [e0, hmm]; rw [e0] at q2; exact q2
    · rw [hoth _ q1 e0]; exact q2
  have hpair : (h2.merges m).pair = (h.merges m).pair := by rw [hmm]
  rw [hpair] at h1
  unfold mergesOf at hx ⊢
  rw [hlist, h1, hsame]
  unfold mergesOf
  rw [hx, hmm]
  have hn := pairs_nodup hk hl
  unfold mergesOf at hn
  rw [hx, List.map_append, List.map_cons, List.nodup_append] at hn
  have hnp : ¬ Pairs xs (h.merges m).pair := by
    rintro ⟨z, hz, hzp⟩
    exact hn.2.2 z.pair (List.mem_map.2 ⟨z, hz, rfl⟩) x.pair List.mem_cons_self (by rw [hzp, he])
  have hlen : (mergesOf h l).length = (xs ++ x :: ys).length := by unfold mergesOf; rw [hx]
  rw [hlen]
  exact putV_old (mg := { h.merges m with priority := some (xs ++ x :: ys).length }) hnp he

/-- **C79** Whatever `a + b` does, it changes no list and no merge that existed before. -/
theorem C79_add_untouched {h : MObj.Heap} (hh : MergeHistory h) {a b : Nat} (ha : a < h.nextList) (hb : b < h.nextList) :
    Untouched h (h.add a b).2 := (add_values (history_ok hh) ha hb).1

/-- **C79** If the lists have no pair in common, and the priorities of the second one are its positions, then `a + b` is a new list
with the merges of both, those of the second one with priorities that begin after those of the first one. -/
theorem C79_add {h : MObj.Heap} (hh : MergeHistory h) {a b : Nat} (ha : a < h.nextList) (hb : b < h.nextList)
    (hr : Ranked (mergesOf h b)) (hd : ∀ p, Pairs (mergesOf h a) p → ¬ Pairs (mergesOf h b) p) :
    ∃ h', h.add a b = (.ok h.nextList, h') ∧ h'.nextList = h.nextList + 1 ∧
      mergesOf h' h.nextList = mergesOf h a ++ later (mergesOf h a).length (mergesOf h b) := by
  have hk := history_ok hh
  obtain ⟨_, _, hnl, hv⟩ := add_values hk ha hb
  have := addV_new (mergesOf h a).length (mergesOf h b) [] (mergesOf h a) 0 (by omega) (fun i mg hi => by
    rw [Nat.zero_add]; exact hr i mg hi) (pairs_nodup hk hb) fun mg hm hp => hd _ hp ⟨mg, hm, rfl⟩
  rw [List.append_nil] at this
  rw [this, addV] at hv
  exact ⟨(h.add a b).2, by rw [← hv.1], hnl, hv.2⟩

/-- **C79** If a pair that is not the last one of the second list is in the first one, then `a + b` is refused. -/
theorem C79_add_refused {h : MObj.Heap} (hh : MergeHistory h) {a b : Nat} (ha : a < h.nextList) (hb : b < h.nextList)
    (hr : Ranked (mergesOf h b)) {x : Merge} (hx : x ∈ (mergesOf h b).dropLast) (hp : Pairs (mergesOf h a) x.pair) :
    (h.add a b).1 = .error .valueError := by
  have hk := history_ok hh
  obtain ⟨_, _, _, hv⟩ := add_values hk ha hb
  -- the first one that is in the first list
  have hfirst : ∀ bs : List Merge, (∃ x ∈ bs.dropLast, Pairs (mergesOf h a) x.pair) →
      ∃ xs y z zs, bs = xs ++ y :: z :: zs ∧ Pairs (mergesOf h a) y.pair ∧ ∀ w ∈ xs, ¬ Pairs (mergesOf h a) w.pair := by
    intro bs
    induction bs with
    | nil => rintro ⟨_, h, _⟩; cases h
    | cons w bs ih =>
      rintro ⟨x, hx, hp⟩
      cases bs with
      | nil => cases hx
      | cons z zs =>
        by_cases hw : Pairs (mergesOf h a) w.pair
        · exact ⟨[], w, z, zs, rfl, hw, fun _ h => (nomatch h)⟩
        · rw [List.dropLast_cons_of_ne_nil (List.cons_ne_nil _ _)] at hx
          rcases List.mem_cons.1 hx with rfl | hx
          · exact absurd hp hw
          · obtain ⟨xs, y, z', zs', e, h1, h2⟩ := ih ⟨x, hx, hp⟩
            refine ⟨w :: xs, y, z', zs', by rw [e]; rfl, h1, fun v hv => ?_⟩
            rcases List.mem_cons.1 hv with rfl | hv
            · exact hw
            · exact h2 v hv
  obtain ⟨xs, y, z, zs, e, h1, h2⟩ := hfirst _ ⟨x, hx, hp⟩
  have hn := pairs_nodup hk hb
  rw [e] at hn hr
  have hN := hn
  rw [List.map_append, List.nodup_append] at hn
  have h3 := addV_new (mergesOf h a).length xs (y :: z :: zs) (mergesOf h a) 0 (by omega) (fun i mg hi => by
    rw [Nat.zero_add]
    refine hr i mg ?_
    rw [List.getElem?_append_left (List.getElem?_eq_some_iff.1 hi).1]; exact hi) hn.1 h2
  have hy : y.priority = some xs.length := hr xs.length y (by simp)
  have hz : z.priority = some (xs.length + 1) := hr (xs.length + 1) z (by simp)
  have hl : (mergesOf h a ++ later (mergesOf h a).length xs).length = xs.length + (mergesOf h a).length := by
    rw [List.length_append, later_length]; omega
  have hold : Pairs (mergesOf h a ++ later (mergesOf h a).length xs) y.pair := by
    obtain ⟨w, hw, q⟩ := h1
    exact ⟨w, List.mem_append_left _ hw, q⟩
  have hlen := putV_length_old (mg := { y with priority := some (xs.length + (mergesOf h a).length) }) hold
  have h4 : addV (mergesOf h a).length (mergesOf h a ++ later (mergesOf h a).length xs) (y :: z :: zs) = .error .valueError := by
    rw [addV, hy]
    simp only
    rw [if_neg (fun q => q hl.symm), addV, hz]
    simp only
    refine if_pos ?_
    rw [hlen, hl]
    omega
  rw [e, h3, h4] at hv
  exact hv

/-- **C79** If only the last pair of the second list is in the first one, then `a + b` is a list, but the priorities are not the
positions: the last merge takes the place of the one with the same pair. -/
theorem C79_add_last_violated {h : MObj.Heap} (hh : MergeHistory h) {a b : Nat} (ha : a < h.nextList) (hb : b < h.nextList)
    {bs : List Merge} {y : Merge} (hbs : mergesOf h b = bs ++ [y]) (hr : Ranked (bs ++ [y]))
    (hnew : ∀ mg ∈ bs, ¬ Pairs (mergesOf h a) mg.pair) {xs ys : List Merge} {x : Merge} (hxs : mergesOf h a = xs ++ x :: ys)
    (he : x.pair = y.pair) :
    ∃ h', h.add a b = (.ok h.nextList, h') ∧
      mergesOf h' h.nextList = xs ++ { y with priority := some (bs.length + (mergesOf h a).length) } :: ys ++
        later (mergesOf h a).length bs ∧
      ¬ Ranked (mergesOf h' h.nextList) := by
  have hk := history_ok hh
  obtain ⟨_, _, _, hv⟩ := add_values hk ha hb
  have hn := pairs_nodup hk hb
  rw [hbs, List.map_append, List.nodup_append] at hn
  have h3 := addV_new (mergesOf h a).length bs [y] (mergesOf h a) 0 (by omega) (fun i mg hi => by
    rw [Nat.zero_add]
    refine hr i mg ?_
    rw [List.getElem?_append_left (List.getElem?_eq_some_iff.1 hi).1]; exact hi) hn.1 hnew
  have hy : y.priority = some bs.length := hr bs.length y (by simp)
  have hl : (mergesOf h a ++ later (mergesOf h a).length bs).length = bs.length + (mergesOf h a).length := by
    rw [List.length_append, later_length]; omega
  have hna := pairs_nodup hk ha
  rw [hxs, List.map_append, List.map_cons, List.nodup_append] at hna
  have hnp : ¬ Pairs xs ({ y with priority := some (bs.length + (mergesOf h a).length) } : Merge).pair := by
    rintro ⟨z, hz, hzp⟩
    exact hna.2.2 z.pair (List.mem_map.2 ⟨z, hz, rfl⟩) x.pair List.mem_cons_self (by rw [hzp, he])
  have h4 : addV (mergesOf h a).length (mergesOf h a ++ later (mergesOf h a).length bs) [y] =
      .ok (xs ++ { y with priority := some (bs.length + (mergesOf h a).length) } :: ys ++
        later (mergesOf h a).length bs) := by
    rw [addV, hy]
    simp only
    rw [if_neg (fun q => q hl.symm), addV]
    congr 1
    have h5 := putV_old (ys := ys ++ later (mergesOf h a).length bs) hnp
      (show x.pair = ({ y with priority := some (bs.length + (mergesOf h a).length) } : Merge).pair from he)
    have h6 : mergesOf h a ++ later (mergesOf h a).length bs = xs ++ x :: (ys ++ later (mergesOf h a).length bs) := by
      rw [← List.cons_append, ← List.append_assoc, ← hxs]
    rw [h6, h5, List.append_assoc, List.cons_append]
  rw [hbs, h3, h4] at hv
  refine ⟨(h.add a b).2, by rw [← hv.1], hv.2, fun hR => ?_⟩
  have := hR xs.length { y with priority := some (bs.length + (mergesOf h a).length) } (by rw [hv.2]; simp)
  have h7 : bs.length + (mergesOf h a).length = xs.length := Option.some.inj this
  rw [hxs] at h7
  simp at h7
  omega

/-- **C79** In all lists of programs that never put a pair into a list twice, the priorities are the positions. -/
theorem C79_ranked {h : MObj.Heap} (hh : CarefulHistory h) :
    MergeHistory h ∧ ∀ l < h.nextList, Ranked (mergesOf h l) := by
  induction hh with
  | start => exact ⟨.start, fun _ h => (nomatch h)⟩
  | @newMerge h mg _ ih =>
    refine ⟨.newMerge mg ih.1, fun l hl => ?_⟩
    have : mergesOf (h.newMerge mg).2 l = mergesOf h l := by
      refine List.map_congr_left fun e he => ?_
      exact assign_other _ _ (Nat.ne_of_lt ((history_ok ih.1).entry l hl e he).1)
    rw [this]; exact ih.2 l hl
  | @newList h _ ih =>
    refine ⟨.newList ih.1, fun l hl => ?_⟩
    replace hl : l < h.nextList + 1 := hl
    by_cases e : l = h.nextList
    · have : mergesOf h.newList.2 l = [] := by
        show (assign h.lists h.nextList [] l).map _ = _
        rw [e, assign_same]; rfl
      rw [this]
      intro i mg hi
      cases hi
    · have : mergesOf h.newList.2 l = mergesOf h l := by
        show (assign h.lists h.nextList [] l).map _ = _
        rw [assign_other _ _ e]; rfl
      rw [this]
      exact ih.2 l (by omega)
  | @append h l m _ hl hm hnew ih =>
    refine ⟨.append ih.1 hl hm, ?_⟩
    by_cases hp : (h.merges m).priority = none ∨ (h.merges m).priority = some (mergesOf h l).length
    · obtain ⟨h', ha, hmm, h1, h2, _⟩ := C79_append ih.1 hl hm hp
      have hnl : (h.append l m).2.nextList = h.nextList := by
        unfold MObj.Heap.append
        split
        · rfl
        · split <;> rfl
      rw [ha] at hnl ⊢
      intro k hkl
      by_cases e : k = l
      · subst e
        rw [h1 hnew]
        intro i mg hi
        by_cases hi' : i < (mergesOf h k).length
        · rw [List.getElem?_append_left hi'] at hi
          exact ih.2 k hl i mg hi
        · have hlt := (List.getElem?_eq_some_iff.1 hi).1
          have : i = (mergesOf h k).length := by simp at hlt; omega
          subst this
          simp at hi
          rw [← hi, hmm]
      · rw [h2 k (by rw [← hnl]; exact hkl) e]
        exact ih.2 k (by rw [← hnl]; exact hkl)
    · cases hq : (h.merges m).priority with
      | none => exact absurd (.inl hq) hp
      | some p =>
        rw [C79_append_refused h hq (fun e => hp (.inr (by rw [hq, e])))]
        exact ih.2
  | @add h a b _ ha hb hd ih =>
    refine ⟨.add ih.1 ha hb, ?_⟩
    have hu := C79_add_untouched ih.1 ha hb
    obtain ⟨h', hadd, hnl, hm⟩ := C79_add ih.1 ha hb (ih.2 b hb) hd
    rw [hadd] at hu ⊢
    intro l hl
    replace hl : l < h'.nextList := hl
    by_cases e : l = h.nextList
    · subst e
      show Ranked (mergesOf h' h.nextList)
      rw [hm]
      intro i mg hi
      by_cases hi' : i < (mergesOf h a).length
      · rw [List.getElem?_append_left hi'] at hi
        exact ih.2 a ha i mg hi
      · rw [List.getElem?_append_right (by omega)] at hi
        unfold later at hi
        rw [List.getElem?_map] at hi
        obtain ⟨mg', h1, rfl⟩ := Option.map_eq_some_iff.1 hi
        have := ih.2 b hb _ mg' h1
        simp only [this, Option.map_some]
        congr 1
        omega
    · have hl' : l < h.nextList := by omega
      rw [hu.lists l hl']
      exact ih.2 l hl'

/-! ### A program

It makes two lists and three merges, appends the first two merges to the first list and the third one to the second, and adds the
lists. -/

/-- The objects before the lists are added. -/
def demo : MObj.Heap :=
  let h := noObjects.newList.2.newList.2
  let h := (h.newMerge ⟨("a".toList, "b".toList), some 7, none⟩).2
  let h := (h.newMerge ⟨("c".toList, "d".toList), some 5, some 1⟩).2
  let h := (h.newMerge ⟨("e".toList, "f".toList), some 3, none⟩).2
  (((h.append 0 0).2.append 0 1).2.append 1 2).2

theorem demo_careful : CarefulHistory demo := by
  refine .append (.append (.append (.newMerge _ (.newMerge _ (.newMerge _ (.newList (.newList .start))))) ?_ ?_ ?_) ?_ ?_ ?_) ?_ ?_ ?_
  all_goals first
    | decide
    | (rintro ⟨mg, hm, hp⟩
       revert hp
       revert mg
       decide)

example : mergesOf demo 0 = [⟨("a".toList, "b".toList), some 7, some 0⟩, ⟨("c".toList, "d".toList), some 5, some 1⟩] ∧
    mergesOf demo 1 = [⟨("e".toList, "f".toList), some 3, some 0⟩] := by decide

/-- The sum, and the lists after it was made. -/
example : (demo.add 0 1).1 = .ok 2 ∧
    mergesOf (demo.add 0 1).2 2 = [⟨("a".toList, "b".toList), some 7, some 0⟩, ⟨("c".toList, "d".toList), some 5, some 1⟩,
      ⟨("e".toList, "f".toList), some 3, some 2⟩] ∧
    mergesOf (demo.add 0 1).2 1 = [⟨("e".toList, "f".toList), some 3, some 0⟩] := by decide

/-- A list cannot be added to itself (`C79_add_refused`), … -/
example : (demo.add 0 0).1 = .error .valueError := by decide

/-- … unless it has only one merge (`C79_add_last_violated`). -/
example : (demo.add 1 1).1 = .ok 2 ∧ mergesOf (demo.add 1 1).2 2 = [⟨("e".toList, "f".toList), some 3, some 1⟩] := by decide

/-- The third merge has the priority 0 now, so that it cannot be appended to the first list, … -/
example : demo.append 0 2 = (.error .valueError, demo) :=
  C79_append_refused demo (p := 0) rfl (by decide)

/-- … but to a new one. -/
example : (demo.newList.2.append 2 2).1 = .ok () := by decide

/-! ## Files with merges -/

theorem append_rank {m : MergeList} {mg : Merge} {k : Nat} (hp : mg.priority = some k) :
    m.append mg = if k ≠ m.length then .error .valueError else .ok (m.set mg.pair (mg.freq, k)) := by
  unfold MergeList.append
  rw [hp]

theorem set_length_new {m : MergeList} {p : Str × Str} {v : Option Int × Nat} (h : p ∉ m.keys) :
    (m.set p v).length = m.length + 1 := by rw [Dict.set_of_not_mem _ _ _ h]; simp

theorem set_length_old {m : MergeList} {p : Str × Str} {v : Option Int × Nat} (h : p ∈ m.keys) :
    (m.set p v).length = m.length := by
  have := congrArg List.length (Dict.set_of_mem_keys m p v h)
  simpa [Dict.keys] using this

theorem parse_priority {line : Str} {k : Nat} {mg : Merge} (h : parseFileEntry line k = .ok mg) : mg.priority = some k := by
  unfold parseFileEntry at h
  cases hn : toNonLiteral line with
  | error e => rw [hn] at h; cases h
  | ok t =>
    rw [hn] at h
    simp only [bind, Except.bind] at h
    split at h
    · cases h; rfl
    · next c _ _ =>
      cases hi : pyInt c with
      | error e => rw [hi] at h; cases h
      | ok f => rw [hi] at h; cases h; rfl
    · cases h

theorem readLoop_iff (lines : List Str) : ∀ (mgs : List Merge) (k : Nat) (m : MergeList), LinesSay k lines mgs → m.length = k →
    ((∃ m', readMergesLoop none k m lines = .ok m') ↔
      (mgs.dropLast.map (·.pair)).Nodup ∧ ∀ mg ∈ mgs.dropLast, mg.pair ∉ m.keys) := by
  induction lines with
  | nil =>
    intro mgs k m hs _
    cases hs
    exact ⟨fun _ => ⟨List.nodup_nil, fun _ h => (nomatch h)⟩, fun _ => ⟨m, rfl⟩⟩
  | cons line lines ih =>
    intro mgs k m hs hl
    cases hs with
    | @cons _ _ mg _ mgs hp hs =>
    have hstep : readMergesLoop none k m (line :: lines) = readMergesLoop none (k + 1) (m.set mg.pair (mg.freq, k)) lines := by
      rw [readMergesLoop]
      rw [if_neg (show ¬ (limitReached none k = true) by simp [limitReached]), hp]
      simp only [bind, Except.bind]
      rw [append_rank (parse_priority hp), if_neg (fun q => q hl.symm)]
    rw [hstep]
    cases hs with
    | nil => exact ⟨fun _ => ⟨List.nodup_nil, fun _ h => (nomatch h)⟩, fun _ => ⟨_, rfl⟩⟩
    | @cons _ line2 mg2 lines2 mgs2 hp2 hs2 =>
      have hd : (mg :: mg2 :: mgs2).dropLast = mg :: (mg2 :: mgs2).dropLast := rfl
      rw [hd]
      by_cases hm : mg.pair ∈ m.keys
      · -- the length does not grow, the next line is refused
        have hlen : (m.set mg.pair (mg.freq, k)).length = k := by rw [set_length_old hm, hl]
        constructor
        · rintro ⟨m', h⟩
          rw [readMergesLoop] at h
          rw [if_neg (show ¬ (limitReached none (k + 1) = true) by simp [limitReached]), hp2] at h
          simp only [bind, Except.bind] at h
          rw [append_rank (parse_priority hp2), if_pos (by rw [hlen]; omega)] at h
          cases h
        · rintro ⟨_, h⟩
          exact absurd hm (h mg List.mem_cons_self)
      · have hlen : (m.set mg.pair (mg.freq, k)).length = k + 1 := by rw [set_length_new hm, hl]
        rw [ih (mg2 :: mgs2) (k + 1) _ (.cons hp2 hs2) hlen, Dict.set_of_not_mem _ _ _ hm]
        simp only [List.map_cons, List.nodup_cons, List.mem_cons, forall_eq_or_imp, Dict.keys, List.map_append, List.map_nil,
          List.mem_append, List.mem_singleton, List.mem_map, not_or]
        constructor
        · rintro ⟨h1, h2⟩
          exact ⟨⟨fun ⟨x, hx, e⟩ => (h2 x hx).2.1 e, h1⟩, fun ⟨e, he, q⟩ => hm (q ▸ List.mem_map.2 ⟨e, he, rfl⟩),
            fun x hx => (h2 x hx).1⟩
        · rintro ⟨⟨h1, h2⟩, _, h3⟩
          exact ⟨h2, fun x hx => ⟨h3 x hx, fun e => h1 ⟨x, hx, e⟩, fun q => (nomatch q)⟩⟩

/-- **C79** A file whose lines are merges can be read exactly if all pairs but the last one are different. -/
theorem C79_file (text : Str) (mgs : List Merge) (h : LinesSay 0 (readLines text) mgs) :
    (∃ m, readMerges text none = .ok m) ↔ (mgs.dropLast.map (·.pair)).Nodup := by
  rw [readMerges, readLoop_iff (readLines text) mgs 0 [] h rfl]
  exact ⟨fun h => h.1, fun h => ⟨h, fun _ _ q => (nomatch q)⟩⟩

theorem readLoop_all (lines : List Str) : ∀ (mgs : List Merge) (k : Nat) (m : MergeList), LinesSay k lines mgs → m.length = k →
    (mgs.map (·.pair)).Nodup → (∀ mg ∈ mgs, mg.pair ∉ m.keys) →
    readMergesLoop none k m lines = .ok (m ++ mgs.mapIdx fun i mg => (mg.pair, (mg.freq, k + i))) := by
  induction lines with
  | nil =>
    intro mgs k m hs _ _ _
    cases hs
    simp [readMergesLoop]
  | cons line lines ih =>
    intro mgs k m hs hl hn hk
    cases hs with
    | @cons _ _ mg _ mgs hp hs =>
    rw [List.map_cons, List.nodup_cons] at hn
    have hnew := hk mg List.mem_cons_self
    rw [readMergesLoop]
    rw [if_neg (show ¬ (limitReached none k = true) by simp [limitReached]), hp]
    simp only [bind, Except.bind]
    rw [append_rank (parse_priority hp), if_neg (fun q => q hl.symm), Dict.set_of_not_mem _ _ _ hnew]
    simp only
    rw [ih mgs (k + 1) _ hs (by simp [hl]) hn.2 (fun x hx => ?_), List.mapIdx_cons]
    · simp only [List.append_assoc, List.cons_append, List.nil_append, Nat.add_zero]
      congr 3
      refine congrArg (List.mapIdx · mgs) (funext fun i => funext fun x => ?_)
      rw [Nat.add_right_comm, Nat.add_assoc k i 1]
    · simp only [Dict.keys, List.map_append, List.map_cons, List.map_nil, List.mem_append, List.mem_singleton, not_or]
      exact ⟨hk x (List.mem_cons_of_mem _ hx), fun e => hn.1 (List.mem_map.2 ⟨x, hx, e⟩)⟩

/-- **C79** If all pairs are different, then every line is one merge, and its priority is the number of the line. -/
theorem C79_file_lines (text : Str) (mgs : List Merge) (h : LinesSay 0 (readLines text) mgs) (hn : (mgs.map (·.pair)).Nodup) :
    readMerges text none = .ok (mgs.mapIdx fun i mg => (mg.pair, (mg.freq, i))) := by
  rw [readMerges, readLoop_all (readLines text) mgs 0 [] h rfl hn fun _ _ q => (nomatch q)]
  simp

example : LinesSay 0 (readLines "a b 5\nc d 3\n".toList)
    [⟨("a".toList, "b".toList), some 5, some 0⟩, ⟨("c".toList, "d".toList), some 3, some 1⟩] :=
  .cons (by decide) (.cons (by decide) (.nil _))

/-- **C79** A pair in the last line may be in the file before; its merge is not where its priority says. -/
theorem C79_file_violated :
    readMerges "a b 5\na b 3\n".toList none = .ok [(("a".toList, "b".toList), (some 3, 1))] ∧
    readMerges "a b 5\na b 3\nc d 2\n".toList none = .error .valueError := by
  constructor <;> rfl

end Verif.Props.Share
