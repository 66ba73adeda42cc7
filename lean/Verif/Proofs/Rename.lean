import Verif.Spec.Rename
import Verif.Model.BpeLearner
/-!
# Lemmas about renaming characters
-/
namespace Verif.Ren
open Verif Spec

/-- A dictionary with other keys. -/
def mapK {α α' β : Type} (g : α → α') (d : Dict α β) : Dict α' β := d.map fun e => (g e.1, e.2)

section dict
variable {α α' β : Type} [DecidableEq α] [DecidableEq α'] {g : α → α'} (hg : ∀ a b, g a = g b → a = b)
include hg

omit [DecidableEq α] [DecidableEq α'] in
theorem eq_iff (a b : α) : g a = g b ↔ a = b := ⟨hg a b, fun h => by rw [h]⟩

theorem get?_mapK (d : Dict α β) (k : α) : (mapK g d).get? (g k) = d.get? k := by
  induction d with
  | nil => rfl
  | cons e d ih =>
    obtain ⟨a, b⟩ := e
    show Dict.get? ((g a, b) :: mapK g d) (g k) = _
    unfold Dict.get?
    simp only [eq_iff hg, ih]

theorem set_mapK (d : Dict α β) (k : α) (x : β) : (mapK g d).set (g k) x = mapK g (d.set k x) := by
  induction d with
  | nil => rfl
  | cons e d ih =>
    obtain ⟨a, b⟩ := e
    show Dict.set ((g a, b) :: mapK g d) (g k) x = _
    unfold Dict.set
    simp only [eq_iff hg, ih]
    split <;> rfl

theorem del_mapK (d : Dict α β) (k : α) : (mapK g d).del (g k) = mapK g (d.del k) := by
  unfold mapK Dict.del
  rw [List.filter_map]
  congr 1
  apply List.filter_congr
  intro e _
  simp only [Function.comp, ne_eq, eq_iff hg]

end dict

section queue
variable {α α' : Type}

/-- An entry of the queue with another key. -/
def entry (g : α → α') (e : PQEntry α) : PQEntry α' := ⟨e.prio, e.count, e.key.map g⟩

/-- The queue with other keys. -/
def queue (g : α → α') (c : PriorityCounter α) : PriorityCounter α' := ⟨c.next, c.pq.map (entry g), mapK g c.finder⟩

theorem heapPop_entry (g : α → α') (l : List (PQEntry α)) :
    heapPop (l.map (entry g)) = (heapPop l).map fun x => (entry g x.1, x.2.map (entry g)) := by
  induction l with
  | nil => rfl
  | cons e r ih =>
    rw [List.map_cons]
    unfold heapPop
    rw [ih]
    cases heapPop r with
    | none => rfl
    | some x =>
      obtain ⟨e', r'⟩ := x
      simp only [Option.map_some]
      show (if e.before e' = true then _ else _) = _
      split <;> rfl

variable [DecidableEq α] [DecidableEq α'] {g : α → α'} (hg : ∀ a b, g a = g b → a = b)
include hg

theorem removeTask_queue (c : PriorityCounter α) (x : α) : (queue g c).removeTask (g x) = (c.removeTask x).map (queue g) := by
  unfold PriorityCounter.removeTask
  rw [show (queue g c).finder.get? (g x) = c.finder.get? x from get?_mapK hg _ _]
  cases c.finder.get? x with
  | none => rfl
  | some y =>
    obtain ⟨p, cnt⟩ := y
    simp only [Option.map_some]
    unfold queue
    simp only [Option.some.injEq, PriorityCounter.mk.injEq, true_and]
    refine ⟨?_, del_mapK hg _ _⟩
    rw [List.map_map, List.map_map]
    apply List.map_congr_left
    intro e _
    simp only [Function.comp]
    show (if e.count = cnt then _ else _) = _
    split <;> rfl

theorem add_queue (c : PriorityCounter α) (x : α) (n : Int) : (queue g c).add (g x) n = (c.add x n).map (queue g) := by
  unfold PriorityCounter.add
  simp only
  rw [show (queue g c).finder.get? (g x) = c.finder.get? x from get?_mapK hg _ _]
  cases hx : c.finder.get? x with
  | none =>
    simp only
    split
    · simp only [Option.map_some]
      unfold queue
      simp only [Option.some.injEq, PriorityCounter.mk.injEq, true_and]
      exact ⟨rfl, set_mapK hg _ _ _⟩
    · rfl
  | some y =>
    obtain ⟨p, cnt⟩ := y
    simp only
    have hr := removeTask_queue hg { c with next := c.next + 1 } x
    rw [show ({ queue g c with next := (queue g c).next + 1 } : PriorityCounter α') = queue g { c with next := c.next + 1 } from rfl, hr]
    cases PriorityCounter.removeTask { c with next := c.next + 1 } x with
    | none => rfl
    | some c' =>
      simp only [Option.map_some]
      split
      · simp only [Option.map_some]
        unfold queue
        simp only [Option.some.injEq, PriorityCounter.mk.injEq]
        exact ⟨trivial, rfl, set_mapK hg _ _ _⟩
      · rfl

theorem popLoop_queue : ∀ (n : Nat) (c : PriorityCounter α),
    PriorityCounter.popLoop n (queue g c) = (PriorityCounter.popLoop n c).map fun x => (g x.1, x.2.1, queue g x.2.2)
  | 0, c => rfl
  | n + 1, c => by
    unfold PriorityCounter.popLoop
    rw [show (queue g c).pq = c.pq.map (entry g) from rfl, heapPop_entry]
    cases heapPop c.pq with
    | none => rfl
    | some x =>
      obtain ⟨e, r⟩ := x
      obtain ⟨p, cnt, key⟩ := e
      cases key with
      | none => exact popLoop_queue n { c with pq := r }
      | some y =>
        simp only [Option.map_some, entry, Option.some.injEq, Prod.mk.injEq, true_and]
        unfold queue
        simp only [PriorityCounter.mk.injEq, true_and]
        exact del_mapK hg _ _

theorem popPair_queue (c : PriorityCounter α) : (queue g c).popPair = c.popPair.map fun x => (g x.1, x.2.1, queue g x.2.2) := by
  unfold PriorityCounter.popPair
  rw [show (queue g c).pq.length = c.pq.length from List.length_map ..]
  exact popLoop_queue hg _ _

omit hg [DecidableEq α] [DecidableEq α'] in
theorem init_queue (d : Dict α Int) : PriorityCounter.init (mapK g d) = queue g (PriorityCounter.init d) := by
  have he : ∀ (d : Dict α Int) (n : Nat), PriorityCounter.initEntries n (mapK g d) = (PriorityCounter.initEntries n d).map (entry g) := by
    intro d
    induction d with
    | nil => intro n; rfl
    | cons e d ih =>
      intro n
      obtain ⟨a, b⟩ := e
      show _ :: PriorityCounter.initEntries (n + 1) (mapK g d) = _
      rw [ih]
      rfl
  unfold PriorityCounter.init queue
  simp only [PriorityCounter.mk.injEq]
  refine ⟨by unfold mapK; rw [List.length_map], he d 0, ?_⟩
  rw [he d 0]
  unfold mapK
  rw [List.filterMap_map, List.map_filterMap]
  congr 1
  funext e
  obtain ⟨p, cnt, key⟩ := e
  cases key <;> rfl

end queue

/-! ## Learning -/

section learn
variable {f : Char → Char} (hf : ∀ a b, f a = f b → a = b)
include hf

/-- A text with renamed characters. -/
abbrev txt (f : Char → Char) : Str → Str := List.map f

/-- A pair with renamed characters. -/
abbrev pr (f : Char → Char) (p : Pair) : Pair := (txt f p.1, txt f p.2)

theorem txt_inj : ∀ a b : Str, txt f a = txt f b → a = b
  | [], [], _ => rfl
  | [], _ :: _, h => by cases h
  | _ :: _, [], h => by cases h
  | a :: r, b :: s, h => by
    have h1 : f a = f b := (List.cons.inj h).1
    have h2 : txt f r = txt f s := (List.cons.inj h).2
    rw [hf _ _ h1, txt_inj r s h2]

theorem txts_inj : ∀ a b : List Str, a.map (txt f) = b.map (txt f) → a = b
  | [], [], _ => rfl
  | [], _ :: _, h => by cases h
  | _ :: _, [], h => by cases h
  | a :: r, b :: s, h => by
    have h1 : txt f a = txt f b := (List.cons.inj h).1
    have h2 : r.map (txt f) = s.map (txt f) := (List.cons.inj h).2
    rw [txt_inj hf _ _ h1, txts_inj r s h2]

theorem pr_inj (p q : Pair) (h : pr f p = pr f q) : p = q :=
  Prod.ext (txt_inj hf _ _ (Prod.mk.inj h).1) (txt_inj hf _ _ (Prod.mk.inj h).2)

theorem bump_mapK (d : Dict Pair Int) (p : Pair) (x : Int) : bump (mapK (pr f) d) (pr f p) x = mapK (pr f) (bump d p x) := by
  unfold bump
  rw [get?_mapK (pr_inj hf)]
  exact set_mapK (pr_inj hf) d p _

theorem statsWord_mapK (n : Nat) : ∀ (w : List Str) (d : Dict Pair Int),
    statsWord n (w.map (txt f)) (mapK (pr f) d) = mapK (pr f) (statsWord n w d)
  | a :: b :: r, d => by
    rw [List.map_cons, List.map_cons, statsWord, statsWord, ← statsWord_mapK n (b :: r) (bump d (a, b) n), ← bump_mapK hf]
    rfl
  | [], d => rfl
  | [a], d => rfl

theorem statsDict_mapK (v : SplitVocab) : statsDict (renamedWords f v) = mapK (pr f) (statsDict v) := by
  unfold statsDict
  have : ∀ (v : SplitVocab) (d : Dict Pair Int), (renamedWords f v).foldl (fun d e => statsWord e.2 e.1 d) (mapK (pr f) d) =
      mapK (pr f) (v.foldl (fun d e => statsWord e.2 e.1 d) d) := by
    intro v
    induction v with
    | nil => intro d; rfl
    | cons e v ih =>
      intro d
      show List.foldl _ (statsWord e.2 (e.1.map (txt f)) (mapK (pr f) d)) (renamedWords f v) = _
      rw [statsWord_mapK hf, ih]
      rfl
  exact this v []

theorem findPair_map (p : Pair) : ∀ w : List Str,
    findPair (pr f p) (w.map (txt f)) = (findPair p w).map fun x => (x.1.map (txt f), x.2.map (txt f))
  | [] => rfl
  | [_] => rfl
  | a :: b :: r => by
    have ih := findPair_map p (b :: r)
    rw [List.map_cons, List.map_cons, findPair, findPair]
    have h1 : (txt f a = (pr f p).1 ∧ txt f b = (pr f p).2) ↔ (a = p.1 ∧ b = p.2) := by
      constructor
      · exact fun h => ⟨txt_inj hf _ _ h.1, txt_inj hf _ _ h.2⟩
      · exact fun h => ⟨by rw [h.1], by rw [h.2]⟩
    by_cases h : a = p.1 ∧ b = p.2
    · rw [if_pos (h1.2 h), if_pos h]
      rfl
    · rw [if_neg fun x => h (h1.1 x), if_neg h]
      rw [List.map_cons] at ih
      rw [ih]
      cases findPair p (b :: r) <;> rfl

/-- Changes of the numbers of renamed pairs. -/
abbrev changes (f : Char → Char) (l : List (Pair × Int)) : List (Pair × Int) := l.map fun e => (pr f e.1, e.2)

theorem addedFor_changes (p : Pair) (occ : Nat) (pre post : List Str) :
    addedFor (pr f p) occ (pre.map (txt f)) (post.map (txt f)) = changes f (addedFor p occ pre post) := by
  have hne : ∀ q : Pair, (pr f p ≠ pr f q) ↔ p ≠ q := fun q => not_congr (eq_iff (pr_inj hf) p q)
  unfold addedFor changes
  rw [List.map_append, List.getLast?_map, List.head?_map]
  congr 1
  · cases pre.getLast? with
    | none => rfl
    | some b =>
      simp only [Option.map_some]
      rw [List.map_cons]
      congr 1
      · simp [pr, txt]
      · have := hne (b, p.1)
        by_cases h : p ≠ (b, p.1)
        · rw [if_pos h, if_pos (this.2 h)]; rfl
        · rw [if_neg h, if_neg fun x => h (this.1 x)]; rfl
  · cases post.head? with
    | none => rfl
    | some b =>
      simp only [Option.map_some]
      rw [List.map_cons]
      congr 1
      · simp [pr, txt]
      · have := hne (p.2, b)
        by_cases h : p ≠ (p.2, b)
        · rw [if_pos h, if_pos (this.2 h)]; rfl
        · rw [if_neg h, if_neg fun x => h (this.1 x)]; rfl

theorem mergeWord_changes (p : Pair) (occ : Nat) : ∀ (n : Nat) (w : List Str) (acc : List (Pair × Int)),
    mergeWord (pr f p) occ n (w.map (txt f)) (changes f acc) =
      ((mergeWord p occ n w acc).1.map (txt f), changes f (mergeWord p occ n w acc).2)
  | 0, w, acc => rfl
  | n + 1, w, acc => by
    unfold mergeWord
    rw [findPair_map hf]
    cases findPair p w with
    | none => rfl
    | some x =>
      obtain ⟨pre, post⟩ := x
      simp only [Option.map_some]
      rw [addedFor_changes hf, ← List.map_append, ← mergeWord_changes p occ n (pre ++ (p.1 ++ p.2) :: post)]
      congr 1 <;> simp [txt, changes]

theorem mergeVocabLoop_changes (p : Pair) : ∀ (v out : SplitVocab) (acc : List (Pair × Int)),
    mergeVocabLoop (pr f p) (renamedWords f v) (renamedWords f out) (changes f acc) =
      (renamedWords f (mergeVocabLoop p v out acc).1, changes f (mergeVocabLoop p v out acc).2)
  | [], out, acc => rfl
  | (w, occ) :: r, out, acc => by
    show mergeVocabLoop (pr f p) ((w.map (txt f), occ) :: renamedWords f r) _ _ = _
    unfold mergeVocabLoop
    simp only [List.length_map, mergeWord_changes hf]
    rw [show Dict.set (renamedWords f out) ((mergeWord p occ w.length w acc).1.map (txt f)) occ =
        renamedWords f (Dict.set out (mergeWord p occ w.length w acc).1 occ) from set_mapK (txts_inj hf) out _ occ]
    exact mergeVocabLoop_changes p r _ _

theorem addAll_queue : ∀ (l : List (Pair × Int)) (c : PriorityCounter Pair),
    addAll (queue (pr f) c) (changes f l) = (addAll c l).map (queue (pr f))
  | [], c => rfl
  | (p, x) :: r, c => by
    show addAll (queue (pr f) c) ((pr f p, x) :: changes f r) = _
    unfold addAll
    rw [add_queue (pr_inj hf)]
    cases c.add p x with
    | none => rfl
    | some c' => exact addAll_queue r c'

theorem append_renamed (ms : MergeList) (p : Pair) (n : Option Int) (i : Option Nat) :
    MergeList.append (renamedMerges f ms) ⟨pr f p, n, i⟩ = (MergeList.append ms ⟨p, n, i⟩).map (renamedMerges f) := by
  unfold MergeList.append
  simp only
  rw [show (renamedMerges f ms).length = ms.length from List.length_map ..]
  cases i with
  | none => exact congrArg Except.ok (set_mapK (pr_inj hf) ms p _)
  | some i =>
    simp only
    split
    · rfl
    · exact congrArg Except.ok (set_mapK (pr_inj hf) ms p _)

theorem doMergesLoop_renamed : ∀ (n i : Nat) (v : SplitVocab) (c : PriorityCounter Pair) (ms : MergeList),
    doMergesLoop n i (renamedWords f v) (queue (pr f) c) (renamedMerges f ms) =
      (doMergesLoop n i v c ms).map fun x => (renamedWords f x.1, renamedMerges f x.2)
  | 0, i, v, c, ms => rfl
  | n + 1, i, v, c, ms => by
    unfold doMergesLoop
    rw [popPair_queue (pr_inj hf)]
    cases c.popPair with
    | none => rfl
    | some x =>
      obtain ⟨best, occ, c'⟩ := x
      simp only [Option.map_some]
      rw [append_renamed hf]
      cases MergeList.append ms ⟨best, some occ, some i⟩ with
      | error e => rfl
      | ok ms' =>
        have hv := mergeVocabLoop_changes hf best v [] []
        have hv' : mergeVocab (pr f best) (renamedWords f v) = (renamedWords f (mergeVocab best v).1, changes f (mergeVocab best v).2) := hv
        show (Except.bind (addAll (queue (pr f) c') (mergeVocab (pr f best) (renamedWords f v)).2) _) = _
        rw [hv', addAll_queue hf]
        show _ = Except.map _ (Except.bind (addAll c' (mergeVocab best v).2) _)
        cases addAll c' (mergeVocab best v).2 with
        | error e => rfl
        | ok c'' => exact doMergesLoop_renamed n (i + 1) (mergeVocab best v).1 c'' ms'

theorem doMerges_renamed (n : Nat) (v : SplitVocab) :
    doMerges (renamedWords f v) n = (doMerges v n).map fun x => (renamedWords f x.1, renamedMerges f x.2) := by
  unfold doMerges getStats
  rw [statsDict_mapK hf, init_queue]
  exact doMergesLoop_renamed hf n 0 v _ []

end learn

/-! ## Splitting -/

section encode
variable {f : Char → Char} (hf : Renaming f)
include hf

omit hf in
theorem txt_cons (c : Char) (s : Str) : txt f (c :: s) = f c :: txt f s := rfl

theorem is_mark (c : Char) : f c = escChar ↔ c = escChar :=
  ⟨fun h => hf.inj _ _ (h.trans hf.mark.symm), fun h => by rw [h]; exact hf.mark⟩

theorem is_space (c : Char) : f c = ' ' ↔ c = ' ' :=
  ⟨fun h => hf.inj _ _ (h.trans hf.space.symm), fun h => by rw [h]; exact hf.space⟩

theorem priority_renamed (m : MergeList) (p : Pair) : MergeList.priority? (renamedMerges f m) (pr f p) = m.priority? p := by
  unfold MergeList.priority?
  rw [show Dict.get? (renamedMerges f m) (pr f p) = m.get? p from get?_mapK (pr_inj hf.inj) m p]

theorem scanFrom_renamed (m : MergeList) : ∀ (l : List Str) (i : Nat) (st : ScanState),
    scanFrom (renamedMerges f m) i (l.map (txt f)) st = scanFrom m i l st
  | [], _, _ => rfl
  | [_], _, _ => rfl
  | a :: b :: r, i, st => by
    have e : scanStep (renamedMerges f m) i (txt f a) (txt f b) st = scanStep m i a b st := by
      unfold scanStep
      rw [show MergeList.priority? (renamedMerges f m) (txt f a, txt f b) = m.priority? (a, b) from priority_renamed hf m (a, b)]
    rw [List.map_cons, List.map_cons, scanFrom, scanFrom, e, ← scanFrom_renamed m (b :: r)]
    rfl

omit hf in
theorem applyIndices_renamed (subs : List Str) : ∀ (idx : List Nat) (start : Nat) (acc : List Str),
    applyIndices (subs.map (txt f)) idx start (acc.map (txt f)) = (applyIndices subs idx start acc).map (List.map (txt f))
  | [], start, acc => by
    rw [applyIndices, applyIndices, ← List.map_drop, ← List.map_append]
    rfl
  | mi :: r, start, acc => by
    rw [applyIndices, applyIndices, List.getElem?_map, List.getElem?_map]
    cases subs[mi]? with
    | none => rfl
    | some a =>
      cases subs[mi + 1]? with
      | none => rfl
      | some b =>
        simp only [Option.map_some]
        rw [← applyIndices_renamed subs r]
        congr 1
        simp [List.map_drop, List.map_take, txt]

theorem encodeLoop_renamed (m : MergeList) (n : Nat) (l : List Str) :
    encodeLoop (renamedMerges f m) n (l.map (txt f)) = (encodeLoop m n l).map (List.map (txt f)) := by
  induction n generalizing l with
  | zero =>
    unfold encodeLoop
    simp only [scanFrom_renamed hf]
    split <;> rfl
  | succ n ih =>
    unfold encodeLoop
    simp only [scanFrom_renamed hf]
    split
    · rfl
    · have := applyIndices_renamed (f := f) l (scanFrom m 0 l ([], sysMaxsize)).1 0 []
      rw [List.map_nil] at this
      rw [this]
      cases applyIndices l (scanFrom m 0 l ([], sysMaxsize)).1 0 [] with
      | error e => rfl
      | ok x => exact ih x

theorem pySplit_renamed (s : Str) : pySplit ' ' (txt f s) = (pySplit ' ' s).map (txt f) := by
  induction s with
  | nil => rfl
  | cons c s ih =>
    rw [txt_cons, pySplit, pySplit, ih]
    by_cases h : c = ' '
    · rw [if_pos h, if_pos ((is_space hf c).2 h)]
      rfl
    · rw [if_neg h, if_neg fun x => h ((is_space hf c).1 x)]
      cases pySplit ' ' s <;> rfl

theorem pyJoin_renamed : ∀ l : List Str, pyJoin [' '] (l.map (txt f)) = txt f (pyJoin [' '] l)
  | [] => rfl
  | [_] => rfl
  | a :: b :: r => by
    have ih := pyJoin_renamed (b :: r)
    rw [List.map_cons] at ih
    rw [List.map_cons, List.map_cons, pyJoin, pyJoin, ih]
    simp [txt, hf.space]

theorem toCharList_renamed : ∀ w : Str, toCharList (txt f w) = (toCharList w).map (List.map (txt f))
  | [] => rfl
  | [_] => rfl
  | c :: d :: r => by
    have i1 := toCharList_renamed (d :: r)
    have i2 := toCharList_renamed r
    rw [txt_cons] at i1
    rw [txt_cons, txt_cons, toCharList, toCharList]
    by_cases h : c = escChar
    · have h' := (is_mark hf c).2 h
      rw [if_neg (c := f c ≠ escChar) fun x => x h', if_neg (c := c ≠ escChar) fun x => x h]
      by_cases g : d = escChar
      · rw [if_pos g, if_pos ((is_mark hf d).2 g), i2]
        cases toCharList r <;> rfl
      · rw [if_neg g, if_neg fun x => g ((is_mark hf d).1 x)]
        rfl
    · rw [if_pos h, if_pos fun x => h ((is_mark hf c).1 x), i1]
      cases toCharList (d :: r) <;> rfl

theorem escape_renamed (w : Str) : escape (txt f w) true = txt f (escape w true) := by
  unfold escape
  simp only [if_true]
  have hd : doubleEsc (txt f w) = txt f (doubleEsc w) := by
    unfold doubleEsc
    induction w with
    | nil => rfl
    | cons c w ih =>
      rw [txt_cons, List.flatMap_cons, ih, List.flatMap_cons, txt, List.map_append]
      congr 1
      by_cases h : c = escChar
      · rw [if_pos h, if_pos ((is_mark hf c).2 h)]
        show [escChar, escChar] = [f escChar, f escChar]
        rw [show f escChar = escChar from hf.mark]
      · rw [if_neg h, if_neg fun x => h ((is_mark hf c).1 x)]
        rfl
  rw [hd, txt, List.map_append]
  show _ = _ ++ [f escChar]
  rw [show f escChar = escChar from hf.mark]

theorem undoubleEsc_renamed : ∀ w : Str, undoubleEsc (txt f w) = txt f (undoubleEsc w)
  | [] => rfl
  | [_] => rfl
  | c :: d :: r => by
    have i1 := undoubleEsc_renamed (d :: r)
    have i2 := undoubleEsc_renamed r
    rw [txt_cons] at i1
    rw [txt_cons, txt_cons, undoubleEsc, undoubleEsc]
    by_cases h : c = escChar ∧ d = escChar
    · rw [if_pos h, if_pos ⟨(is_mark hf c).2 h.1, (is_mark hf d).2 h.2⟩, i2, txt, List.map_cons]
      rw [show f escChar = escChar from hf.mark]
    · rw [if_neg h, if_neg fun x => h ⟨(is_mark hf c).1 x.1, (is_mark hf d).1 x.2⟩, i1]
      rfl

theorem unescape_renamed (l : List Str) :
    unescape (l.map (txt f)) = (unescape l).map fun x => (x.1.map (txt f), x.2.map (txt f)) := by
  unfold unescape
  rw [List.getLast?_map]
  cases l.getLast? with
  | none => rfl
  | some a =>
    simp only [Option.map_some, txt, List.getLast?_map]
    cases a.getLast? with
    | none => rfl
    | some c =>
      simp only [Option.map_some]
      by_cases h : c = escChar
      · rw [if_neg fun x => x ((is_mark hf c).2 h), if_neg fun x => x h]
        have e : (List.map (List.map f) l).dropLast = l.dropLast.map (txt f) := (List.map_dropLast ..).symm
        rw [e, ← List.map_dropLast]
        simp only [Except.map, Except.ok.injEq, Prod.mk.injEq, List.map_append, List.map_map, List.map_cons, List.map_nil]
        refine ⟨?_, trivial⟩
        congr 1
        · exact List.map_congr_left fun x _ => undoubleEsc_renamed hf x
        · rw [show undoubleEsc (List.map f a.dropLast) = _ from undoubleEsc_renamed hf _]
      · rw [if_pos fun x => h ((is_mark hf c).1 x), if_pos h]
        rfl

theorem encodeWord_renamed (w : Str) (m : MergeList) :
    encodeWord (txt f w) (renamedMerges f m) = (encodeWord w m).map (List.map (txt f)) := by
  unfold encodeWord
  rw [toCharList_renamed hf]
  cases toCharList w with
  | error e => rfl
  | ok cl =>
    simp only [Except.map, bind, Except.bind, pyJoin_renamed hf, pySplit_renamed hf, List.length_map, encodeLoop_renamed hf]
    cases encodeLoop m (pySplit ' ' (pyJoin [' '] cl)).length (pySplit ' ' (pyJoin [' '] cl)) with
    | error e => rfl
    | ok r => simp only [pyJoin_renamed hf, pySplit_renamed hf]

/-- Split words with renamed characters. -/
def renamedCache (f : Char → Char) (c : BpeCache) : BpeCache := c.map fun e => (e.1.map f, e.2.map (List.map f))

theorem cache_renamed (c : BpeCache) (w : Str) : (renamedCache f c).get? (txt f w) = (c.get? w).map (List.map (txt f)) := by
  induction c with
  | nil => rfl
  | cons e c ih =>
    obtain ⟨a, b⟩ := e
    show Dict.get? ((txt f a, b.map (txt f)) :: renamedCache f c) (txt f w) = _
    unfold Dict.get?
    simp only [eq_iff (txt_inj hf.inj), ih]
    split <;> rfl

theorem getBpeSubwords_renamed (w : Str) (c : BpeCache) (m : MergeList) :
    getBpeSubwords (txt f w) ⟨renamedCache f c, renamedMerges f m⟩ = (getBpeSubwords w ⟨c, m⟩).map (List.map (txt f)) := by
  unfold getBpeSubwords getBpeSubwordsSt
  simp only [escape_renamed hf, cache_renamed hf, encodeWord_renamed hf]
  cases c.get? (escape w true) with
  | some r =>
    simp only [Option.map_some, unescape_renamed hf]
    cases unescape r <;> rfl
  | none =>
    simp only [Option.map_none]
    cases encodeWord (escape w true) m with
    | error e => rfl
    | ok x =>
      simp only [Except.map, bind, Except.bind, unescape_renamed hf]
      cases unescape x <;> rfl

end encode
end Verif.Ren
