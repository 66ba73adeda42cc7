import Verif.Props.EncodeLearnt
import Verif.Proofs.Closed
import Verif.Proofs.Occurs
/-!
# C98: what BPE makes of words with spaces, and that it keeps words apart
-/
namespace Verif.Props
open Verif Spec

/-- The symbols that subwords stand for. -/
def symbolsOf : List Str → List Str
  | [] => []
  | [v] => [doubleEsc v ++ [escChar]]
  | v :: x :: r => doubleEsc v :: symbolsOf (x :: r)

theorem unescape_snoc (zs : List Str) (v : Str) :
    unescape (zs ++ [doubleEsc v ++ [escChar]]) = .ok ((zs ++ [doubleEsc v]).map undoubleEsc, zs ++ [doubleEsc v]) := by
  simp [unescape]

theorem syms_symbolsOf {m : MergeList} {A : Char → Prop} {r : List Str} (h : Syms m A r) :
    ∃ (vs : List Str) (v : Str), r = vs.map doubleEsc ++ [doubleEsc v ++ [escChar]] ∧ symbolsOf (vs ++ [v]) = r := by
  induction h with
  | one hx =>
    obtain ⟨v, rfl, -⟩ := hx
    exact ⟨[], v, rfl, rfl⟩
  | cons hx hr ih =>
    obtain ⟨u, rfl, -⟩ := hx
    obtain ⟨vs, v, h1, h2⟩ := ih
    refine ⟨u :: vs, v, by rw [h1]; rfl, ?_⟩
    cases vs with
    | nil => rw [h1]; rfl
    | cons a t =>
      show doubleEsc u :: symbolsOf (a :: (t ++ [v])) = _
      rw [← h2]
      rfl

/-- An uncached word: its symbols, and what they say about the subwords. -/
theorem subwords_symbols (w : Str) (d : BpeData) (hc : d.cache.get? (escape w true) = none) :
    ∃ (r vs : List Str) (v : Str), encodeWord (escape w true) d.merges = .ok r ∧ getBpeSubwords w d = .ok (vs ++ [v]) ∧
      r = vs.map doubleEsc ++ [doubleEsc v ++ [escChar]] ∧ symbolsOf (vs ++ [v]) = r := by
  obtain ⟨r, h1, -, -⟩ := encodeWord_item (legal_escape w) d.merges
  obtain ⟨vs, v, h2, h3⟩ := syms_symbolsOf (syms_encode (A := fun _ => True) (fun _ _ => trivial) h1)
  refine ⟨r, vs, v, h1, ?_, h2, h3⟩
  unfold getBpeSubwords getBpeSubwordsSt
  simp only [hc, h1, bind, Except.bind]
  rw [h2, unescape_snoc]
  simp only [Except.map, List.map_append, List.map_map, List.map_cons, List.map_nil, undouble_double, Except.ok.injEq]
  congr 1
  conv => rhs; rw [← List.map_id vs]
  exact List.map_congr_left fun x _ => undouble_double x

/-- Different words never have the same subwords, also if they contain spaces. -/
theorem C98_distinct (v w : Str) (d : BpeData) (hv : d.cache.get? (escape v true) = none) (hw : d.cache.get? (escape w true) = none)
    (hm : PartsNonempty d.merges) (h : getBpeSubwords v d = getBpeSubwords w d) : v = w := by
  obtain ⟨r, vs, x, h1, h2, -, h4⟩ := subwords_symbols v d hv
  obtain ⟨s, ws, y, g1, g2, -, g4⟩ := subwords_symbols w d hw
  rw [h2, g2] at h
  have e : r = s := by rw [← h4, ← g4, Except.ok.inj h]
  subst e
  obtain ⟨p, k1, -, k3⟩ := encodeWord_item (legal_escape v) d.merges
  obtain ⟨q, l1, -, l3⟩ := encodeWord_item (legal_escape w) d.merges
  rw [h1] at k1
  rw [g1] at l1
  cases k1
  cases l1
  exact escape_inj (wordText_inj ((k3 hm).symm.trans (l3 hm)))

theorem doubleEsc_flatten (l : List Str) : (l.map doubleEsc).flatten = doubleEsc l.flatten := by
  induction l with
  | nil => rfl
  | cons a l ih => rw [List.map_cons, List.flatten_cons, ih, List.flatten_cons, doubleEsc_append]

/-- The subwords have the text of the word without its spaces. -/
theorem C98_text (w : Str) (d : BpeData) (hc : d.cache.get? (escape w true) = none) :
    ∃ s, getBpeSubwords w d = .ok s ∧ s.flatten = w.filter (· ≠ ' ') := by
  obtain ⟨r, vs, x, h1, h2, h3, -⟩ := subwords_symbols w d hc
  refine ⟨_, h2, ?_⟩
  have hr : r.flatten = searched w := by
    unfold encodeWord at h1
    simp only [toCharList_escape, bind, Except.bind] at h1
    obtain ⟨r', g1, g2⟩ := encodeLoop_ok d.merges (pySplit ' ' (pyJoin [' '] (unitsOf w))).length _ (Nat.le_succ _)
    rw [g1] at h1
    have e := Except.ok.inj h1
    rw [← e, pySplit_flatten, pyJoin_filter, g2.flatten_eq, pySplit_flatten, pyJoin_filter, List.filter_filter]
    simp only [Bool.and_self]
    exact units_searched w
  have h4 : escape (vs ++ [x]).flatten true = escape (w.filter (· ≠ ' ')) true := by
    show doubleEsc (vs ++ [x]).flatten ++ [escChar] = searched w
    rw [← hr, h3, List.flatten_append, List.flatten_append, doubleEsc_append, doubleEsc_flatten]
    simp
  exact escape_inj h4

theorem count_partsText {l : List Str} (h : ∀ p ∈ l, ' ' ∉ p) : (partsText l).count ' ' = l.count [] := by
  induction l with
  | nil => rfl
  | cons p l ih =>
    have ih := ih fun q hq => h q (by simp [hq])
    rw [partsText_cons, List.count_append, ih, List.count_cons]
    by_cases hp : p = []
    · subst hp; simp; omega
    · rw [if_neg hp, List.count_eq_zero_of_not_mem (h p (by simp))]
      simp [hp]

theorem count_spacesTwice (w : Str) : (spacesTwice w).count ' ' = 2 * w.count ' ' := by
  induction w with
  | nil => rfl
  | cons c w ih =>
    rw [spacesTwice_cons, List.count_append, ih, List.count_cons]
    by_cases h : c = ' '
    · subst h; simp; omega
    · simp [h]

theorem count_doubleEsc (w : Str) : (doubleEsc w).count ' ' = w.count ' ' := by
  induction w with
  | nil => rfl
  | cons c w ih =>
    rw [doubleEsc_cons, List.count_append, ih, List.count_cons]
    by_cases h : c = '@'
    · subst h; simp
    · rw [if_neg h, List.count_cons, List.count_nil]; omega

theorem doubleEsc_nil_iff (v : Str) : doubleEsc v = [] ↔ v = [] := by
  cases v with
  | nil => simp [doubleEsc]
  | cons c v =>
    rw [doubleEsc_cons]
    split <;> simp

/-- Before the last subword there are exactly two empty ones for every space of the word. -/
theorem C98_spaces (w : Str) (d : BpeData) (hc : d.cache.get? (escape w true) = none) (hm : PartsNonempty d.merges) :
    ∃ s, getBpeSubwords w d = .ok s ∧ s.dropLast.count [] = 2 * w.count ' ' := by
  obtain ⟨r, vs, x, h1, h2, h3, -⟩ := subwords_symbols w d hc
  refine ⟨_, h2, ?_⟩
  obtain ⟨p, k1, -, k3⟩ := encodeWord_item (legal_escape w) d.merges
  rw [h1] at k1
  cases k1
  have hne : escape w true ≠ [] := by simp [escape]
  have e := k3 hm
  rw [if_neg hne] at e
  have hns : ∀ q ∈ r, ' ' ∉ q := by
    unfold encodeWord at h1
    simp only [bind, Except.bind] at h1
    split at h1
    · cases h1
    · split at h1
      · cases h1
      · rw [← Except.ok.inj h1]
        exact fun q hq => pySplit_noSep_mem hq
  have h5 := count_partsText hns
  rw [e, count_spacesTwice] at h5
  have h6 : (escape w true).count ' ' = w.count ' ' := by
    show (doubleEsc w ++ [escChar]).count ' ' = _
    rw [List.count_append, count_doubleEsc]
    simp [escChar]
  have h7 : r.count [] = vs.count [] := by
    rw [h3, List.count_append]
    have : List.count [] [doubleEsc x ++ [escChar]] = 0 := by simp
    rw [this, Nat.add_zero]
    clear h1 h2 h3 e h5 hns
    induction vs with
    | nil => rfl
    | cons a vs ih =>
      rw [List.map_cons, List.count_cons, List.count_cons, ih]
      by_cases ha : a = []
      · subst ha; rfl
      · simp [ha, doubleEsc_nil_iff]
  rw [List.dropLast_concat, ← h7, ← h5, h6]

theorem units_length (w : Str) : (pySplit ' ' (pyJoin [' '] (unitsOf w))).length = w.length + w.count ' ' + 1 := by
  induction w with
  | nil => rfl
  | cons c w ih =>
    have hj : pyJoin [' '] (unitsOf (c :: w)) = unitOf c ++ ' ' :: pyJoin [' '] (unitsOf w) := by
      have hn := unitsOf_ne w
      have he : unitsOf (c :: w) = unitOf c :: unitsOf w := rfl
      rw [he]
      cases hu : unitsOf w with
      | nil => exact absurd hu hn
      | cons a r => simp [pyJoin]
    rw [hj, pySplit_append, List.length_append, ih, List.count_cons]
    by_cases hc : c = ' '
    · subst hc
      have : (pySplit ' ' (unitOf ' ')).length = 2 := by decide
      rw [this]
      simp
      omega
    · have hs : ' ' ∉ unitOf c := by
        unfold unitOf
        split
        · simp [escChar]
        · simp only [List.mem_singleton]; exact fun e => hc e.symm
      rw [pySplit_noSep hs]
      simp [hc]
      omega

theorem coarse_length {r l : List Str} (h : Coarsens r l) : r.length ≤ l.length := by
  obtain ⟨g, rfl, hg, rfl⟩ := h
  rw [List.length_map]
  induction g with
  | nil => simp
  | cons a g ih =>
    have := ih fun x hx => hg x (by simp [hx])
    have ha : 0 < a.length := List.length_pos_iff.2 (hg a (by simp))
    rw [List.flatten_cons, List.length_append, List.length_cons]
    omega

/-- There are at most as many subwords as characters, one more for every space, and one for the end; without merges there are exactly so many. -/
theorem C98_size (w : Str) (d : BpeData) (hc : d.cache.get? (escape w true) = none) :
    ∃ s, getBpeSubwords w d = .ok s ∧ 0 < s.length ∧ s.length ≤ w.length + w.count ' ' + 1 ∧
      (d.merges = [] → s.length = w.length + w.count ' ' + 1) := by
  obtain ⟨r, vs, x, h1, h2, h3, -⟩ := subwords_symbols w d hc
  have hl : (vs ++ [x]).length = r.length := by rw [h3]; simp
  refine ⟨_, h2, by simp, ?_⟩
  rw [hl]
  unfold encodeWord at h1
  simp only [toCharList_escape, bind, Except.bind] at h1
  obtain ⟨r', g1, g2⟩ := encodeLoop_ok d.merges (pySplit ' ' (pyJoin [' '] (unitsOf w))).length _ (Nat.le_succ _)
  have g3 : pySplit ' ' (pyJoin [' '] r') = r' :=
    pySplit_pyJoin (g2.ne_nil (pySplit_ne_nil _ _)) (coarse_noSpace g2 fun p hp => pySplit_noSep_mem hp)
  rw [g1] at h1
  simp only [g3] at h1
  have e := Except.ok.inj h1
  subst e
  refine ⟨by rw [← units_length]; exact coarse_length g2, ?_⟩
  intro hm
  rw [← units_length]
  rw [hm] at g1
  have hscan : ∀ (l : List Str) (i : Nat) (st : ScanState), scanFrom [] i l st = st := by
    intro l
    induction l with
    | nil => intros; rfl
    | cons a l ih =>
      intro i st
      cases l with
      | nil => rfl
      | cons b l =>
        unfold scanFrom
        rw [ih]
        rfl
  unfold encodeLoop at g1
  rw [hscan] at g1
  simp only [if_true] at g1
  rw [← Except.ok.inj g1]

example : getBpeSubwords "a b".toList ⟨[], [(("b".toList, "@".toList), (none, 0))]⟩ = .ok ["a".toList, [], [], "b".toList] := by decide +kernel
example : getBpeSubwords "a ".toList ⟨[], [(("b".toList, "@".toList), (none, 0))]⟩ = .ok ["a".toList, [], [], []] := by decide +kernel
/-- The condition on the merges is needed. -/
theorem C98_empty_violated : ∃ (d : BpeData) (v w : Str), v ≠ w ∧ d.cache = [] ∧ getBpeSubwords v d = getBpeSubwords w d ∧
    ∃ s, getBpeSubwords v d = .ok s :=
  ⟨⟨[], [(([], []), (none, 0)), (([], "a".toList), (none, 1))]⟩, " a".toList, "a".toList, by decide, rfl, by decide +kernel,
    ["a".toList, []], by decide +kernel⟩

end Verif.Props
