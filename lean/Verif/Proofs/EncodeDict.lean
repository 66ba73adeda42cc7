import Verif.Model.EncodeDict
import Verif.Spec.EncodeDict
import Verif.Proofs.BpeEncode
import Verif.Proofs.Files
import Verif.Proofs.DirNames
import Mathlib.Data.List.Nodup
/-!
# Splitting a whole dictionary of words: proofs
-/
namespace Verif
open Spec

/-! ## Which words are legal -/

theorem atDoubled_cons (c : Char) (u : Str) : atDoubled (c :: u) = (if c = '@' then ['@', '@'] else [c]) ++ atDoubled u := by
  simp [atDoubled]

theorem legal_cons {c d : Char} {r : Str} (hc : c ≠ '@') : LegalWord (c :: d :: r) ↔ LegalWord (d :: r) := by
  constructor
  · rintro ⟨u, h⟩
    cases u with
    | nil => rcases h with h | h <;> simp [atDoubled] at h
    | cons x u =>
      rw [atDoubled_cons] at h
      by_cases hx : x = '@'
      · subst hx
        rcases h with h | h
        · simp at h; exact absurd h.1 hc
        · simp at h; exact absurd h.1 hc
      · rw [if_neg hx] at h
        rcases h with h | h
        · simp only [List.cons_append, List.nil_append, List.cons.injEq] at h
          exact ⟨u, .inl h.2⟩
        · simp only [List.cons_append, List.nil_append, List.cons.injEq] at h
          exact ⟨u, .inr h.2⟩
  · rintro ⟨u, h⟩
    refine ⟨c :: u, ?_⟩
    rw [atDoubled_cons, if_neg hc]
    rcases h with h | h
    · left; rw [h]; rfl
    · right; rw [h]; rfl

theorem legal_esc {d : Char} {r : Str} : LegalWord ('@' :: d :: r) ↔ d = '@' ∧ LegalWord r := by
  constructor
  · rintro ⟨u, h⟩
    cases u with
    | nil => rcases h with h | h <;> simp [atDoubled] at h
    | cons x u =>
      rw [atDoubled_cons] at h
      by_cases hx : x = '@'
      · rw [if_pos hx] at h
        rcases h with h | h
        · simp only [List.cons_append, List.nil_append, List.cons.injEq, true_and] at h
          exact ⟨h.1, u, .inl h.2⟩
        · simp only [List.cons_append, List.nil_append, List.cons.injEq, true_and] at h
          exact ⟨h.1, u, .inr h.2⟩
      · rw [if_neg hx] at h
        rcases h with h | h
        · simp only [List.cons_append, List.nil_append, List.cons.injEq] at h
          exact absurd h.1.symm hx
        · simp only [List.cons_append, List.nil_append, List.cons.injEq] at h
          exact absurd h.1.symm hx
  · rintro ⟨rfl, u, h⟩
    refine ⟨'@' :: u, ?_⟩
    rw [atDoubled_cons, if_pos rfl]
    rcases h with h | h
    · left; rw [h]; rfl
    · right; rw [h]; rfl

/-- What the list of characters of a word is like. -/
def UnitList (w : Str) (cl : List Str) : Prop :=
  cl.flatten = w ∧ ∀ p ∈ cl, p ≠ [] ∧ (p = [' '] ∨ ' ' ∉ p)

theorem unit_single (c : Char) : [c] ≠ ([] : Str) ∧ ([c] = [' '] ∨ ' ' ∉ [c]) := by
  refine ⟨by simp, ?_⟩
  by_cases h : c = ' '
  · left; rw [h]
  · right; simp; exact fun e => h e.symm

theorem toCharList_legal (w : Str) :
    (LegalWord w ∧ ∃ cl, toCharList w = .ok cl ∧ UnitList w cl) ∨ (¬ LegalWord w ∧ toCharList w = .error .valueError) := by
  induction w using toCharList.induct with
  | case1 => exact .inl ⟨⟨[], .inl rfl⟩, [], rfl, rfl, by simp⟩
  | case2 c =>
    refine .inl ⟨?_, [[c]], rfl, rfl, ?_⟩
    · by_cases h : c = '@'
      · exact ⟨[], .inr (by rw [h]; rfl)⟩
      · exact ⟨[c], .inl (by rw [atDoubled_cons, if_neg h]; rfl)⟩
    · intro p hp
      rw [List.mem_singleton.1 hp]
      exact unit_single c
  | case3 c d r hc ih =>
    have hc' : c ≠ '@' := hc
    rw [legal_cons hc']
    unfold toCharList
    rw [if_pos hc]
    rcases ih with ⟨h1, cl, h2, h3, h4⟩ | ⟨h1, h2⟩
    · refine .inl ⟨h1, [c] :: cl, by rw [h2]; rfl, by simp [h3], ?_⟩
      intro p hp
      rcases List.mem_cons.1 hp with rfl | hp
      · exact unit_single c
      · exact h4 p hp
    · exact .inr ⟨h1, by rw [h2]; rfl⟩
  | case4 c r hc ih =>
    have hc' : c = '@' := Classical.not_not.1 hc
    subst hc'
    rw [show escChar = '@' from rfl, legal_esc]
    unfold toCharList
    rw [if_neg hc, if_pos (show '@' = escChar from rfl)]
    rcases ih with ⟨h1, cl, h2, h3, h4⟩ | ⟨h1, h2⟩
    · refine .inl ⟨⟨rfl, h1⟩, ['@', '@'] :: cl, by rw [h2]; rfl, by simp [h3], ?_⟩
      intro p hp
      rcases List.mem_cons.1 hp with rfl | hp
      · exact ⟨by simp, .inr (by decide)⟩
      · exact h4 p hp
    · exact .inr ⟨fun h => h1 h.2, by rw [h2]; rfl⟩
  | case5 c d r hc hd =>
    have hc' : c = '@' := Classical.not_not.1 hc
    subst hc'
    rw [legal_esc]
    unfold toCharList
    rw [if_neg hc, if_neg hd]
    exact .inr ⟨fun h => hd h.1, rfl⟩

/-! ## The text of a list of parts -/

/-- Spaces written twice. -/
def spacesTwice (w : Str) : Str := w.flatMap fun c => if c = ' ' then [' ', ' '] else [c]

/-- The text of parts, where empty parts count as a space. -/
def partsText (l : List Str) : Str := l.flatMap fun p => if p = [] then [' '] else p

theorem spacesTwice_cons (c : Char) (w : Str) : spacesTwice (c :: w) = (if c = ' ' then [' ', ' '] else [c]) ++ spacesTwice w := by
  simp [spacesTwice]

theorem spacesTwice_append (v w : Str) : spacesTwice (v ++ w) = spacesTwice v ++ spacesTwice w := by
  simp [spacesTwice]

theorem spacesTwice_id {w : Str} (h : ' ' ∉ w) : spacesTwice w = w := by
  induction w with
  | nil => rfl
  | cons c w ih =>
    simp only [List.mem_cons, not_or] at h
    rw [spacesTwice_cons, if_neg (fun e => h.1 e.symm), ih h.2]
    rfl

theorem spacesTwice_inj : ∀ {v w : Str}, spacesTwice v = spacesTwice w → v = w
  | [], [], _ => rfl
  | [], c :: w, h => by
    rw [spacesTwice_cons] at h
    split at h <;> simp [spacesTwice] at h
  | c :: v, [], h => by
    rw [spacesTwice_cons] at h
    split at h <;> simp [spacesTwice] at h
  | c :: v, d :: w, h => by
    rw [spacesTwice_cons, spacesTwice_cons] at h
    by_cases hc : c = ' ' <;> by_cases hd : d = ' '
    · rw [if_pos hc, if_pos hd] at h
      rw [hc, hd, spacesTwice_inj (List.append_cancel_left h)]
    · rw [if_pos hc, if_neg hd] at h
      simp only [List.cons_append, List.nil_append, List.cons.injEq] at h
      exact absurd h.1.symm hd
    · rw [if_neg hc, if_pos hd] at h
      simp only [List.cons_append, List.nil_append, List.cons.injEq] at h
      exact absurd h.1 hc
    · rw [if_neg hc, if_neg hd] at h
      simp only [List.cons_append, List.nil_append, List.cons.injEq] at h
      rw [h.1, spacesTwice_inj h.2]

theorem spacesTwice_ne_space (w : Str) : spacesTwice w ≠ [' '] := by
  cases w with
  | nil => simp [spacesTwice]
  | cons c w =>
    rw [spacesTwice_cons]
    by_cases h : c = ' '
    · rw [if_pos h]; simp
    · rw [if_neg h]; simp [h]

theorem partsText_append (a b : List Str) : partsText (a ++ b) = partsText a ++ partsText b := by
  simp [partsText]

theorem partsText_cons (p : Str) (l : List Str) : partsText (p :: l) = (if p = [] then [' '] else p) ++ partsText l := by
  simp [partsText]

theorem partsText_unit {p : Str} (h : p ≠ [] ∧ (p = [' '] ∨ ' ' ∉ p)) : partsText (pySplit ' ' p) = spacesTwice p := by
  obtain ⟨h0, rfl | h⟩ := h
  · decide
  · rw [pySplit_noSep h, partsText_cons, if_neg h0, spacesTwice_id h]
    simp [partsText]

theorem partsText_start : ∀ {cl : List Str}, cl ≠ [] → (∀ p ∈ cl, p ≠ [] ∧ (p = [' '] ∨ ' ' ∉ p)) →
    partsText (pySplit ' ' (pyJoin [' '] cl)) = spacesTwice cl.flatten
  | [], h, _ => absurd rfl h
  | [p], _, h => by
    have := partsText_unit (h p (by simp))
    simpa [pyJoin] using this
  | p :: q :: r, _, h => by
    have hj : pyJoin [' '] (p :: q :: r) = p ++ ' ' :: pyJoin [' '] (q :: r) := by simp [pyJoin]
    rw [hj, pySplit_append, partsText_append, partsText_unit (h p (by simp)),
      partsText_start (by simp) (fun x hx => h x (by simp [hx])), List.flatten_cons (l := p), spacesTwice_append]

theorem partsText_replace {m : MergeList} (hm : PartsNonempty m) (k : Nat) (l : List Str) :
    partsText (replacePrio m k l) = partsText l := by
  induction l using replacePrio.induct m k with
  | case1 => rfl
  | case2 a => rfl
  | case3 a b r hp ih =>
    unfold replacePrio
    have h := hm _ _ hp
    have hab : a ++ b ≠ [] := by simp [h.1]
    rw [if_pos hp, partsText_cons, if_neg hab, ih, partsText_cons, if_neg h.1, partsText_cons, if_neg h.2, List.append_assoc]
  | case4 a b r hp ih =>
    unfold replacePrio
    rw [if_neg hp, partsText_cons, ih, ← partsText_cons]

theorem partsText_loop {m : MergeList} (hm : PartsNonempty m) : ∀ (fuel : Nat) (l r : List Str),
    encodeLoop m fuel l = .ok r → partsText r = partsText l := by
  intro fuel
  induction fuel with
  | zero =>
    intro l r e
    unfold encodeLoop at e
    simp only at e
    split at e
    · cases e; rfl
    · cases e
  | succ n ih =>
    intro l r e
    unfold encodeLoop at e
    simp only at e
    split at e
    · cases e; rfl
    · rw [applyIndices_scan] at e
      rw [ih _ _ e, partsText_replace hm]

/-! ## One word -/

theorem coarse_noSpace {r l : List Str} (h : Coarsens r l) (hl : ∀ p ∈ l, ' ' ∉ p) : ∀ p ∈ r, ' ' ∉ p := by
  obtain ⟨g, rfl, -, rfl⟩ := h
  intro p hp hsp
  obtain ⟨q, hq, rfl⟩ := List.mem_map.1 hp
  obtain ⟨x, hx, hs⟩ := List.mem_flatten.1 hsp
  exact hl x (List.mem_flatten.2 ⟨q, hq, hx⟩) hs

/-- What the loop makes of the letters of a word, as one text. -/
def itemOf (m : MergeList) (letters : Str) : Str :=
  match encodeLoop m (pySplit ' ' letters).length (pySplit ' ' letters) with
  | .ok r => pyJoin [' '] r
  | .error _ => []

/-- The letters of a word, as one text. -/
def lettersOf (w : Str) : Str :=
  match toCharList w with
  | .ok cl => pyJoin [' '] cl
  | .error _ => []

theorem loop_total (m : MergeList) (letters : Str) :
    ∃ r, encodeLoop m (pySplit ' ' letters).length (pySplit ' ' letters) = .ok r ∧ itemOf m letters = pyJoin [' '] r ∧
      pySplit ' ' (pyJoin [' '] r) = r := by
  obtain ⟨r, h1, h2⟩ := encodeLoop_ok m (pySplit ' ' letters).length (pySplit ' ' letters) (by omega)
  refine ⟨r, h1, by rw [itemOf, h1], ?_⟩
  exact pySplit_pyJoin (h2.ne_nil (pySplit_ne_nil _ _)) (coarse_noSpace h2 fun p hp => pySplit_noSep_mem hp)

theorem encodeWord_item {w : Str} (hw : LegalWord w) (m : MergeList) :
    ∃ parts, encodeWord w m = .ok parts ∧ itemOf m (lettersOf w) = pyJoin [' '] parts ∧
      (PartsNonempty m → partsText parts = if w = [] then [' '] else spacesTwice w) := by
  rcases toCharList_legal w with ⟨-, cl, h1, h2, h3⟩ | ⟨h, -⟩
  · have hl : lettersOf w = pyJoin [' '] cl := by rw [lettersOf, h1]
    obtain ⟨r, h4, h5, h6⟩ := loop_total m (pyJoin [' '] cl)
    refine ⟨r, ?_, by rw [hl, h5], ?_⟩
    · unfold encodeWord
      rw [h1]
      simp only [bind, Except.bind]
      rw [h4]
      simp only
      rw [h6]
    · intro hm
      rw [partsText_loop hm _ _ _ h4]
      cases cl with
      | nil =>
        have : w = [] := by rw [← h2]; rfl
        rw [if_pos this]
        rfl
      | cons p cl =>
        have : w ≠ [] := by
          rw [← h2]
          intro e
          simp only [List.flatten_cons, List.append_eq_nil_iff] at e
          exact (h3 p (by simp)).1 e.1
        rw [if_neg this, partsText_start (by simp) h3, h2]
  · exact absurd hw h

theorem wordText_inj {v w : Str} (h : (if v = [] then [' '] else spacesTwice v) = (if w = [] then [' '] else spacesTwice w)) :
    v = w := by
  by_cases hv : v = [] <;> by_cases hw : w = []
  · rw [hv, hw]
  · rw [if_pos hv, if_neg hw] at h
    exact absurd h.symm (spacesTwice_ne_space w)
  · rw [if_neg hv, if_pos hw] at h
    exact absurd h (spacesTwice_ne_space v)
  · rw [if_neg hv, if_neg hw] at h
    exact spacesTwice_inj h

/-- Different words are split into different texts. -/
theorem item_inj {m : MergeList} (hm : PartsNonempty m) {v w : Str} (hv : LegalWord v) (hw : LegalWord w)
    (h : itemOf m (lettersOf v) = itemOf m (lettersOf w)) : v = w := by
  obtain ⟨p, h1, h2, h3⟩ := encodeWord_item hv m
  obtain ⟨q, h4, h5, h6⟩ := encodeWord_item hw m
  obtain ⟨r, -, g2, g3⟩ := loop_total m (lettersOf v)
  obtain ⟨s, -, g5, g6⟩ := loop_total m (lettersOf w)
  have e1 : pySplit ' ' (pyJoin [' '] p) = p := by
    unfold encodeWord at h1
    simp only [bind, Except.bind] at h1
    split at h1
    · cases h1
    · split at h1
      · cases h1
      · rw [← Except.ok.inj h1, pyJoin_pySplit]
  have e2 : pySplit ' ' (pyJoin [' '] q) = q := by
    unfold encodeWord at h4
    simp only [bind, Except.bind] at h4
    split at h4
    · cases h4
    · split at h4
      · cases h4
      · rw [← Except.ok.inj h4, pyJoin_pySplit]
  have e : p = q := by rw [← e1, ← e2, ← h2, ← h5, h]
  have := (h3 hm).symm.trans (e ▸ h6 hm)
  exact wordText_inj this

/-! ## The dictionaries -/

theorem lettersDict_eq : ∀ (words acc : Dict Str Int), (∀ e ∈ words, LegalWord e.1) →
    lettersDict words acc = .ok ((words.map fun e => (lettersOf e.1, e.2)).foldl (fun d e => d.set e.1 e.2) acc)
  | [], acc, _ => rfl
  | (k, v) :: r, acc, h => by
    rcases toCharList_legal k with ⟨-, cl, h1, -⟩ | ⟨hk, -⟩
    · have hl : lettersOf k = pyJoin [' '] cl := by rw [lettersOf, h1]
      unfold lettersDict
      rw [h1]
      simp only [bind, Except.bind, List.map_cons, List.foldl_cons]
      rw [hl]
      exact lettersDict_eq r _ fun e he => h e (by simp [he])
    · exact absurd (h (k, v) (by simp)) hk

theorem lettersDict_illegal : ∀ (words acc : Dict Str Int), (∃ e ∈ words, ¬ LegalWord e.1) →
    lettersDict words acc = .error .valueError
  | [], acc, h => by simp at h
  | (k, v) :: r, acc, h => by
    unfold lettersDict
    rcases toCharList_legal k with ⟨hk, cl, h1, -⟩ | ⟨hk, h1⟩
    · rw [h1]
      simp only [bind, Except.bind]
      apply lettersDict_illegal
      obtain ⟨e, he, hn⟩ := h
      rcases List.mem_cons.1 he with rfl | he
      · exact absurd hk hn
      · exact ⟨e, he, hn⟩
    · rw [h1]; rfl

theorem encodeItems_eq (m : MergeList) : ∀ (l acc : Dict Str Int),
    encodeItems m l acc = .ok ((l.map fun e => (itemOf m e.1, e.2)).foldl (fun d e => d.set e.1 e.2) acc)
  | [], acc => rfl
  | (letters, n) :: r, acc => by
    obtain ⟨p, h1, h2, -⟩ := loop_total m letters
    unfold encodeItems
    simp only [bind, Except.bind]
    rw [h1]
    simp only [List.map_cons, List.foldl_cons]
    rw [h2]
    exact encodeItems_eq m r _

theorem encodeDict_eq {words : Dict Str Int} {m : MergeList} (hw : words.WF) (hl : ∀ e ∈ words, LegalWord e.1)
    (hm : PartsNonempty m) :
    encodeDict words m = .ok (words.map fun e => (itemOf m (lettersOf e.1), e.2)) ∧
      Dict.WF (words.map fun e => (itemOf m (lettersOf e.1), e.2)) := by
  have hi : ∀ x ∈ words.keys, ∀ y ∈ words.keys, itemOf m (lettersOf x) = itemOf m (lettersOf y) → x = y := by
    intro x hx y hy e
    obtain ⟨a, ha, rfl⟩ := List.mem_map.1 hx
    obtain ⟨b, hb, rfl⟩ := List.mem_map.1 hy
    exact item_inj hm (hl a ha) (hl b hb) e
  have h2 : Dict.WF (words.map fun e => (itemOf m (lettersOf e.1), e.2)) := by
    have : Dict.keys (words.map fun e => (itemOf m (lettersOf e.1), e.2)) = words.keys.map fun x => itemOf m (lettersOf x) := by
      simp [Dict.keys, Function.comp_def]
    unfold Dict.WF
    rw [this]
    exact List.Nodup.map_on hi hw
  have h1 : Dict.WF (words.map fun e => (lettersOf e.1, e.2)) := by
    have : Dict.keys (words.map fun e => (lettersOf e.1, e.2)) = words.keys.map lettersOf := by
      simp [Dict.keys, Function.comp_def]
    unfold Dict.WF
    rw [this]
    exact List.Nodup.map_on (fun x hx y hy e => hi x hx y hy (by rw [e])) hw
  refine ⟨?_, h2⟩
  unfold encodeDict
  rw [lettersDict_eq words [] hl, foldl_set_append [] _ (by simpa using h1)]
  simp only [bind, Except.bind, List.nil_append]
  rw [encodeItems_eq, foldl_set_append [] _ (by simpa [Function.comp_def] using h2)]
  simp [Function.comp_def]

end Verif
