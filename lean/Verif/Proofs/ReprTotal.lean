import Verif.Proofs.Iterators
import Verif.Proofs.PrepConfig
import Verif.Proofs.BpeEncode
/-!
# Splitters and configurations: no failures, no empty full tokens
-/
namespace Verif
open Spec

/-! ## BPE splitting never fails -/

/-- The list ends with a string that ends with `c`. -/
def EndsIn (c : Char) (l : List Str) : Prop := ∃ p, l.getLast? = some p ∧ p.getLast? = some c

theorem endsIn_iff {c : Char} {l : List Str} : EndsIn c l ↔ ∃ (a : List Str) (p : Str), l = a ++ [p ++ [c]] := by
  constructor
  · rintro ⟨p, h1, h2⟩
    obtain ⟨a, rfl⟩ := List.getLast?_eq_some_iff.mp h1
    obtain ⟨q, rfl⟩ := List.getLast?_eq_some_iff.mp h2
    exact ⟨a, q, rfl⟩
  · rintro ⟨a, p, rfl⟩
    exact ⟨p ++ [c], by simp, by simp⟩

theorem endsIn_pyJoin {c : Char} {l : List Str} (sep : Str) (h : EndsIn c l) : (pyJoin sep l).getLast? = some c := by
  obtain ⟨a, p, rfl⟩ := endsIn_iff.mp h
  clear h
  induction a with
  | nil => simp [pyJoin]
  | cons x a ih =>
    cases a with
    | nil => simp [pyJoin]
    | cons y a =>
      rw [List.cons_append, List.cons_append, pyJoin]
      rw [List.cons_append] at ih
      rw [List.getLast?_append, ih]
      simp

theorem endsIn_pySplit {c sep : Char} (hc : c ≠ sep) {s : Str} (h : s.getLast? = some c) : EndsIn c (pySplit sep s) := by
  induction s with
  | nil => simp at h
  | cons x s ih =>
    by_cases hs : s = []
    · subst hs
      simp at h
      subst h
      simp [pySplit, hc, EndsIn]
    · have h' : s.getLast? = some c := by
        rw [List.getLast?_cons] at h
        cases hg : s.getLast? with
        | none => simp [List.getLast?_eq_none_iff] at hg; exact absurd hg hs
        | some y => rw [hg] at h; simpa using h
      have ih := ih h'
      obtain ⟨a, p, hap⟩ := endsIn_iff.mp ih
      unfold pySplit
      split
      · rw [hap]; exact endsIn_iff.mpr ⟨[] :: a, p, by simp⟩
      · rw [hap]
        cases a with
        | nil => exact endsIn_iff.mpr ⟨[], x :: p, by simp⟩
        | cons y a => exact endsIn_iff.mpr ⟨(x :: y) :: a, p, by simp⟩

theorem endsIn_coarsens {c : Char} {r f : List Str} (hc : Coarsens r f) (h : EndsIn c f) : EndsIn c r := by
  obtain ⟨g, h1, h2, h3⟩ := hc
  obtain ⟨a, p, hap⟩ := endsIn_iff.mp h
  have hg : g ≠ [] := by rintro rfl; simp [hap] at h1
  obtain ⟨gi, gl, rfl⟩ : ∃ gi gl, g = gi ++ [gl] := ⟨g.dropLast, g.getLast hg, (List.dropLast_concat_getLast hg).symm⟩
  have hgl : gl ≠ [] := h2 gl (by simp)
  obtain ⟨u, e, rfl⟩ : ∃ u e, gl = u ++ [e] := ⟨gl.dropLast, gl.getLast hgl, (List.dropLast_concat_getLast hgl).symm⟩
  rw [hap] at h1
  simp only [List.flatten_append, List.flatten_cons, List.flatten_nil, List.append_nil] at h1
  rw [← List.append_assoc] at h1
  have he := (List.append_inj' h1 (by simp)).2
  simp at he
  subst he
  rw [h3]
  exact endsIn_iff.mpr ⟨gi.map List.flatten, u.flatten ++ p, by simp⟩

theorem unescape_endsIn {l : List Str} (h : EndsIn escChar l) : ∃ r, unescape l = .ok r ∧ r.1 ≠ [] := by
  obtain ⟨p, h1, h2⟩ := h
  refine ⟨((l.dropLast ++ [p.dropLast]).map undoubleEsc, l.dropLast ++ [p.dropLast]), ?_, by simp⟩
  unfold unescape
  rw [h1]
  simp only [h2, ne_eq, not_true, if_false]

theorem unescape_ne_nil {l : List Str} {r : List Str × List Str} (h : unescape l = .ok r) : r.1 ≠ [] := by
  unfold unescape at h
  split at h
  · cases h
  · split at h
    · cases h
    · split at h
      · cases h
      · cases h; simp

theorem encodeWord_total (w : Str) (m : MergeList) : ∃ r, encodeWord (escape w true) m = .ok r ∧ EndsIn escChar r := by
  have hu : EndsIn escChar (unitsOf w) := endsIn_iff.mpr ⟨w.map unitOf, [], rfl⟩
  have hne : escChar ≠ ' ' := by decide
  have h1 := endsIn_pySplit hne (endsIn_pyJoin [' '] hu)
  obtain ⟨r, hr, hc⟩ := encodeLoop_ok m (pySplit ' ' (pyJoin [' '] (unitsOf w))).length _ (Nat.le_succ _)
  refine ⟨pySplit ' ' (pyJoin [' '] r), ?_, ?_⟩
  · simp [encodeWord, toCharList_escape, bind, Except.bind, hr]
  · exact endsIn_pySplit hne (endsIn_pyJoin [' '] (endsIn_coarsens hc h1))

/-- Every cached list of subwords ends with the escape character. -/
def CacheOk (d : BpeData) : Prop := ∀ w l, d.cache.get? w = some l → EndsIn '@' l

theorem getBpeSubwords_total (w : Str) (d : BpeData) (h : CacheOk d) : ∃ l, getBpeSubwords w d = .ok l := by
  unfold getBpeSubwords getBpeSubwordsSt
  simp only
  split
  · rename_i l hl
    obtain ⟨r, hr, _⟩ := unescape_endsIn (h _ l hl)
    simp [hr, bind, Except.bind, Except.map]
  · obtain ⟨r, hr, he⟩ := encodeWord_total w d.merges
    obtain ⟨v, hv, _⟩ := unescape_endsIn he
    simp [hr, hv, bind, Except.bind, Except.map]

theorem getBpeSubwords_ne_nil {w : Str} {d : BpeData} {l : List Str} (h : getBpeSubwords w d = .ok l) : l ≠ [] := by
  unfold getBpeSubwords getBpeSubwordsSt at h
  simp only at h
  split at h
  · rename_i x hx
    cases hu : unescape x with
    | error e => simp [hu, bind, Except.bind, Except.map] at h
    | ok r =>
      simp only [hu, bind, Except.bind, Except.map, Except.ok.injEq] at h
      subst h
      exact unescape_ne_nil hu
  · cases he : encodeWord (escape w true) d.merges with
    | error e => simp [he, bind, Except.bind, Except.map] at h
    | ok r =>
      simp only [he, bind, Except.bind, Except.map] at h
      cases hu : unescape r with
      | error e => simp [hu] at h
      | ok v =>
        simp only [hu, Except.ok.injEq] at h
        subst h
        exact unescape_ne_nil hu

theorem bpeSplitter_ne_nil {w : Str} {bd : Option BpeData} {l : List Str} (h : bpeSplitter bd w = .ok l) : l ≠ [] := by
  cases bd with
  | none => simp [bpeSplitter] at h
  | some d => exact getBpeSubwords_ne_nil h

/-! ## Valid configurations have a representation configuration -/

theorem split_cases {c : PrepConfig} (hv : c.Valid) :
    c.split = ['0'] ∨ c.split = ['F'] ∨ c.split = ['1'] ∨ c.split = ['2'] ∨ c.split = ['3'] ∨ c.split = ['s'] ∨
    c.split = ['4'] ∨ c.split = ['5'] ∨ c.split = ['6'] ∨ c.split = ['7'] ∨ c.split = ['8'] ∨ c.split = ['9'] := by
  simpa [possibleParamValues] using hv.split

theorem getMaxStrLength_ok {v : Str} (h : v ∈ possibleStrValues) :
    ∃ o, getMaxStrLength v = .ok o ∧ (o = none ↔ v = ['0']) := by
  unfold getMaxStrLength pyIndex
  rw [if_pos h]
  simp only [bind, Except.bind]
  have h0 : possibleStrValues.idxOf v = 0 ↔ v = ['0'] := by
    rw [possibleStrValues_eq]
    simp only [show "0123456789ABCDEFGHIJKLMNOPQRSTUVWXYZabcdefghijklmnopqrstuvwxyz".toList =
      '0' :: "123456789ABCDEFGHIJKLMNOPQRSTUVWXYZabcdefghijklmnopqrstuvwxyz".toList from by decide +kernel, List.map_cons]
    rw [List.idxOf_cons]
    by_cases hv : v = ['0']
    · subst hv; simp
    · have : ((['0'] : Str) == v) = false := by
        simp only [beq_eq_false_iff_ne, ne_eq]
        exact fun e => hv e.symm
      rw [this]
      simp [hv]
  by_cases hz : possibleStrValues.idxOf v = 0
  · rw [if_pos hz]
    exact ⟨none, rfl, by simp [h0.mp hz]⟩
  · rw [if_neg hz]
    have hn : v ≠ ['0'] := fun e => hz (h0.mpr e)
    split
    · exact ⟨_, rfl, by simp [hn]⟩
    · exact ⟨_, rfl, by simp [hn]⟩

/-- What is known about the representation configuration of a valid configuration. -/
structure RcOk (env : Env) (c : PrepConfig) (bd : Option BpeData) (rc : ReprConfig) : Prop where
  types : rc.types = c.typesToBeRepr
  bpe : rc.bpe = (c.isBpe && bd.isSome)
  lowercase : rc.lowercase = decide (c.case = ['l'])
  fullStrings : rc.fullStrings = decide (c.split = ['F'])
  maxLen : getMaxStrLength c.str = .ok rc.maxStrLength
  maxNone : rc.maxStrLength = none ↔ c.str = ['0']
  number : c.numberSplitter (if c.isBpe then bd else none) = .ok rc.numberSplitter
  word : c.wordSplitter env (if c.isBpe then bd else none) = .ok rc.wordSplitter

theorem reprConfig_ok (env : Env) {c : PrepConfig} (hv : c.Valid) (bd : Option BpeData) :
    ∃ rc, c.reprConfig env bd = .ok rc ∧ RcOk env c bd rc := by
  obtain ⟨o, ho, hn⟩ := getMaxStrLength_ok hv.str
  have hnum : ∃ f, c.numberSplitter (if c.isBpe then bd else none) = .ok f := by
    unfold PrepConfig.numberSplitter
    rcases split_cases hv with h | h | h | h | h | h | h | h | h | h | h | h <;> simp [h]
  have hword : ∃ f, c.wordSplitter env (if c.isBpe then bd else none) = .ok f := by
    unfold PrepConfig.wordSplitter
    rcases split_cases hv with h | h | h | h | h | h | h | h | h | h | h | h <;> simp [h]
  obtain ⟨f, hf⟩ := hnum
  obtain ⟨g, hg⟩ := hword
  refine ⟨⟨c.typesToBeRepr, (if c.isBpe then bd else none).isSome, c.case = ['l'], f, g, c.split = ['F'], o⟩, ?_, ?_⟩
  · unfold PrepConfig.reprConfig
    simp only [bind, Except.bind, hf, hg, ho]
  · refine ⟨rfl, ?_, rfl, rfl, ho, hn, hf, hg⟩
    cases c.isBpe <;> simp

theorem RcOk.unique {env : Env} {c : PrepConfig} {bd : Option BpeData} {rc : ReprConfig} (h : RcOk env c bd rc) :
    c.reprConfig env bd = .ok rc := by
  unfold PrepConfig.reprConfig
  simp only [bind, Except.bind, h.number, h.word, h.maxLen]
  congr 1
  obtain ⟨a1, a2, a3, a4, a5, a6, a7⟩ := rc
  have h1 := h.types; have h2 := h.bpe; have h3 := h.lowercase; have h4 := h.fullStrings
  simp only at h1 h2 h3 h4
  subst h1 h3 h4
  congr 1
  rw [h2]
  cases c.isBpe <;> simp

end Verif
