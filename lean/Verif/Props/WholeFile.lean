import Verif.Proofs.WholeFile
/-!
# C91: whole vocabulary files and files with split words
-/
namespace Verif.Props
open Verif Verif.Spec.Ent Verif.Spec.Esc Verif.Ent

theorem vocabLine_iff {b : Str} (hs : ∀ c ∈ b, c.toNat < 128) (hn : '\n' ∉ b) (w : Str) (v : Int) :
    loadVocabLine b = .ok (w, v) ↔ VocabEntry b w v := by
  rw [← C58_vocab_line hs hn, ← loadVocabLine_strip (b ++ ['\n']), rstripNl_line hn]

theorem cacheLine_iff {b : Str} (hs : ∀ c ∈ b, c.toNat < 128) (hn : '\n' ∉ b) (w : Str) (v : List Str) :
    readCacheLine b = .ok (w, v) ↔ CacheEntry b w v := by
  rw [← C58_cache_line hs hn, ← readCacheLine_strip (b ++ ['\n']), rstripNl_line hn]

theorem loadVocabDict_has {text : Str} {bs : List Str} (h : HasLines text bs) :
    loadVocabDict text = loop loadVocabLine [] bs := by
  unfold loadVocabDict
  rw [loadVocabLoop_eq, ← loop_map _ loadVocabLine_strip, readLines_has h]

theorem readBpeCache_has {text : Str} {bs : List Str} (h : HasLines text bs) :
    readBpeCache text = loop readCacheLine [] bs := by
  unfold readBpeCache
  rw [readCacheLoop_eq, ← loop_map _ readCacheLine_strip, readLines_has h]

theorem one_column {b : Str} (h : '\t' ∉ b) : pySplit '\t' b = [b] :=
  (columns_iff _ _ _).mpr ⟨by simp, by simp [pyJoin], by simpa using h⟩

theorem two_columns {b : Str} (h : '\t' ∈ b) : ∃ x y r, pySplit '\t' b = x :: y :: r := by
  cases hs : pySplit '\t' b with
  | nil => exact absurd hs (pySplit_ne_nil _ _)
  | cons x r =>
    cases r with
    | nil =>
      have := (columns_iff _ _ _).mp hs
      rw [this.2.1] at h
      exact absurd (by simpa [pyJoin] using h) (this.2.2 x (by simp))
    | cons y r => exact ⟨x, y, r, rfl⟩

theorem pyInt_total (s : Str) : (∃ i, pyInt s = .ok i) ∨ pyInt s = .error .valueError := by
  unfold pyInt
  simp only
  split
  · exact .inl ⟨_, rfl⟩
  · exact .inr rfl

theorem vocabLine_error {b : Str} (hn : '\n' ∉ b) :
    (∃ w v, loadVocabLine b = .ok (w, v)) ∨ (loadVocabLine b = .error .indexError ∧ '\t' ∉ b) ∨
      (loadVocabLine b = .error .valueError ∧ '\t' ∈ b) := by
  unfold loadVocabLine
  rw [rstripNl_none hn]
  by_cases h : '\t' ∈ b
  · obtain ⟨x, y, r, e⟩ := two_columns h
    rw [e]
    simp only
    rcases pyInt_total y with ⟨i, hi⟩ | hi <;> rw [hi]
    · rcases toNonLiteral_total x with ⟨t, ht⟩ | ht <;> rw [ht]
      · exact .inl ⟨_, _, rfl⟩
      · exact .inr (.inr ⟨rfl, h⟩)
    · exact .inr (.inr ⟨rfl, h⟩)
  · rw [one_column h]
    exact .inr (.inl ⟨rfl, h⟩)

theorem cacheLine_error {b : Str} (hn : '\n' ∉ b) :
    (∃ w v, readCacheLine b = .ok (w, v)) ∨ (readCacheLine b = .error .indexError ∧ '\t' ∉ b) ∨
      (readCacheLine b = .error .valueError ∧ '\t' ∈ b) := by
  unfold readCacheLine
  rw [rstripNl_none hn]
  by_cases h : '\t' ∈ b
  · obtain ⟨x, y, r, e⟩ := two_columns h
    rw [e]
    simp only
    rcases toNonLiteral_total y with ⟨i, hi⟩ | hi <;> rw [hi]
    · rcases toNonLiteral_total x with ⟨t, ht⟩ | ht <;> rw [ht]
      · exact .inl ⟨_, _, rfl⟩
      · exact .inr (.inr ⟨rfl, h⟩)
    · exact .inr (.inr ⟨rfl, h⟩)
  · rw [one_column h]
    exact .inr (.inl ⟨rfl, h⟩)

/-- C91.  A vocabulary file all lines of which are entries is read; for each word the last line counts, and the words
are in the order of their first lines. -/
theorem C91_vocab {text : Str} {bs : List Str} {es : List (Str × Int)} (ht : HasLines text bs)
    (ha : ∀ b ∈ bs, ∀ c ∈ b, c.toNat < 128) (h : Each VocabEntry bs es) :
    ∃ d, loadVocabDict text = .ok d ∧ (∀ w n, d.get? w = some n ↔ Last es w n) ∧ d.keys = (es.map (·.1)).eraseDups := by
  refine ⟨es.foldl (fun d e => d.set e.1 e.2) [], ?_, ?_, ?_⟩
  · rw [loadVocabDict_has ht, loop_each (fun b hb w v => vocabLine_iff (ha b hb) (ht.1 b hb).1 w v) h]
  · intro w n
    rw [foldl_get]
    simp [Dict.get?]
  · rw [foldl_keys]
    rw [List.filter_eq_self.mpr (by simp [Dict.keys])]
    rfl

/-- C91.  So is a file with split words. -/
theorem C91_cache {text : Str} {bs : List Str} {es : List (Str × List Str)} (ht : HasLines text bs)
    (ha : ∀ b ∈ bs, ∀ c ∈ b, c.toNat < 128) (h : Each CacheEntry bs es) :
    ∃ d, readBpeCache text = .ok d ∧ (∀ w ps, d.get? w = some ps ↔ Last es w ps) ∧ d.keys = (es.map (·.1)).eraseDups := by
  refine ⟨es.foldl (fun d e => d.set e.1 e.2) [], ?_, ?_, ?_⟩
  · rw [readBpeCache_has ht, loop_each (fun b hb w v => cacheLine_iff (ha b hb) (ht.1 b hb).1 w v) h]
  · intro w n
    rw [foldl_get]
    simp [Dict.get?]
  · rw [foldl_keys]
    rw [List.filter_eq_self.mpr (by simp [Dict.keys])]
    rfl

/-- C91.  A vocabulary file is read if and only if every line is an entry. -/
theorem C91_vocab_accepts {text : Str} {bs : List Str} (ht : HasLines text bs) (ha : ∀ b ∈ bs, ∀ c ∈ b, c.toNat < 128) :
    (∃ d, loadVocabDict text = .ok d) ↔ ∀ b ∈ bs, ∃ w n, VocabEntry b w n := by
  have hf := fun b hb w v => vocabLine_iff (ha b hb) (ht.1 b hb).1 w v
  constructor
  · rintro ⟨d, h⟩
    refine Classical.byContradiction fun hn => ?_
    have : ∃ e, FirstBad VocabEntry bs e := by
      clear h ha hf ht
      induction bs with
      | nil => simp at hn
      | cons b bs ih =>
        by_cases hb : ∃ w n, VocabEntry b w n
        · obtain ⟨e, a, b', c, rfl, h1, h2⟩ := ih (fun h => hn (by
            intro x hx
            rcases List.mem_cons.mp hx with rfl | hx
            · exact hb
            · exact h x hx))
          refine ⟨e, b :: a, b', c, rfl, ?_, h2⟩
          intro x hx
          rcases List.mem_cons.mp hx with rfl | hx
          · exact hb
          · exact h1 x hx
        · by_cases ht : '\t' ∈ b
          · exact ⟨.valueError, [], b, bs, rfl, by simp, hb, .inr ⟨rfl, ht⟩⟩
          · exact ⟨.indexError, [], b, bs, rfl, by simp, hb, .inl ⟨rfl, ht⟩⟩
    obtain ⟨e, he⟩ := this
    rw [loadVocabDict_has ht, (loop_error e bs hf (fun b hb => vocabLine_error (ht.1 b hb).1) []).mpr he] at h
    cases h
  · intro h
    obtain ⟨es, he⟩ := loop_total hf h
    obtain ⟨d, hd, _⟩ := C91_vocab ht ha he
    exact ⟨d, hd⟩

/-- C91.  Otherwise the first line that is not an entry decides which error is raised. -/
theorem C91_vocab_error {text : Str} {bs : List Str} (ht : HasLines text bs) (ha : ∀ b ∈ bs, ∀ c ∈ b, c.toNat < 128) (e : PyErr) :
    loadVocabDict text = .error e ↔ FirstBad VocabEntry bs e := by
  rw [loadVocabDict_has ht]
  exact loop_error e bs (fun b hb w v => vocabLine_iff (ha b hb) (ht.1 b hb).1 w v) (fun b hb => vocabLine_error (ht.1 b hb).1) []

/-- C91.  The same for files with split words. -/
theorem C91_cache_error {text : Str} {bs : List Str} (ht : HasLines text bs) (ha : ∀ b ∈ bs, ∀ c ∈ b, c.toNat < 128) (e : PyErr) :
    readBpeCache text = .error e ↔ FirstBad CacheEntry bs e := by
  rw [readBpeCache_has ht]
  exact loop_error e bs (fun b hb w v => cacheLine_iff (ha b hb) (ht.1 b hb).1 w v) (fun b hb => cacheLine_error (ht.1 b hb).1) []

/-- C91.  Lines added to the end of a vocabulary file are read like a file of their own; for words in both files they count. -/
theorem C91_vocab_append {s t : Str} {d d' : Dict Str Int} (hs : s.getLast? = some '\n') (h : loadVocabDict s = .ok d)
    (h' : loadVocabDict t = .ok d') :
    ∃ d'', loadVocabDict (s ++ t) = .ok d'' ∧ ∀ w, d''.get? w = (d'.get? w).or (d.get? w) := by
  unfold loadVocabDict at *
  rw [loadVocabLoop_eq] at *
  rw [readLines_append s t hs, loop_append, h]
  exact loop_from _ _ d d' h'

/-- C91.  The same for files with split words. -/
theorem C91_cache_append {s t : Str} {d d' : Dict Str (List Str)} (hs : s.getLast? = some '\n') (h : readBpeCache s = .ok d)
    (h' : readBpeCache t = .ok d') :
    ∃ d'', readBpeCache (s ++ t) = .ok d'' ∧ ∀ w, d''.get? w = (d'.get? w).or (d.get? w) := by
  unfold readBpeCache at *
  rw [readCacheLoop_eq] at *
  rw [readLines_append s t hs, loop_append, h]
  exact loop_from _ _ d d' h'

/-! ## Examples -/

example : HasLines "a\t1\r\nb\t2\r\na\t3".toList ["a\t1".toList, "b\t2".toList, "a\t3".toList] :=
  ⟨by decide, ['\r', '\n'], .inr (.inl rfl), .inr ⟨["a\t1".toList, "b\t2".toList], "a\t3".toList, rfl, by decide, by decide⟩⟩
example : VocabEntry "a\t12\tx".toList ['a'] 12 :=
  (vocabLine_iff (by decide) (by decide) _ _).mp (by decide +kernel)
example : Each VocabEntry ["a\t1".toList, "a\t3".toList] [(['a'], 1), (['a'], 3)] :=
  .cons ((vocabLine_iff (by decide) (by decide) _ _).mp (by decide +kernel))
    (.cons ((vocabLine_iff (by decide) (by decide) _ _).mp (by decide +kernel)) .nil)
example : loadVocabDict "a\t1\r\nb\t2\r\na\t3".toList = .ok [(['a'], 3), (['b'], 2)] := by decide +kernel
example : readBpeCache "ab\ta b\nab\tab\n".toList = .ok [(['a', 'b'], [['a', 'b']])] := by decide +kernel
example : loadVocabDict "a\t1\nb\nc\tx\n".toList = .error .indexError ∧
    loadVocabDict "a\t1\nc\tx\nb\n".toList = .error .valueError := by decide +kernel
example : FirstBad VocabEntry ["a\t1".toList, ['b'], "c\tx".toList] .indexError :=
  (C91_vocab_error (text := "a\t1\nb\nc\tx\n".toList) ⟨by decide, ['\n'], .inl rfl, .inl (by decide)⟩ (by decide) _).mp
    (by decide +kernel)
example : "a\t1\n".toList.getLast? = some '\n' ∧ loadVocabDict "a\t1\n".toList = .ok [(['a'], 1)] ∧
    loadVocabDict "a\t5".toList = .ok [(['a'], 5)] := by decide +kernel
example : "ab\ta b\n".toList.getLast? = some '\n' ∧ readBpeCache "ab\ta b\n".toList = .ok [(['a', 'b'], [['a'], ['b']])] ∧
    readBpeCache "c\td".toList = .ok [(['c'], [['d']])] := by decide +kernel

end Verif.Props
