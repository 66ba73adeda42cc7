import Verif.Model.Files
import Verif.Proofs.Literal
/-!
# Lemmas about the file formats
-/
namespace Verif
open Dict

theorem univNl_id {s : Str} (h : '\r' ∉ s) : univNl s = s := by
  fun_induction univNl s with
  | case1 => rfl
  | case2 r ih => simp at h
  | case3 r ih => simp at h
  | case4 c r h1 h2 ih => simp only [List.mem_cons, not_or] at h; rw [ih h.2]

theorem fileLines_line {b : Str} (h : '\n' ∉ b) (t : Str) :
    fileLines (b ++ '\n' :: t) = (b ++ ['\n']) :: fileLines t := by
  induction b with
  | nil => simp [fileLines]
  | cons c b ih =>
    simp only [List.mem_cons, not_or] at h
    rw [List.cons_append, fileLines, if_neg (fun e => h.1 e.symm), ih h.2]
    rfl

theorem concat_lines (bs : List Str) (hn : ∀ b ∈ bs, '\n' ∉ b) :
    fileLines (concat (bs.map (· ++ ['\n']))) = bs.map (· ++ ['\n']) := by
  induction bs with
  | nil => rfl
  | cons b bs ih =>
    simp only [List.map_cons, concat]
    rw [List.append_assoc, List.singleton_append, fileLines_line (hn b (by simp)),
      ih (fun x hx => hn x (by simp [hx]))]

theorem mem_concat {c : Char} {l : List Str} : c ∈ concat l ↔ ∃ s ∈ l, c ∈ s := by
  rw [concat_eq_flatten]; simp

/-- The lines of a file made of bodies without line ends. -/
theorem readLines_bodies (bs : List Str) (hn : ∀ b ∈ bs, '\n' ∉ b) (hr : ∀ b ∈ bs, '\r' ∉ b) :
    readLines (concat (bs.map (· ++ ['\n']))) = bs.map (· ++ ['\n']) := by
  unfold readLines
  rw [univNl_id, concat_lines bs hn]
  intro h
  obtain ⟨s, hs, hc⟩ := mem_concat.1 h
  obtain ⟨b, hb, rfl⟩ := List.mem_map.1 hs
  rcases List.mem_append.1 hc with hc | hc
  · exact hr b hb hc
  · simp at hc

theorem rstripNl_line {b : Str} (h : '\n' ∉ b) : rstripNl (b ++ ['\n']) = b := by
  unfold rstripNl
  rw [List.reverse_append]
  simp only [List.reverse_singleton, List.singleton_append, List.dropWhile_cons, decide_true, if_true]
  rw [dropWhile_head, List.reverse_reverse]
  intro c hc
  have := List.mem_of_mem_head? hc
  simp only [List.mem_reverse] at this
  simp only [decide_eq_false_iff_not]
  rintro rfl
  exact h this

theorem literal_no {s : Str} {c : Char} (h : c.toNat < 32 ∨ 127 ≤ c.toNat) : c ∉ toLiteral s := by
  intro hc
  have := toLiteral_printable s c hc
  omega

theorem natStr_no {n : Nat} {c : Char} (h : c.toNat < 48 ∨ 57 < c.toNat) : c ∉ natStr n := by
  intro hc
  have := natStr_digits n c hc
  omega

theorem intStr_no {i : Int} {c : Char} (h : c.toNat < 45 ∨ c.toNat = 46 ∨ c.toNat = 47 ∨ 57 < c.toNat) : c ∉ intStr i := by
  intro hc
  rcases intStr_chars i c hc with rfl | h'
  · have : '-'.toNat = 45 := rfl
    omega
  · omega

/-! ### Merge files -/

theorem parseFileEntry_line {a b : Str} {f : Int} (ha : ' ' ∉ a) (hb : ' ' ∉ b) (p : Nat) :
    parseFileEntry (toLiteral (pyJoin [' '] [a, b]) ++ ' ' :: intStr f) p = .ok ⟨(a, b), some f, some p⟩ := by
  unfold parseFileEntry
  rw [toNonLiteral_literal_plain]
  · have e : pyJoin [' '] [a, b] ++ ' ' :: intStr f = pyJoin [' '] [a, b, intStr f] := by
      simp [pyJoin]
    have hs : pySplit ' ' (pyJoin [' '] [a, b, intStr f]) = [a, b, intStr f] :=
      pySplit_pyJoin (by simp) (by
        intro x hx
        simp only [List.mem_cons, List.not_mem_nil, or_false] at hx
        rcases hx with rfl | rfl | rfl
        · exact ha
        · exact hb
        · exact intStr_no (by decide))
    rw [e]
    simp only [bind, Except.bind]
    rw [hs]
    simp only [pyInt_intStr]
  · intro c hc
    rcases List.mem_cons.1 hc with rfl | hc
    · decide
    · rcases intStr_chars f c hc with rfl | h
      · decide
      · omega
  · intro hc
    rcases List.mem_cons.1 hc with h | hc
    · exact absurd h (by decide)
    · exact intStr_no (by decide) hc

/-- The body of a line of a merge file. -/
def mergeBody (mg : Merge) : Str := toLiteral (pyJoin [' '] [mg.pair.1, mg.pair.2]) ++ ' ' :: optIntStr mg.freq

theorem optIntStr_no {o : Option Int} {c : Char} (h : c.toNat < 45) : c ∉ optIntStr o := by
  cases o with
  | none =>
    intro hc
    have : ∀ d ∈ "None".toList, ¬ d.toNat < 45 := by decide
    exact this c hc h
  | some i => exact intStr_no (Or.inl h)

theorem mergeBody_no {mg : Merge} {c : Char} (h : c.toNat < 32) : c ∉ mergeBody mg := by
  intro hc
  rcases List.mem_append.1 hc with hc | hc
  · exact literal_no (Or.inl h) hc
  · rcases List.mem_cons.1 hc with rfl | hc
    · exact absurd h (by decide)
    · exact optIntStr_no (by omega) hc

theorem dumpMerges_lines (m : MergeList) :
    readLines (dumpMerges m) = (m.toMerges.map mergeBody).map (· ++ ['\n']) := by
  have e : dumpMerges m = concat ((m.toMerges.map mergeBody).map (· ++ ['\n'])) := by
    unfold dumpMerges
    rw [List.map_map]
    rfl
  rw [e, readLines_bodies]
  · intro b hb
    obtain ⟨mg, -, rfl⟩ := List.mem_map.1 hb
    exact mergeBody_no (by decide)
  · intro b hb
    obtain ⟨mg, -, rfl⟩ := List.mem_map.1 hb
    exact mergeBody_no (by decide)

/-- What is left to read when `k` entries have been read. -/
def takeLim (lim : Option Nat) (k : Nat) (m : MergeList) : MergeList :=
  match lim with
  | none => m
  | some 0 => m
  | some (n + 1) => m.take (n + 1 - k)

/-- Reading the rest of a merge file when the first entries have been read. -/
theorem readMergesLoop_rest (lim : Option Nat) (m1 m2 : MergeList)
    (hwf : Dict.WF (m1 ++ m2))
    (hf : ∀ e ∈ m2, e.2.1 ≠ none)
    (hsp : ∀ e ∈ m2, ' ' ∉ e.1.1 ∧ ' ' ∉ e.1.2)
    (hr : ∀ i (h : i < m2.length), (m2[i]).2.2 = m1.length + i)
    (hl : limitReached lim m1.length = true → m2 = []) :
    readMergesLoop lim m1.length m1 ((m2.toMerges.map mergeBody).map (· ++ ['\n'])) =
      .ok (m1 ++ takeLim lim m1.length m2) := by
  induction m2 generalizing m1 with
  | nil => cases lim with
    | none => simp [readMergesLoop, MergeList.toMerges, takeLim]
    | some n => cases n <;> simp [readMergesLoop, MergeList.toMerges, takeLim]
  | cons e m2 ih =>
    obtain ⟨⟨a, b⟩, fo, pr⟩ := e
    have hfr := hf ((a, b), fo, pr) (by simp)
    obtain ⟨f, rfl⟩ : ∃ f, fo = some f := by
      cases fo with
      | none => exact absurd rfl hfr
      | some f => exact ⟨f, rfl⟩
    have hab := hsp ((a, b), some f, pr) (by simp)
    have hpr : pr = m1.length := by have := hr 0 (by simp); simpa using this
    subst hpr
    have hnl : limitReached lim m1.length = false := by
      cases h : limitReached lim m1.length with
      | false => rfl
      | true => exact absurd (hl h) (by simp)
    simp only [MergeList.toMerges, List.map_cons, readMergesLoop, hnl, Bool.false_eq_true, if_false]
    rw [rstripNl_line (mergeBody_no (by decide))]
    have hp : parseFileEntry (mergeBody ⟨(a, b), some f, some m1.length⟩) m1.length
        = .ok ⟨(a, b), some f, some m1.length⟩ := parseFileEntry_line hab.1 hab.2 _
    have hnm : (a, b) ∉ Dict.keys m1 := by
      unfold Dict.WF Dict.keys at hwf
      rw [List.map_append, List.nodup_append] at hwf
      intro h
      exact hwf.2.2 (a, b) h (a, b) (by simp) rfl
    have hap : MergeList.append m1 ⟨(a, b), some f, some m1.length⟩ = .ok (m1 ++ [((a, b), some f, m1.length)]) := by
      unfold MergeList.append
      simp only [ne_eq, not_true_eq_false, if_false]
      rw [set_of_not_mem _ _ _ hnm]
    rw [hp]
    simp only [bind, Except.bind, hap]
    by_cases hl2 : limitReached lim (m1.length + 1) = true
    · -- the limit has been reached: the rest is not read
      obtain ⟨n, rfl⟩ : ∃ n, lim = some n := by
        cases lim with
        | none => simp [limitReached] at hl2
        | some n => exact ⟨n, rfl⟩
      simp only [limitReached, Bool.and_eq_true, bne_iff_ne, ne_eq, decide_eq_true_eq] at hl2 hnl
      obtain ⟨k, rfl⟩ : ∃ k, n = k + 1 := ⟨n - 1, by omega⟩
      have hk : k = m1.length := by
        simp at hnl
        omega
      subst hk
      have : readMergesLoop (some (m1.length + 1)) (m1.length + 1) (m1 ++ [((a, b), some f, m1.length)])
          (List.map (fun x => x ++ ['\n']) (List.map mergeBody (List.map (fun e => (⟨e.1, e.2.1, some e.2.2⟩ : Merge)) m2)))
          = .ok (m1 ++ [((a, b), some f, m1.length)]) := by
        cases m2 with
        | nil => simp [readMergesLoop]
        | cons _ _ => simp [readMergesLoop, limitReached]
      rw [this]
      simp only [takeLim, Nat.add_sub_cancel_left, List.take_succ_cons, List.take_zero]
    · have := ih (m1 ++ [((a, b), some f, m1.length)]) (by simpa using hwf)
        (fun e he => hf e (by simp [he])) (fun e he => hsp e (by simp [he]))
        (by
          intro i hi
          have := hr (i + 1) (by simp; omega)
          simp at this
          simp
          omega)
        (by
          intro h
          simp at h
          exact absurd h hl2)
      simp only [List.length_append, List.length_singleton, MergeList.toMerges] at this
      rw [this]
      congr 1
      cases lim with
      | none => simp [takeLim]
      | some n =>
        cases n with
        | zero => simp [takeLim]
        | succ n =>
          have : n + 1 - m1.length = (n + 1 - (m1.length + 1)) + 1 := by
            simp [limitReached] at hl2
            omega
          simp only [takeLim, this, List.take_succ_cons, List.append_assoc, List.singleton_append]

/-! ### Generic dictionary files -/

theorem foldl_set_append {α β : Type} [DecidableEq α] (d l : Dict α β) (h : Dict.WF (d ++ l)) :
    l.foldl (fun d e => d.set e.1 e.2) d = d ++ l := by
  induction l generalizing d with
  | nil => simp
  | cons e l ih =>
    have hn : e.1 ∉ Dict.keys d := by
      unfold Dict.WF Dict.keys at h
      rw [List.map_append, List.nodup_append] at h
      intro h'
      exact h.2.2 e.1 h' e.1 (by simp) rfl
    rw [List.foldl_cons, set_of_not_mem _ _ _ hn, ih _ (by simpa using h)]
    simp

theorem readCacheLoop_ok (d : Dict Str (List Str)) (lines : List Str) (es : List (Str × List Str))
    (h : lines.map readCacheLine = es.map .ok) :
    readCacheLoop d lines = .ok (es.foldl (fun d e => d.set e.1 e.2) d) := by
  induction lines generalizing d es with
  | nil =>
    cases es with
    | nil => rfl
    | cons e es => simp at h
  | cons l lines ih =>
    cases es with
    | nil => simp at h
    | cons e es =>
      simp only [List.map_cons, List.cons.injEq] at h
      rw [readCacheLoop, h.1]
      exact ih _ es h.2

theorem loadVocabLoop_ok (d : Dict Str Int) (lines : List Str) (es : List (Str × Int))
    (h : lines.map loadVocabLine = es.map .ok) :
    loadVocabLoop d lines = .ok (es.foldl (fun d e => d.set e.1 e.2) d) := by
  induction lines generalizing d es with
  | nil =>
    cases es with
    | nil => rfl
    | cons e es => simp at h
  | cons l lines ih =>
    cases es with
    | nil => simp at h
    | cons e es =>
      simp only [List.map_cons, List.cons.injEq] at h
      rw [loadVocabLoop, h.1]
      exact ih _ es h.2

theorem pySplit_two {s t : Str} {c : Char} (hs : c ∉ s) (ht : c ∉ t) : pySplit c (s ++ c :: t) = [s, t] := by
  have := pySplit_pyJoin (sep := c) (l := [s, t]) (by simp) (by
    intro x hx
    simp only [List.mem_cons, List.not_mem_nil, or_false] at hx
    rcases hx with rfl | rfl
    · exact hs
    · exact ht)
  simpa [pyJoin] using this

theorem readCacheLine_ok {w : Str} {l : List Str} (hne : l ≠ []) (hl : ∀ p ∈ l, ' ' ∉ p) :
    readCacheLine (toLiteral w ++ '\t' :: toLiteral (pyJoin [' '] l) ++ ['\n']) = .ok (w, l) := by
  unfold readCacheLine
  rw [rstripNl_line, pySplit_two (literal_no (by decide)) (literal_no (by decide))]
  · simp only [toNonLiteral_literal, bind, Except.bind, pySplit_pyJoin hne hl]
  · intro h
    rcases List.mem_append.1 h with h | h
    · exact literal_no (by decide) h
    · rcases List.mem_cons.1 h with h | h
      · exact absurd h (by decide)
      · exact literal_no (by decide) h

theorem loadVocabLine_ok (w : Str) (n : Nat) :
    loadVocabLine (toLiteral w ++ '\t' :: natStr n ++ ['\n']) = .ok (w, (n : Int)) := by
  unfold loadVocabLine
  rw [rstripNl_line, pySplit_two (literal_no (by decide)) (natStr_no (by decide))]
  · simp only [toNonLiteral_literal, bind, Except.bind, pyInt_natStr]
  · intro h
    rcases List.mem_append.1 h with h | h
    · exact literal_no (by decide) h
    · rcases List.mem_cons.1 h with h | h
      · exact absurd h (by decide)
      · exact natStr_no (by decide) h

/-- Lines of a vocabulary file whose words are printable. -/
theorem dumpVocab_lines (l : List (Str × Nat)) (lit : Bool)
    (h : lit = false → ∀ e ∈ l, '\n' ∉ e.1 ∧ '\r' ∉ e.1) :
    readLines (dumpVocabDict l lit) = l.map (vocabLine lit) := by
  have e : l.map (vocabLine lit) =
      (l.map fun e => (if lit then toLiteral e.1 else e.1) ++ '\t' :: natStr e.2).map (· ++ ['\n']) := by
    rw [List.map_map]; rfl
  unfold dumpVocabDict
  rw [e, readLines_bodies]
  · intro b hb
    obtain ⟨x, hx, rfl⟩ := List.mem_map.1 hb
    intro hc
    rcases List.mem_append.1 hc with hc | hc
    · cases lit with
      | true => exact literal_no (by decide) hc
      | false => exact (h rfl x hx).1 hc
    · rcases List.mem_cons.1 hc with hc | hc
      · exact absurd hc (by decide)
      · exact natStr_no (by decide) hc
  · intro b hb
    obtain ⟨x, hx, rfl⟩ := List.mem_map.1 hb
    intro hc
    rcases List.mem_append.1 hc with hc | hc
    · cases lit with
      | true => exact literal_no (by decide) hc
      | false => exact (h rfl x hx).2 hc
    · rcases List.mem_cons.1 hc with hc | hc
      · exact absurd hc (by decide)
      · exact natStr_no (by decide) hc

/-! ### Sorting -/

theorem insertDesc_perm (e : Str × Nat) (l : List (Str × Nat)) : (insertDesc e l).Perm (e :: l) := by
  induction l with
  | nil => exact List.Perm.refl _
  | cons x r ih =>
    rw [insertDesc]
    split
    · exact List.Perm.refl _
    · exact (List.Perm.cons x ih).trans (List.Perm.swap e x r)

theorem sortDesc_perm (l : List (Str × Nat)) : (sortDesc l).Perm l := by
  induction l with
  | nil => exact List.Perm.refl _
  | cons e r ih => exact (insertDesc_perm e _).trans (List.Perm.cons e ih)

theorem insertDesc_sorted (e : Str × Nat) (l : List (Str × Nat)) (h : l.Pairwise fun a b => b.2 ≤ a.2) :
    (insertDesc e l).Pairwise fun a b => b.2 ≤ a.2 := by
  induction l with
  | nil => simp [insertDesc]
  | cons x r ih =>
    rw [List.pairwise_cons] at h
    rw [insertDesc]
    split
    · next hx =>
      rw [List.pairwise_cons]
      refine ⟨?_, List.pairwise_cons.2 h⟩
      intro b hb
      rcases List.mem_cons.1 hb with rfl | hb
      · exact hx
      · exact Nat.le_trans (h.1 b hb) hx
    · next hx =>
      rw [List.pairwise_cons]
      refine ⟨?_, ih h.2⟩
      intro b hb
      rcases List.mem_cons.1 ((insertDesc_perm e r).mem_iff.1 hb) with rfl | hb
      · omega
      · exact h.1 b hb

theorem sortDesc_sorted (l : List (Str × Nat)) : (sortDesc l).Pairwise fun a b => b.2 ≤ a.2 := by
  induction l with
  | nil => exact List.Pairwise.nil
  | cons e r ih => exact insertDesc_sorted e _ ih

/-- Entries with equal numbers keep their order. -/
theorem insertDesc_filter (e : Str × Nat) (l : List (Str × Nat)) (h : l.Pairwise fun a b => b.2 ≤ a.2) (n : Nat) :
    (insertDesc e l).filter (fun x => x.2 = n) = (e :: l).filter (fun x => x.2 = n) := by
  induction l with
  | nil => rfl
  | cons x r ih =>
    rw [List.pairwise_cons] at h
    rw [insertDesc]
    split
    · rfl
    · next hx =>
      rw [List.filter_cons, ih h.2]
      by_cases he : e.2 = n
      · have : x.2 ≠ n := by omega
        simp [he, this]
      · simp [List.filter_cons, he]

theorem sortDesc_stable (l : List (Str × Nat)) (n : Nat) :
    (sortDesc l).filter (fun x => x.2 = n) = l.filter (fun x => x.2 = n) := by
  induction l with
  | nil => rfl
  | cons e r ih =>
    rw [sortDesc, insertDesc_filter _ _ (sortDesc_sorted r), List.filter_cons, List.filter_cons, ih]

/-! ### `.prep` files -/

theorem toLiteral_space : toLiteral [' '] = [' '] := by decide

theorem toLiteral_pyJoin (l : List Str) : toLiteral (pyJoin [' '] l) = pyJoin [' '] (l.map toLiteral) := by
  induction l with
  | nil => rfl
  | cons p l ih =>
    cases l with
    | nil => rfl
    | cons q l =>
      simp only [List.map_cons] at ih
      simp only [pyJoin, List.map_cons, toLiteral_append, toLiteral_space, ih]

theorem mem_toLiteral_space {s : Str} (h : ' ' ∉ s) : ' ' ∉ toLiteral s := by
  intro hc
  unfold toLiteral at hc
  obtain ⟨c, hc1, hc2⟩ := List.mem_flatMap.1 hc
  have hns : c ≠ ' ' := by rintro rfl; exact h hc1
  have hx : ∀ w n, ' ' ∉ hexN w n := by
    intro w
    induction w with
    | zero => simp [hexN]
    | succ w ih =>
      intro n hm
      rw [hexN, List.mem_append, List.mem_singleton] at hm
      rcases hm with hm | hm
      · exact ih _ hm
      · have : ∀ k : Fin 16, ' ' ≠ hexDigit k.1 := by decide
        exact this ⟨n % 16, Nat.mod_lt _ (by decide)⟩ hm
  unfold litChar at hc2
  simp only at hc2
  repeat' split at hc2
  all_goals simp at hc2
  all_goals first
    | exact hns hc2.symm
    | exact hx _ _ hc2

theorem prepText_lines (l : List Str) : readLines (prepText l) = [prepText l] := by
  have := readLines_bodies [toLiteral (pyJoin [' '] l)]
    (by intro b hb; simp at hb; subst hb; exact literal_no (by decide))
    (by intro b hb; simp at hb; subst hb; exact literal_no (by decide))
  simpa [concat, prepText] using this

theorem prepText_words (l : List Str) (hne : l ≠ []) (hl : ∀ t ∈ l, ' ' ∉ t) :
    pySplit ' ' (rstripNl (prepText l)) = l.map toLiteral := by
  unfold prepText
  rw [rstripNl_line (literal_no (by decide)), toLiteral_pyJoin, pySplit_pyJoin (by simpa using hne)]
  intro p hp
  obtain ⟨t, ht, rfl⟩ := List.mem_map.1 hp
  exact mem_toLiteral_space (hl t ht)

theorem pySplit_length_snoc (s : Str) (c d : Char) (h : d ≠ c) :
    (pySplit c (s ++ [d])).length = (pySplit c s).length := by
  induction s with
  | nil => simp [pySplit, h]
  | cons x s ih =>
    by_cases hx : x = c
    · simp [pySplit, hx, ih]
    · simp only [List.cons_append, pySplit, if_neg hx]
      have h1 := pySplit_ne_nil c (s ++ [d])
      have h2 := pySplit_ne_nil c s
      cases e1 : pySplit c (s ++ [d]) with
      | nil => exact absurd e1 h1
      | cons a as =>
        cases e2 : pySplit c s with
        | nil => exact absurd e2 h2
        | cons b bs => rw [e1, e2] at ih; simpa using ih

theorem calcNTokens_prep (l : List Str) (hne : l ≠ []) (hl : ∀ t ∈ l, ' ' ∉ t) :
    calcNTokens (prepText l) = l.length := by
  unfold calcNTokens
  rw [prepText_lines]
  have h := prepText_words l hne hl
  have e : (pySplit ' ' (prepText l)).length = (pySplit ' ' (rstripNl (prepText l))).length := by
    unfold prepText
    rw [rstripNl_line (literal_no (by decide)), pySplit_length_snoc _ _ _ (by decide)]
  simp [e, h]

/-! ### Counting -/

theorem counterUpdate_get (d : Dict Str Nat) (ws : List Str) (w : Str) :
    ((counterUpdate d ws).get? w).getD 0 = (d.get? w).getD 0 + ws.count w := by
  induction ws generalizing d with
  | nil => simp [counterUpdate]
  | cons x ws ih =>
    rw [counterUpdate, ih, get?_set, List.count_cons]
    by_cases h : x = w
    · subst h; simp; omega
    · simp [h]

theorem counterUpdate_WF (d : Dict Str Nat) (ws : List Str) (h : d.WF) : (counterUpdate d ws).WF := by
  induction ws generalizing d with
  | nil => exact h
  | cons x ws ih => exact ih _ (WF_set h _ _)

theorem keys_set {α β : Type} [DecidableEq α] (d : Dict α β) (k : α) (v : β) (x : α) :
    x ∈ (d.set k v).keys ↔ x = k ∨ x ∈ d.keys := by
  have h1 := has_iff (d := d.set k v) (k := x)
  rw [← h1]
  unfold Dict.has
  rw [get?_set]
  by_cases h : k = x
  · simp [h]
  · simp only [h, if_false]
    have h2 := has_iff (d := d) (k := x)
    unfold Dict.has at h2
    rw [h2]
    constructor
    · exact Or.inr
    · rintro (h' | h')
      · exact absurd h'.symm h
      · exact h'

theorem counterUpdate_keys (d : Dict Str Nat) (ws : List Str) (x : Str) :
    x ∈ (counterUpdate d ws).keys ↔ x ∈ ws ∨ x ∈ d.keys := by
  induction ws generalizing d with
  | nil => simp [counterUpdate]
  | cons w ws ih =>
    rw [counterUpdate, ih, keys_set, List.mem_cons]
    constructor
    · rintro (h | h | h)
      · exact Or.inl (Or.inr h)
      · exact Or.inl (Or.inl h)
      · exact Or.inr h
    · rintro ((h | h) | h)
      · exact Or.inr (Or.inl h)
      · exact Or.inl h
      · exact Or.inr (Or.inr h)

theorem counterUpdate_append (d : Dict Str Nat) (a b : List Str) :
    counterUpdate d (a ++ b) = counterUpdate (counterUpdate d a) b := by
  induction a generalizing d with
  | nil => rfl
  | cons x a ih => exact ih _

theorem getVocab_prep_aux (d : Dict Str Nat) (ls : List (List Str)) (hne : ∀ l ∈ ls, l ≠ [])
    (hsp : ∀ l ∈ ls, ∀ t ∈ l, ' ' ∉ t) :
    (ls.map prepText).foldl (fun d t => (readFileContents t).foldl (fun d line => counterUpdate d (pySplit ' ' line)) d) d
      = counterUpdate d (ls.flatten.map toLiteral) := by
  induction ls generalizing d with
  | nil => rfl
  | cons l ls ih =>
    rw [List.map_cons, List.foldl_cons]
    have : readFileContents (prepText l) = [rstripNl (prepText l)] := by
      unfold readFileContents
      rw [prepText_lines]
      rfl
    rw [this]
    simp only [List.foldl_cons, List.foldl_nil]
    rw [prepText_words l (hne l (by simp)) (hsp l (by simp)), ih _ (fun x hx => hne x (by simp [hx]))
      (fun x hx => hsp x (by simp [hx]))]
    rw [List.flatten_cons, List.map_append, counterUpdate_append]

theorem getVocab_prep (ls : List (List Str)) (hne : ∀ l ∈ ls, l ≠ []) (hsp : ∀ l ∈ ls, ∀ t ∈ l, ' ' ∉ t) :
    getVocab (ls.map prepText) = counterUpdate [] (ls.flatten.map toLiteral) :=
  getVocab_prep_aux [] ls hne hsp

theorem nodup_of_map {α β : Type} (f : α → β) {l : List α} (h : (l.map f).Nodup) : l.Nodup := by
  induction l with
  | nil => exact List.nodup_nil
  | cons a l ih =>
    rw [List.map_cons, List.nodup_cons] at h
    rw [List.nodup_cons]
    exact ⟨fun hm => h.1 (List.mem_map.2 ⟨a, hm, rfl⟩), ih h.2⟩

theorem count_map_toLiteral (l : List Str) (w : Str) : (l.map toLiteral).count (toLiteral w) = l.count w := by
  induction l with
  | nil => rfl
  | cons x l ih =>
    rw [List.map_cons, List.count_cons, List.count_cons, ih]
    by_cases h : x = w
    · simp [h]
    · have : toLiteral x ≠ toLiteral w := fun e => h (toLiteral_inj e)
      simp [h, this]

end Verif
