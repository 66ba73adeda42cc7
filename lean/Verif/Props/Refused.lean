import Verif.Props.Preprocess
import Verif.Props.Config
import Verif.Props.DirNames
/-!
# What is refused, and with which error

Words, metadata, representations, configurations and suffixes that do not fit together.
-/
namespace Verif.Props
open Verif Verif.Spec

/-! ## Metadata of two results joined -/

theorem mem_foldl_setAdd (x : Str) : ∀ (l acc : List Str), x ∈ l.foldl setAdd acc ↔ x ∈ acc ∨ x ∈ l
  | [], acc => by simp
  | y :: r, acc => by
    rw [List.foldl_cons, mem_foldl_setAdd x r]
    unfold setAdd
    split
    · rename_i h
      constructor
      · rintro (h1 | h1)
        · exact .inl h1
        · exact .inr (List.mem_cons_of_mem _ h1)
      · rintro (h1 | h1)
        · exact .inl h1
        · rcases List.mem_cons.mp h1 with rfl | h2
          · exact .inl h
          · exact .inr h2
    · simp [or_assoc]

/-- **C15** Metadata is refused for joining exactly if it has no boundaries; it is never refused otherwise. -/
theorem C15_join_refused (m m' : Meta) :
    (m.bounds = [] → m.update m' = .error .indexError) ∧ (m.bounds ≠ [] → ∃ r, m.update m' = .ok r) := by
  constructor
  · intro h
    unfold Meta.update
    rw [h]; rfl
  · intro h
    unfold Meta.update
    rw [List.getLast?_eq_some_getLast h]
    exact ⟨_, rfl⟩

/-- **C15** Metadata of two results joined is metadata of the results joined. -/
theorem C15_join {n k : Nat} {m m' : Meta} (h : WellFormed n m) (h' : WellFormed k m') :
    ∃ r, m.update m' = .ok r ∧ WellFormed (n + k) r ∧ r.types = m.types ++ m'.types ∧
      (∀ w, w ∈ r.nonproc ↔ w ∈ m.nonproc ∨ w ∈ m'.nonproc) ∧
      (∀ b, b ∈ r.bounds ↔ b ∈ m.bounds ∨ ∃ c ∈ m'.bounds, b = n + c) := by
  have hlast := h.ends
  have hsplit : m.bounds = m.bounds.dropLast ++ [n] := by
    have hne : m.bounds ≠ [] := by intro e; rw [e] at hlast; cases hlast
    rw [List.getLast?_eq_some_getLast hne] at hlast
    conv => lhs; rw [← List.dropLast_concat_getLast hne]
    rw [Option.some.inj hlast]
  obtain ⟨s, hs⟩ : ∃ s, m'.bounds = 0 :: s := by
    have h1 := h'.starts
    rcases hb : m'.bounds with _ | ⟨a, s⟩
    · rw [hb] at h1; cases h1
    · rw [hb] at h1; cases h1; exact ⟨s, rfl⟩
  refine ⟨_, by unfold Meta.update; rw [hlast], ⟨?_, ?_, ?_, ?_⟩, rfl, fun w => mem_foldl_setAdd w _ _, ?_⟩
  · have h1 := h.starts
    rw [hsplit] at h1
    simp only [hs, List.map_cons, Nat.add_zero]
    rcases hd : m.bounds.dropLast with _ | ⟨a, t⟩
    · rw [hd] at h1; simpa using h1
    · rw [hd] at h1; simpa using h1
  · have h1 := h'.ends
    simp only
    rw [List.getLast?_append, List.getLast?_map, h1]
    rfl
  · have h1 := h.nondecreasing
    rw [hsplit, List.pairwise_append] at h1
    simp only
    rw [List.pairwise_append]
    refine ⟨h1.1, ?_, ?_⟩
    · rw [List.pairwise_map]
      exact h'.nondecreasing.imp (by intro a b hab; omega)
    · intro a ha b hb
      obtain ⟨c, hc, rfl⟩ := List.mem_map.mp hb
      have := h1.2.2 a ha n (by simp)
      omega
  · have h1 := h.types
    have h2 := h'.types
    have h3 : m.bounds.length = m.bounds.dropLast.length + 1 := by
      conv => lhs; rw [hsplit]
      simp
    simp only [List.length_append, List.length_map]
    omega
  · intro b
    simp only
    rw [List.mem_append, List.mem_map]
    constructor
    · rintro (h1 | ⟨c, hc, rfl⟩)
      · exact .inl (List.dropLast_subset _ h1)
      · exact .inr ⟨c, hc, rfl⟩
    · rintro (h1 | ⟨c, hc, rfl⟩)
      · rw [hsplit] at h1
        rcases List.mem_append.mp h1 with h2 | h2
        · exact .inl h2
        · rw [List.mem_singleton] at h2
          exact .inr ⟨0, by rw [hs]; exact List.mem_cons_self, by rw [h2]; rfl⟩
      · exact .inr ⟨c, hc, rfl⟩

/-- Non-vacuity of C15_join. -/
example : (Meta.mk [['a']] [0, 2] [.word]).update ⟨[['b'], ['a']], [0, 1, 3], [.number, .zero]⟩ =
    .ok ⟨[['a'], ['b']], [0, 2, 3, 5], [.word, .number, .zero]⟩ ∧ WellFormed 2 ⟨[['a']], [0, 2], [.word]⟩ ∧
    WellFormed 3 ⟨[['b'], ['a']], [0, 1, 3], [.number, .zero]⟩ :=
  ⟨by decide, ⟨rfl, rfl, by decide, rfl⟩, ⟨rfl, rfl, by decide, rfl⟩⟩

/-! ## Words -/

/-- **C23** A word is refused exactly if it, or its first character, is in upper case and can be changed to lower case. -/
theorem C23_word_refused (u : Ucd) (w : Str) (cap : Cap) :
    (mkWord u w cap = .error .assertionError ↔
      (u.isUpper w = true ∧ u.isUpper (u.toLower w) = false) ∨
        ∃ c r, w = c :: r ∧ u.isUpper [c] = true ∧ u.isUpper (u.toLower [c]) = false) ∧
      (mkWord u w cap = .error .assertionError ∨ mkWord u w cap = .ok (.word w cap)) := by
  unfold mkWord isStrictlyUpper
  rcases w with _ | ⟨c, r⟩
  · simp only
    split
    · rename_i h
      exact ⟨⟨fun _ => .inl (by simpa using h), fun _ => rfl⟩, .inl rfl⟩
    · rename_i h
      refine ⟨⟨(fun e => nomatch e), ?_⟩, .inr rfl⟩
      rintro (h1 | ⟨c, r, h1, -⟩)
      · exact absurd (by simpa using h1) h
      · cases h1
  · simp only
    split
    · rename_i h
      simp only [Bool.or_eq_true, Bool.and_eq_true, Bool.not_eq_true'] at h
      exact ⟨⟨fun _ => h.imp id fun h1 => ⟨c, r, rfl, h1⟩, fun _ => rfl⟩, .inl rfl⟩
    · rename_i h
      simp only [Bool.or_eq_true, Bool.and_eq_true, Bool.not_eq_true'] at h
      refine ⟨⟨(fun e => nomatch e), ?_⟩, .inr rfl⟩
      rintro (h1 | ⟨c', r', h1, h2⟩)
      · exact absurd (.inl h1) h
      · cases h1
        exact absurd (.inr h2) h

/-- Non-vacuity of C23_word_refused. -/
example : mkWord demoEnv.ucd "Ab".toList .none = .error .assertionError ∧ mkWord demoEnv.ucd "aB".toList .none = .ok (.word "aB".toList .none) := by
  decide +kernel

/-! ## Representations -/

/-- **C17** Keywords, operators and other tokens that are never processed are refused exactly if they are to be processed. -/
theorem C17_refused (u : Ucd) (rc : ReprConfig) (t : Tok)
    (ht : t.ty ∈ [Ty.keyWord, .operator, .semicolon, .openingCurly, .closingCurly, .openingBracket, .closingBracket,
      .nonCodeChar, .specialToken, .spaceInString]) :
    (t.ty ∈ rc.types → Tok.torepr u rc t = .error .attributeError) ∧
      (t.ty ∉ rc.types → ∃ s m, Tok.torepr u rc t = .ok ([s], m)) := by
  have key : ∀ (p : Prop) [Decidable p] (x : List Str × Meta) (a : Str) (m : Meta), x = ([a], m) →
      (p → (if p then (.error .attributeError : Except PyErr (List Str × Meta)) else .ok x) = .error .attributeError) ∧
      (¬ p → ∃ s m, (if p then (.error .attributeError : Except PyErr (List Str × Meta)) else .ok x) = .ok ([s], m)) := by
    intro p _ x a m hx
    exact ⟨fun h => if_pos h, fun h => ⟨a, m, by rw [if_neg h, hx]⟩⟩
  cases t <;> simp [Tok.ty] at ht <;> unfold Tok.torepr <;> exact key _ _ _ _ rfl

/-- **C17** An underscore is refused exactly if underscores are to be processed. -/
theorem C17_underscore (u : Ucd) (rc : ReprConfig) :
    (Ty.underscore ∈ rc.types → Subtok.repr u rc .underscore = .error .attributeError) ∧
      (Ty.underscore ∉ rc.types → Subtok.repr u rc .underscore = .ok [['_']]) :=
  ⟨fun h => if_pos h, fun h => if_neg h⟩

/-- **C17** A word that is to be processed is refused if there is nothing to split words with. -/
theorem C17_no_splitter (u : Ucd) (rc : ReprConfig) (w : Str) (cap : Cap) (h : rc.wordSplitter = none) (ht : Ty.word ∈ rc.types) :
    Subtok.repr u rc (.word w cap) = .error .typeError := by
  have hs : ∀ s, rc.splitWord s = .error .typeError := by
    intro s; unfold ReprConfig.splitWord; rw [h]
  unfold Subtok.repr
  simp only
  rw [if_pos ht]
  split
  · rw [hs]; rfl
  · rw [hs]

/-- **C17** A string literal that is not replaced by a placeholder is refused if there is no greatest length. -/
theorem C17_no_length (u : Ucd) (rc : ReprConfig) (ts : List Tok) (n : Nat) (h : rc.maxStrLength = none) (ht : Ty.stringLiteral ∉ rc.types) :
    Tok.torepr u rc (.stringLiteral ts n) = .error .typeError := by
  unfold Tok.torepr
  rw [if_neg ht, h]

/-- **C17** What is refused is refused wherever it is among other tokens. -/
theorem C17_first_refused (u : Ucd) (rc : ReprConfig) (e : PyErr) (t : Tok) (ts rest : List Tok) (r : List Str × Meta)
    (h : toReprList u rc ts = .ok r) (ht : Tok.torepr u rc t = .error e) : toReprList u rc (ts ++ t :: rest) = .error e := by
  have key : ∀ (ts : List Tok) (acc : List Str) (md : Meta) (r : List Str × Meta), toreprFrom u rc false acc md ts = .ok r →
      toreprFrom u rc false acc md (ts ++ t :: rest) = .error e := by
    intro ts
    induction ts with
    | nil =>
      intro acc md r _
      rw [List.nil_append, toreprFrom]
      · rw [ht]; rfl
      · intro n h1; cases h1
    | cons a r' ih =>
      intro acc md r h1
      rw [toreprFrom] at h1
      · rw [List.cons_append, toreprFrom]
        · cases ha : Tok.torepr u rc a with
          | error e' => rw [ha] at h1; cases h1
          | ok x =>
            rw [ha] at h1
            cases hm : md.update x.2 with
            | error e' => simp only [bind, Except.bind, hm] at h1; cases h1
            | ok md' =>
              simp only [bind, Except.bind, hm] at h1 ⊢
              exact ih _ _ _ h1
        · intro n h2; cases h2
      · intro n h2; cases h2
  exact key ts [] Meta.empty r h

/-- A representation that processes keywords and words but has nothing to split words with. -/
def badRc : ReprConfig := ⟨[.keyWord, .word, .splitContainer], false, false, fun v => .ok [v], none, true, none⟩

/-- Non-vacuity of the theorems on representations: a keyword is refused after an operator that is shown. -/
example : Tok.ty (.keyWord "if".toList) ∈ badRc.types ∧ (∃ r, toReprList demoEnv.ucd badRc [.operator "+".toList] = .ok r) ∧
    toReprList demoEnv.ucd badRc [.operator "+".toList, .keyWord "if".toList, .newLine] = .error .attributeError ∧
    toReprList demoEnv.ucd badRc [.operator "+".toList, .split [.word "a".toList .none]] = .error .typeError ∧
    toReprList demoEnv.ucd badRc [.stringLiteral [] 2] = .error .typeError := by
  refine ⟨by decide, ⟨_, rfl⟩, ?_, ?_, ?_⟩ <;> decide +kernel

/-! ## Configurations -/

/-- Settings of which one is missing are refused: the missing one is reported, unless the value of one before it is wrong.
In the code six entries of which one is missing have one under a key that is no parameter; such keys are not modelled, so that
here an entry is repeated in its place. -/
theorem make_missing (d : Dict PrepParam Str) (pre post : List PrepParam) (p : PrepParam) (hl : d.length = 6)
    (hall : PrepParam.all = pre ++ p :: post) (hp : d.get? p = none)
    (hpre : ∀ q ∈ pre, ∃ v, d.get? q = some v) :
    PrepConfig.make d = .error (if ∀ q ∈ pre, ∀ v, d.get? q = some v → v ∈ possibleParamValues q then .keyError else .valueError) := by
  have key : ∀ pre : List PrepParam, (∀ q ∈ pre, ∃ v, d.get? q = some v) → checkValues d (pre ++ p :: post) =
      .error (if ∀ q ∈ pre, ∀ v, d.get? q = some v → v ∈ possibleParamValues q then .keyError else .valueError) := by
    intro pre
    induction pre with
    | nil =>
      intro _
      rw [if_pos (by simp)]
      simp [checkValues, paramOf, hp, bind, Except.bind]
    | cons q r ih =>
      intro hq
      obtain ⟨v, hv⟩ := hq q List.mem_cons_self
      rw [List.cons_append, checkValues]
      simp only [paramOf, hv, bind, Except.bind]
      by_cases hvv : v ∈ possibleParamValues q
      · rw [if_pos hvv, ih fun q' h => hq q' (List.mem_cons_of_mem _ h)]
        have he : (∀ q' ∈ q :: r, ∀ v, d.get? q' = some v → v ∈ possibleParamValues q') ↔
            ∀ q' ∈ r, ∀ v, d.get? q' = some v → v ∈ possibleParamValues q' := by
          constructor
          · intro h q' h1
            exact h q' (List.mem_cons_of_mem _ h1)
          · intro h q' h1 v' h2
            rcases List.mem_cons.mp h1 with rfl | h3
            · rw [hv] at h2; cases h2; exact hvv
            · exact h q' h3 v' h2
        simp only [he]
      · rw [if_neg hvv, if_neg fun h => hvv (h q List.mem_cons_self v hv)]
  unfold PrepConfig.make
  rw [if_neg (by rw [hl]; decide), hall, key pre hpre]
  rfl

/-- Non-vacuity of make_missing: six settings, one of them given twice, so that the last is missing. -/
example : PrepConfig.make [(.enOnly, ['u']), (.com, ['c']), (.str, ['1']), (.split, ['1']), (.tabsNewlines, ['s']), (.enOnly, ['u'])] =
      .error .keyError ∧
    PrepConfig.make [(.enOnly, ['x']), (.com, ['c']), (.str, ['1']), (.split, ['1']), (.tabsNewlines, ['s']), (.enOnly, ['u'])] =
      .error .valueError := by
  constructor <;> decide +kernel

/-! ## Suffixes -/

theorem contains_spec (s t : Str) : contains s t = true ↔ ∃ a b, s = a ++ t ++ b := by
  induction s with
  | nil =>
    unfold contains
    simp only [Bool.or_false]
    constructor
    · intro h
      obtain ⟨b, hb⟩ := List.isPrefixOf_iff_prefix.mp h
      exact ⟨[], b, by simpa using hb.symm⟩
    · rintro ⟨a, b, h⟩
      have h1 := List.append_eq_nil_iff.mp h.symm
      have h2 := List.append_eq_nil_iff.mp h1.1
      rw [h2.2]; rfl
  | cons c r ih =>
    unfold contains
    simp only [Bool.or_eq_true]
    rw [ih]
    constructor
    · rintro (h | ⟨a, b, h⟩)
      · obtain ⟨b, hb⟩ := List.isPrefixOf_iff_prefix.mp h
        exact ⟨[], b, by simpa using hb.symm⟩
      · exact ⟨c :: a, b, by rw [h]; rfl⟩
    · rintro ⟨a, b, h⟩
      rcases a with _ | ⟨c', a⟩
      · exact .inl (List.isPrefixOf_iff_prefix.mpr ⟨b, by simpa using h.symm⟩)
      · cases h
        exact .inr ⟨a, b, rfl⟩

/-- **C43** A suffix is refused exactly if `nocase` or `prefix` is in it; the other settings are read from what is in it. -/
theorem C43_suffix_read (s : Str) :
    ((∃ a b, s = a ++ "nocase".toList ++ b) ∨ (∃ a b, s = a ++ "prefix".toList ++ b) → BpeConfig.fromSuffix s = .error .valueError) ∧
      (¬ (∃ a b, s = a ++ "nocase".toList ++ b) → ¬ (∃ a b, s = a ++ "prefix".toList ++ b) →
        ∃ c, BpeConfig.fromSuffix s = .ok c ∧ c.case = "yes".toList ∧ c.base = "code".toList ∧
          (c.wordEnd = true ↔ ∃ a b, s = a ++ "we".toList ++ b) ∧
          (c.unicode = "no".toList ↔ ∃ a b, s = a ++ "nounicode".toList ++ b) ∧
          (c.unicode = "bytes".toList ↔ (∃ a b, s = a ++ "bytes".toList ++ b) ∧ ¬ ∃ a b, s = a ++ "nounicode".toList ++ b) ∧
          (c.unicode = "yes".toList ∨ c.unicode = "no".toList ∨ c.unicode = "bytes".toList)) := by
  rw [← contains_spec, ← contains_spec, ← contains_spec, ← contains_spec, ← contains_spec]
  unfold BpeConfig.fromSuffix
  cases h1 : contains s "nocase".toList <;> cases h2 : contains s "prefix".toList <;> cases h3 : contains s "nounicode".toList <;>
    cases h4 : contains s "bytes".toList <;> cases h5 : contains s "we".toList <;> simp only [if_true, if_false, Bool.false_eq_true] <;>
    refine ⟨?_, ?_⟩ <;> first
      | (intro h; exact absurd h (by decide))
      | (intro _; decide +kernel)
      | (intro h _; exact absurd (by decide) h)
      | (intro _ h; exact absurd (by decide) h)
      | (intro _ _
         unfold BpeConfig.make
         rw [if_neg (by decide), if_neg (by decide), if_neg (by decide)]
         exact ⟨_, rfl, by decide +kernel, by decide +kernel, by decide +kernel, by decide +kernel, by decide +kernel, by decide +kernel⟩)

/-- Non-vacuity of C43_suffix_read. -/
example : BpeConfig.fromSuffix "we_bytes".toList = .ok ⟨"yes".toList, true, "code".toList, "bytes".toList⟩ ∧
    BpeConfig.fromSuffix "xnocase".toList = .error .valueError := by
  constructor <;> decide +kernel

/-- **C43** The suffixes that settings other than the possible ones would have are refused. -/
theorem C43_suffix_refused (b : BpeConfig) (h : b.case = "no".toList ∨ b.case = "prefix".toList) :
    BpeConfig.fromSuffix b.toSuffix = .error .valueError := by
  have hc : ∀ (t : Str) (l : List Str), contains (pyJoin ['_'] (t :: l)) t = true := by
    intro t l
    rw [contains_spec]
    rcases l with _ | ⟨x, l⟩
    · exact ⟨[], [], by simp [pyJoin]⟩
    · exact ⟨[], ['_'] ++ pyJoin ['_'] (x :: l), by simp [pyJoin]⟩
  refine (C43_suffix_read b.toSuffix).1 ?_
  rw [← contains_spec, ← contains_spec]
  unfold BpeConfig.toSuffix
  rcases h with h | h
  · rw [if_pos h]
    exact .inl (hc _ _)
  · rw [if_neg (by rw [h]; decide), if_pos h]
    exact .inr (hc _ _)

end Verif.Props
