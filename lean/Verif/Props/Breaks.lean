import Verif.Proofs.Breaks
/-!
# Line breaks and indentation (C76)
-/
namespace Verif.Props
open Verif Spec

/-- **C76** No result shows more line breaks than the text has. -/
theorem C76_never_more (env : Env) (hu : env.ucd.Laws) (hk : KeepsLines env) (load : Str → Except PyErr BpeData) (call : ApiCall)
    (hl : ∀ i, apiBpeCodesId call = some i → i ≠ [] ∧ ∃ d, load i = .ok d ∧ CacheOk d ∧ LineCache d)
    (lexed : List (TokType × Str)) (eof : Bool)
    (hp : ∀ e ∈ lexed, PlainNumber e) :
    ∃ out md, textApi env load call lexed eof = .ok (out, md) ∧ shownBreaks call out ≤ lineBreaks (lexedText lexed) := by
  obtain ⟨m, ps, us, h1, h2, h3, h4⟩ := C56_any env hu load call
    (fun i hi => ⟨(hl i hi).1, (hl i hi).2.elim fun d hd => ⟨d, hd.1, hd.2.1⟩⟩) lexed eof
  refine ⟨_, _, h4, ?_⟩
  obtain ⟨b0, b1, -, -⟩ := describedAll_breaks hu hk.white hp h2
  have hf : ∀ p ∈ finishPieces eof ps, Fit p := by
    intro p hq
    unfold finishPieces at hq
    rcases List.mem_append.mp hq with hq | hq
    · split at hq
      · exact b0 p (List.dropLast_subset _ hq)
      · exact b0 p hq
    · split at hq
      · exact fit_one ⟨by simp, by simp⟩ p hq
      · cases hq
  refine Nat.le_trans (spelledAll_le hk.white (modeOf_line hk hl h1) hf h3 call) (Nat.le_trans ?_ b1)
  unfold finishPieces
  rw [List.flatMap_append, List.count_append]
  have e0 : ((if eof then [(⟨.specialToken, "<EOF>".toList, .fixed⟩ : Piece)] else []).flatMap (·.text)).count '\n' = 0 := by
    cases eof <;> decide
  rw [e0]
  split
  · exact dropLast_text_count ps
  · exact Nat.le_refl _

/-- The mark for the end of the text, on request. -/
def eofPieces (eof : Bool) : List Piece := if eof then [⟨.specialToken, "<EOF>".toList, .fixed⟩] else []

theorem eof_fit (eof : Bool) : ∀ p ∈ eofPieces eof, Fit p ∧ Clean p := by
  intro p hq
  unfold eofPieces at hq
  split at hq
  · exact ⟨fit_one ⟨by simp, by simp⟩ p hq, .inr (one_line (by decide) p hq)⟩
  · cases hq

theorem eof_count (eof : Bool) : ((eofPieces eof).flatMap (·.text)).count '\n' = 0 := by
  cases eof <;> decide

/-- A text that ends in a newline. -/
theorem reference_newline (env : Env) (hu : env.ucd.Laws) (load : Str → Except PyErr BpeData) (call : ApiCall)
    (hl : ∀ i, apiBpeCodesId call = some i → i ≠ [] ∧ ∃ d, load i = .ok d ∧ CacheOk d)
    (lexed : List (TokType × Str)) (ty : TokType) (eof : Bool) :
    ∃ m qs us, ModeOf env load call m ∧ DescribedAnyAll env.ucd (optsOf call).noUnicode (pieceOpts call) lexed qs ∧
      SpelledAnyAll env.ucd m (optsOf call).noSpaces (qs ++ eofPieces eof) us ∧
      textApi env load call (lexed ++ [(ty, "\n".toList)]) eof = .ok (outputOf call us) := by
  obtain ⟨m, ps, us, h1, h2, h3, h4⟩ := C56_any env hu load call hl (lexed ++ [(ty, "\n".toList)]) eof
  obtain ⟨qs, g1, rfl⟩ := describedAll_snoc hu h2
  rw [finish_snoc] at h3
  exact ⟨m, qs, us, h1, g1, h3, h4⟩

/-- **C76** Newlines are shown: if all pieces of the lexer that contain line breaks are single newlines, words, comments that are
not left out or string literals that are split, the result shows one token for every line break of the text, except for the
newline at its very end. -/
theorem C76_breaks_partial (env : Env) (hu : env.ucd.Laws) (hk : KeepsLines env) (load : Str → Except PyErr BpeData) (call : ApiCall)
    (hs : (optsOf call).noSpaces = false)
    (hl : ∀ i, apiBpeCodesId call = some i → i ≠ [] ∧ ∃ d, load i = .ok d ∧ CacheOk d ∧ LineCache d)
    (lexed : List (TokType × Str)) (ty : TokType) (eof : Bool)
    (hp : ∀ e ∈ lexed, PlainNumber e) (hb : ∀ e ∈ lexed, '\n' ∈ e.2 → ShowsBreaks env.ucd call e) :
    ∃ out md, textApi env load call (lexed ++ [(ty, "\n".toList)]) eof = .ok (out, md) ∧
      shownBreaks call out = lineBreaks (lexedText lexed) := by
  obtain ⟨m, qs, us, h1, h2, h3, h4⟩ := reference_newline env hu load call
    (fun i hi => ⟨(hl i hi).1, (hl i hi).2.elim fun d hd => ⟨d, hd.1, hd.2.1⟩⟩) lexed ty eof
  rw [hs] at h3
  obtain ⟨b0, -, b2, -⟩ := describedAll_breaks hu hk.white hp h2
  obtain ⟨c1, c2⟩ := b2 hb
  refine ⟨_, _, h4, ?_⟩
  refine (spelledAll_exact hk.white (modeOf_line hk hl h1) ?_ ?_ h3 call).trans ?_
  · intro p hq
    rcases List.mem_append.mp hq with hq | hq
    · exact b0 p hq
    · exact (eof_fit eof p hq).1
  · intro p hq
    rcases List.mem_append.mp hq with hq | hq
    · exact c1 p hq
    · exact (eof_fit eof p hq).2
  · rw [List.flatMap_append, List.count_append, c2, eof_count]
    rfl

/-- **C76** Line breaks are lost if there are any in white space of more than one character, or in comments or literals that are
left out. -/
theorem C76_hidden (env : Env) (hu : env.ucd.Laws) (hk : KeepsLines env) (load : Str → Except PyErr BpeData) (call : ApiCall)
    (hl : ∀ i, apiBpeCodesId call = some i → i ≠ [] ∧ ∃ d, load i = .ok d ∧ CacheOk d ∧ LineCache d)
    (lexed : List (TokType × Str)) (ty : TokType) (eof : Bool)
    (hp : ∀ e ∈ lexed, PlainNumber e) (hb : ∃ e ∈ lexed, '\n' ∈ e.2 ∧ HidesBreaks env.ucd call e) :
    ∃ out md, textApi env load call (lexed ++ [(ty, "\n".toList)]) eof = .ok (out, md) ∧
      shownBreaks call out < lineBreaks (lexedText lexed) := by
  obtain ⟨m, qs, us, h1, h2, h3, h4⟩ := reference_newline env hu load call
    (fun i hi => ⟨(hl i hi).1, (hl i hi).2.elim fun d hd => ⟨d, hd.1, hd.2.1⟩⟩) lexed ty eof
  obtain ⟨b0, -, -, b3⟩ := describedAll_breaks hu hk.white hp h2
  refine ⟨_, _, h4, ?_⟩
  refine Nat.lt_of_le_of_lt (spelledAll_le hk.white (modeOf_line hk hl h1) ?_ h3 call) ?_
  · intro p hq
    rcases List.mem_append.mp hq with hq | hq
    · exact b0 p hq
    · exact (eof_fit eof p hq).1
  · rw [List.flatMap_append, List.count_append, eof_count]
    exact b3 hb

/-! ## Parts of texts -/

theorem describedAnyAll_append {u : Ucd} {nu : Bool} {o : PieceOpts} {a b : List (TokType × Str)} {ps qs : List Piece}
    (h1 : DescribedAnyAll u nu o a ps) (h2 : DescribedAnyAll u nu o b qs) : DescribedAnyAll u nu o (a ++ b) (ps ++ qs) := by
  induction h1 with
  | nil => exact h2
  | cons h _ ih => rw [List.append_assoc]; exact .cons h ih

/-- **C76** The result for a text in two parts is the result for the first part followed by the one for the second (with the
lexer's pieces as they are). -/
theorem C76_parts (env : Env) (hu : env.ucd.Laws) (load : Str → Except PyErr BpeData) (call : ApiCall)
    (hl : ∀ i, apiBpeCodesId call = some i → i ≠ [] ∧ ∃ d, load i = .ok d ∧ CacheOk d)
    (a b : List (TokType × Str)) (ty : TokType) (eof : Bool) :
    ∃ x y m m' m'', textApi env load call (a ++ [(ty, "\n".toList)]) false = .ok (x, m) ∧
      textApi env load call (b ++ [(ty, "\n".toList)]) eof = .ok (y, m') ∧
      textApi env load call (a ++ b ++ [(ty, "\n".toList)]) eof = .ok (x ++ y, m'') := by
  obtain ⟨m, ps, us, h1, h2, h3, h4⟩ := reference_newline env hu load call hl a ty false
  obtain ⟨m', qs, vs, g1, g2, g3, g4⟩ := reference_newline env hu load call hl b ty eof
  obtain ⟨n, rs, ws, k1, k2, k3, k4⟩ := reference_newline env hu load call hl (a ++ b) ty eof
  obtain rfl := modeOf_unique h1 g1
  obtain rfl := modeOf_unique h1 k1
  obtain rfl := describedAnyAll_unique hu k2 (describedAnyAll_append h2 g2)
  have h3' : SpelledAnyAll env.ucd m (optsOf call).noSpaces ps us := by simpa [eofPieces] using h3
  rw [List.append_assoc] at k3
  obtain rfl := spelledAnyAll_unique hu k3 (spelledAnyAll_append h3' g3)
  refine ⟨_, _, _, _, (flatForm (us ++ vs)).2, h4, g4, ?_⟩
  rw [k4]
  unfold outputOf
  simp only [List.flatMap_append]

/-- A piece of white space as it stands in the result. -/
theorem spelled_spaces {u : Ucd} (m : Mode) (n : Nat) (ty : Ty) (s : Str) :
    SpelledAnyAll u m false (List.replicate n ⟨ty, s, .space⟩) (List.replicate n ⟨ty, [s], [s]⟩) := by
  induction n with
  | zero => exact .nil
  | succ n ih => exact .cons (.inl rfl) (.same (by simp) .space) ih

theorem shown_spaces (bpe : Bool) (k : Nat) (t : Ty) (s : Str) :
    ((List.replicate k (⟨t, [s], [s]⟩ : FullTok)).flatMap fun x => if bpe then markEnd x.subs else x.subs) =
      List.replicate k (if bpe then s ++ "</t>".toList else s) := by
  induction k with
  | zero => rfl
  | succ k ih =>
    rw [List.replicate_succ, List.flatMap_cons, ih, List.replicate_succ]
    cases bpe <;> rfl

/-- White space between two parts of a text. -/
theorem white_between (env : Env) (hu : env.ucd.Laws) (load : Str → Except PyErr BpeData) (call : ApiCall)
    (hs : (optsOf call).noSpaces = false)
    (hl : ∀ i, apiBpeCodesId call = some i → i ≠ [] ∧ ∃ d, load i = .ok d ∧ CacheOk d)
    (a b : List (TokType × Str)) (e : TokType × Str) (ty : TokType) (eof : Bool) {k : Nat} {t : Ty} {s : Str}
    (hw : ∀ c ∈ e.2, env.ucd.space c = true) (he : Described env.ucd (pieceOpts call) e (List.replicate k ⟨t, s, .space⟩)) :
    ∃ x y m m' m'', textApi env load call (a ++ [(ty, "\n".toList)]) false = .ok (x, m) ∧
      textApi env load call (b ++ [(ty, "\n".toList)]) eof = .ok (y, m') ∧
      textApi env load call (a ++ e :: b ++ [(ty, "\n".toList)]) eof =
        .ok (x ++ List.replicate k (if usesBpe call then s ++ "</t>".toList else s) ++ y, m'') := by
  obtain ⟨m, ps, us, h1, h2, h3, h4⟩ := reference_newline env hu load call hl a ty false
  obtain ⟨m', qs, vs, g1, g2, g3, g4⟩ := reference_newline env hu load call hl b ty eof
  obtain ⟨n, rs, ws, k1, k2, k3, k4⟩ := reference_newline env hu load call hl (a ++ e :: b) ty eof
  obtain rfl := modeOf_unique h1 g1
  obtain rfl := modeOf_unique h1 k1
  obtain rfl := describedAnyAll_unique hu k2 (describedAnyAll_append h2 (.cons (.same (.inl hw) he) g2))
  have h3' : SpelledAnyAll env.ucd m (optsOf call).noSpaces ps us := by simpa [eofPieces] using h3
  rw [List.append_assoc, List.append_assoc] at k3
  rw [hs] at h3' g3 k3
  obtain rfl := spelledAnyAll_unique hu k3 (spelledAnyAll_append h3' (spelledAnyAll_append (spelled_spaces m k t s) g3))
  refine ⟨_, _, _, _, (flatForm (us ++ (List.replicate k ⟨t, [s], [s]⟩ ++ vs))).2, h4, g4, ?_⟩
  rw [k4]
  unfold outputOf
  simp only [List.flatMap_append, Except.ok.injEq, Prod.mk.injEq, and_true, List.append_assoc]
  rw [shown_spaces]

theorem blank_space {u : Ucd} (hu : u.Laws) {v : Str} (h : ∀ c ∈ v, c = ' ' ∨ c = '\t' ∨ c = '\n') : ∀ c ∈ v, u.space c = true := by
  intro c hc
  rcases h c hc with rfl | rfl | rfl <;> rw [hu.space_ascii _ (by decide)] <;> decide

/-- **C76** Texts are preprocessed line by line: a newline between two parts of a text is shown as one token between the results
for the two parts. -/
theorem C76_lines (env : Env) (hu : env.ucd.Laws) (load : Str → Except PyErr BpeData) (call : ApiCall)
    (hs : (optsOf call).noSpaces = false)
    (hl : ∀ i, apiBpeCodesId call = some i → i ≠ [] ∧ ∃ d, load i = .ok d ∧ CacheOk d)
    (a b : List (TokType × Str)) (ty ty' : TokType) (eof : Bool) :
    ∃ x y m m' m'', textApi env load call (a ++ [(ty, "\n".toList)]) false = .ok (x, m) ∧
      textApi env load call (b ++ [(ty, "\n".toList)]) eof = .ok (y, m') ∧
      textApi env load call (a ++ (ty', "\n".toList) :: b ++ [(ty, "\n".toList)]) eof = .ok (x ++ [breakToken call] ++ y, m'') := by
  have hb : ∀ c ∈ "\n".toList, c = ' ' ∨ c = '\t' ∨ c = '\n' := by decide
  obtain ⟨x, y, m, m', m'', h1, h2, h3⟩ := white_between env hu load call hs hl a b (ty', "\n".toList) ty eof (k := 1)
    (blank_space hu hb) (.newline ty')
  refine ⟨x, y, m, m', m'', h1, h2, ?_⟩
  rw [h3]
  unfold breakToken
  cases usesBpe call <;> rfl

/-- **C76** Indentation: a single tab between two parts of a text is shown as one token. -/
theorem C76_tab (env : Env) (hu : env.ucd.Laws) (load : Str → Except PyErr BpeData) (call : ApiCall)
    (hs : (optsOf call).noSpaces = false)
    (hl : ∀ i, apiBpeCodesId call = some i → i ≠ [] ∧ ∃ d, load i = .ok d ∧ CacheOk d)
    (a b : List (TokType × Str)) (ty ty' : TokType) (eof : Bool) :
    ∃ x y m m' m'', textApi env load call (a ++ [(ty, "\n".toList)]) false = .ok (x, m) ∧
      textApi env load call (b ++ [(ty, "\n".toList)]) eof = .ok (y, m') ∧
      textApi env load call (a ++ (ty', "\t".toList) :: b ++ [(ty, "\n".toList)]) eof = .ok (x ++ [tabToken call] ++ y, m'') := by
  have hb : ∀ c ∈ "\t".toList, c = ' ' ∨ c = '\t' ∨ c = '\n' := by decide
  obtain ⟨x, y, m, m', m'', h1, h2, h3⟩ := white_between env hu load call hs hl a b (ty', "\t".toList) ty eof (k := 1)
    (blank_space hu hb) (.tab ty')
  refine ⟨x, y, m, m', m'', h1, h2, ?_⟩
  rw [h3]
  unfold tabToken
  cases usesBpe call <;> rfl

/-- **C76** White space of several characters (or a single space) is shown as one tab for every four characters, whatever
characters these are. -/
theorem C76_white (env : Env) (hu : env.ucd.Laws) (load : Str → Except PyErr BpeData) (call : ApiCall)
    (hs : (optsOf call).noSpaces = false)
    (hl : ∀ i, apiBpeCodesId call = some i → i ≠ [] ∧ ∃ d, load i = .ok d ∧ CacheOk d)
    (a b : List (TokType × Str)) (ty ty' : TokType) (v : Str) (eof : Bool)
    (hb : ∀ c ∈ v, c = ' ' ∨ c = '\t' ∨ c = '\n') (h1 : v ≠ "\n".toList) (h2 : v ≠ "\t".toList) :
    ∃ x y m m' m'', textApi env load call (a ++ [(ty, "\n".toList)]) false = .ok (x, m) ∧
      textApi env load call (b ++ [(ty, "\n".toList)]) eof = .ok (y, m') ∧
      textApi env load call (a ++ (ty', v) :: b ++ [(ty, "\n".toList)]) eof =
        .ok (x ++ List.replicate (v.length / 4) (tabToken call) ++ y, m'') := by
  obtain ⟨x, y, m, m', m'', g1, g2, g3⟩ := white_between env hu load call hs hl a b (ty', v) ty eof
    (blank_space hu hb) (.blank (blank_space hu hb) h1 h2)
  refine ⟨x, y, m, m', m'', g1, g2, ?_⟩
  rw [g3]
  unfold tabToken
  cases usesBpe call <;> rfl

/-- **C76** Empty lines are lost if the lexer delivers them together: of two, of three newlines nothing is shown. -/
theorem C76_empty_lines_violated (env : Env) (hu : env.ucd.Laws) (load : Str → Except PyErr BpeData) (call : ApiCall)
    (hs : (optsOf call).noSpaces = false)
    (hl : ∀ i, apiBpeCodesId call = some i → i ≠ [] ∧ ∃ d, load i = .ok d ∧ CacheOk d)
    (a b : List (TokType × Str)) (ty ty' : TokType) (n : Nat) (h0 : 2 ≤ n) (h3 : n ≤ 3) (eof : Bool) :
    ∃ x y m m' m'', textApi env load call (a ++ [(ty, "\n".toList)]) false = .ok (x, m) ∧
      textApi env load call (b ++ [(ty, "\n".toList)]) eof = .ok (y, m') ∧
      textApi env load call (a ++ (ty', List.replicate n '\n') :: b ++ [(ty, "\n".toList)]) eof = .ok (x ++ y, m'') := by
  obtain ⟨x, y, m, m', m'', g1, g2, g3⟩ := C76_white env hu load call hs hl a b ty ty' (List.replicate n '\n') eof
    (by intro c hc; exact .inr (.inr (List.eq_of_mem_replicate hc)))
    (by intro e; have := congrArg List.length e; simp at this; omega)
    (by intro e; have := congrArg List.length e; simp at this; omega)
  refine ⟨x, y, m, m', m'', g1, g2, ?_⟩
  rw [g3, List.length_replicate, show n / 4 = 0 by omega]
  simp

/-- **C76** Deeper indentation may be shown as less: one tab is shown as a tab, two or three tabs are not shown at all, four tabs
are shown as one. -/
theorem C76_tabs_violated (env : Env) (hu : env.ucd.Laws) (load : Str → Except PyErr BpeData) (call : ApiCall)
    (hs : (optsOf call).noSpaces = false)
    (hl : ∀ i, apiBpeCodesId call = some i → i ≠ [] ∧ ∃ d, load i = .ok d ∧ CacheOk d)
    (b : List (TokType × Str)) (ty ty' : TokType) (n : Nat) (h0 : 2 ≤ n) (eof : Bool) :
    ∃ y m m' m'', textApi env load call (b ++ [(ty, "\n".toList)]) eof = .ok (y, m) ∧
      textApi env load call ((ty', "\t".toList) :: b ++ [(ty, "\n".toList)]) eof = .ok (tabToken call :: y, m') ∧
      textApi env load call ((ty', List.replicate n '\t') :: b ++ [(ty, "\n".toList)]) eof =
        .ok (List.replicate (n / 4) (tabToken call) ++ y, m'') := by
  obtain ⟨x, y, m, m', m'', g1, g2, g3⟩ := C76_tab env hu load call hs hl [] b ty ty' eof
  obtain ⟨x', y', k, k', k'', p1, p2, p3⟩ := C76_white env hu load call hs hl [] b ty ty' (List.replicate n '\t') eof
    (by intro c hc; exact .inr (.inl (List.eq_of_mem_replicate hc)))
    (by intro e; have := congrArg List.length e; simp at this; omega)
    (by intro e; have := congrArg List.length e; simp at this; omega)
  obtain ⟨m0, qs, us, r1, r2, r3, r4⟩ := reference_newline env hu load call hl [] ty false
  cases r2
  cases r3
  rw [r4] at g1 p1
  have hx : x = [] := (congrArg Prod.fst (Except.ok.inj g1)).symm
  have hx' : x' = [] := (congrArg Prod.fst (Except.ok.inj p1)).symm
  rw [p2] at g2
  have hy : y' = y := congrArg Prod.fst (Except.ok.inj g2)
  subst hx hx' hy
  refine ⟨y', k', m'', k'', p2, g3, ?_⟩
  rw [List.nil_append] at p3
  rw [p3, List.length_replicate]
  rfl

/-! ## Examples -/

theorem asciiMap_white {f : Char → Char} (hf : ∀ c, 128 ≤ c.toNat → f c = c)
    (tab : ∀ n < 128, ∀ d ∈ ['\n', ' '], f (Char.ofNat n) = d → Char.ofNat n = d) {d : Char} (hd : d ∈ ['\n', ' ']) {s : Str}
    (h : d ∉ s) : d ∉ s.map f := by
  intro hm
  obtain ⟨c, hc, he⟩ := List.mem_map.mp hm
  refine h ?_
  have : c = d := by
    by_cases hn : c.toNat < 128
    · have := tab c.toNat hn d hd
      rw [Char.ofNat_toNat] at this
      exact this he
    · exact (hf c (by omega)).symm.trans he
  exact this ▸ hc

theorem asciiUpper_white {d : Char} (hd : d ∈ ['\n', ' ']) {s : Str} (h : d ∉ s) : d ∉ s.map asciiToUpper := by
  refine asciiMap_white ?_ (by decide +kernel) hd h
  intro c hc
  unfold asciiToUpper
  split
  · next hu =>
    simp only [asciiLower, Bool.and_eq_true, decide_eq_true_eq] at hu
    omega
  · rfl

theorem asciiLower_white {d : Char} (hd : d ∈ ['\n', ' ']) {s : Str} (h : d ∉ s) : d ∉ s.map asciiToLower := by
  refine asciiMap_white ?_ (by decide +kernel) hd h
  intro c hc
  unfold asciiToLower
  split
  · next hu =>
    simp only [asciiUpper, Bool.and_eq_true, decide_eq_true_eq] at hu
    omega
  · rfl

theorem demoEnv_keepsLines : KeepsLines demoEnv where
  white :=
    { lower := fun d hd s h => asciiLower_white hd h
      upper := fun d hd s h => asciiUpper_white hd h
      capitalize := by
        intro d hd s h
        cases s with
        | nil => exact h
        | cons c r =>
          have h1 := asciiUpper_white hd (s := [c]) (by simp at h ⊢; exact h.1)
          have h2 := asciiLower_white hd (s := r) (by simp at h ⊢; exact h.2)
          intro hm
          rcases List.mem_cons.mp hm with hm | hm
          · exact h1 (List.mem_map.mpr ⟨c, by simp, hm.symm⟩)
          · exact h2 hm }
  ronin := by
    intro s h p hp
    have : p = s := by simpa [demoEnv] using hp
    exact this ▸ h
  porter := fun s h => h

/-- A line, a comment over two lines, an empty line and another line. -/
def brokenTokens : List (TokType × Str) :=
  [(["Name"], "a".toList), (["Text"], "\n".toList), (["Comment", "Multiline"], "/*b\nc*/".toList), (["Text"], "\n".toList),
   (["Text"], "\n".toList), (["Literal", "Number", "Integer"], "12".toList)]

example : (∀ e ∈ brokenTokens, PlainNumber e) ∧
    (∀ e ∈ brokenTokens, '\n' ∈ e.2 → ShowsBreaks demoEnv.ucd (.nosplit {} false) e) ∧
    lineBreaks (lexedText brokenTokens) = 4 ∧
    (textApi demoEnv (fun _ => .error .keyError) (.nosplit {} false) (brokenTokens ++ [(["Text"], "\n".toList)]) false).map Prod.fst =
      .ok ["a".toList, "\n".toList, "/".toList, "*".toList, "b".toList, "\n".toList, "c".toList, "*".toList, "/".toList, "\n".toList,
        "\n".toList, "12".toList] := by
  refine ⟨by unfold PlainNumber; decide, by unfold ShowsBreaks; decide +kernel, by decide, by decide +kernel⟩

/-- The same text without comments, and with the two newlines at once. -/
example : (∃ e ∈ brokenTokens, '\n' ∈ e.2 ∧ HidesBreaks demoEnv.ucd (.nosplit { noCom := true } false) e) ∧
    (textApi demoEnv (fun _ => .error .keyError) (.nosplit { noCom := true } false) (brokenTokens ++ [(["Text"], "\n".toList)])
      false).map Prod.fst =
      .ok ["a".toList, "\n".toList, "<comment>".toList, "\n".toList, "\n".toList, "12".toList] ∧
    (textApi demoEnv (fun _ => .error .keyError) (.nosplit {} false) [(["Name"], "a".toList), (["Text"], "\n\n".toList),
      (["Name"], "b".toList), (["Text"], "\n".toList)] false).map Prod.fst = .ok ["a".toList, "b".toList] := by
  refine ⟨⟨(["Comment", "Multiline"], "/*b\nc*/".toList), by decide, by decide, ?_⟩, by decide +kernel, by decide +kernel⟩
  unfold HidesBreaks
  decide +kernel

/-- Words with other letters, hidden or not. -/
example : (textApi demoEnv (fun _ => .error .keyError) (.nosplit {} false) [(["Name"], "Größe".toList), (["Text"], "\n".toList),
      (["Comment", "Single"], "// ä\n".toList), (["Text"], "\n".toList)] false).map Prod.fst =
      .ok ["Größe".toList, "\n".toList, "/".toList, "/".toList, "ä".toList, "\n".toList, "<EOL>".toList] ∧
    (textApi demoEnv (fun _ => .error .keyError) (.nosplit { noUnicode := true } false) [(["Name"], "Größe".toList),
      (["Text"], "\n".toList), (["Comment", "Single"], "// ä\n".toList), (["Text"], "\n".toList)] false).map Prod.fst =
      .ok ["<non-en>".toList, "\n".toList, "/".toList, "/".toList, "<non-en>".toList, "\n".toList, "<EOL>".toList] := by
  decide +kernel

/-- Indentation: a tab and eight spaces are shown as tabs, two tabs at once are not shown. -/
example : (textApi demoEnv (fun _ => .error .keyError) (.nosplit {} false) [(["Text"], "\t".toList), (["Name"], "b".toList),
      (["Text"], "\n".toList)] false).map Prod.fst = .ok ["\t".toList, "b".toList] ∧
    (textApi demoEnv (fun _ => .error .keyError) (.nosplit {} false) [(["Text"], "        ".toList), (["Name"], "b".toList),
      (["Text"], "\n".toList)] false).map Prod.fst = .ok ["\t".toList, "\t".toList, "b".toList] ∧
    (textApi demoEnv (fun _ => .error .keyError) (.nosplit {} false) [(["Text"], "\t\t".toList), (["Name"], "b".toList),
      (["Text"], "\n".toList)] false).map Prod.fst = .ok ["b".toList] := by
  decide +kernel

end Verif.Props
