import Verif.Props.AnyText
import Verif.Proofs.Solid
import Verif.Spec.Breaks
/-!
# Line breaks of pieces and of their spelling
-/
namespace Verif.Props
open Verif Spec

theorem newline_table : ∀ n < 128, asciiToLower (Char.ofNat n) = '\n' → Char.ofNat n = '\n' := by decide +kernel

theorem newline_lower {c : Char} (h : asciiToLower c = '\n') : c = '\n' := by
  by_cases hc : c.toNat < 128
  · have := newline_table c.toNat hc
    rw [Char.ofNat_toNat] at this
    exact this h
  · unfold asciiToLower at h
    split at h
    · next hu =>
      simp only [asciiUpper, Bool.and_eq_true, decide_eq_true_eq] at hu
      omega
    · exact h

theorem newline_map_lower {s : Str} (h : '\n' ∉ s) : '\n' ∉ s.map asciiToLower := by
  intro hm
  obtain ⟨c, hc, he⟩ := List.mem_map.mp hm
  exact h (newline_lower he ▸ hc)

/-- A piece that shows a line break or has none. -/
def Clean (p : Piece) : Prop := (p.form = .space ∧ p.text = "\n".toList) ∨ '\n' ∉ p.text

theorem not_word_newline {u : Ucd} (hu : u.Laws) {w : Str} (h : ∀ c ∈ w, u.reWord c = true) : '\n' ∉ w := by
  intro hm
  have := h _ hm
  rw [hu.reWord_ascii _ (by decide)] at this
  exact absurd this (by decide)

theorem textSplit_breaks {u : Ucd} (hu : u.Laws) {v : Str} {ps : List Str} (h : TextSplit u v ps) :
    (∀ p ∈ ps, p = "\n".toList ∨ '\n' ∉ p) ∧ ps.flatten.count '\n' = v.count '\n' := by
  induction h with
  | nil => exact ⟨by simp, rfl⟩
  | word h1 h2 _ _ ih =>
    refine ⟨?_, by simp [List.count_append, ih.2]⟩
    intro p hp
    rcases List.mem_cons.mp hp with rfl | hp
    · exact .inr (not_word_newline hu h2)
    · exact ih.1 p hp
  | @char c r ps h1 h2 _ ih =>
    refine ⟨?_, by simp [List.count_cons, ih.2]⟩
    intro p hp
    rcases List.mem_cons.mp hp with rfl | hp
    · by_cases hc : c = '\n'
      · exact .inl (by rw [hc]; rfl)
      · exact .inr (by simpa using fun e => hc e.symm)
    · exact ih.1 p hp
  | fourSpaces _ ih =>
    refine ⟨?_, by simp [ih.2]⟩
    intro p hp
    rcases List.mem_cons.mp hp with rfl | hp
    · exact .inr (by decide)
    · exact ih.1 p hp
  | space _ _ ih => exact ⟨ih.1, by simp [ih.2]⟩

theorem literalSplit_breaks {u : Ucd} (hu : u.Laws) {v : Str} {ps : List Str} (h : LiteralSplit u v ps) :
    (∀ p ∈ ps, p = "\n".toList ∨ '\n' ∉ p) ∧ (ps.filter fun p => !p.contains ' ').flatten.count '\n' = v.count '\n' := by
  induction h with
  | nil => exact ⟨by simp, rfl⟩
  | @word w r ps h1 h2 _ _ ih =>
    have hs : w.contains ' ' = false := by
      simp only [List.contains_eq_mem, decide_eq_false_iff_not]
      intro hm
      have := h2 _ hm
      rw [hu.reWord_ascii _ (by decide)] at this
      exact absurd this (by decide)
    refine ⟨?_, ?_⟩
    · intro p hp
      rcases List.mem_cons.mp hp with rfl | hp
      · exact .inr (not_word_newline hu h2)
      · exact ih.1 p hp
    · rw [List.filter_cons, hs]
      simp only [Bool.not_false, if_true, List.flatten_cons, List.count_append, ih.2]
  | @char c r ps h1 h2 _ ih =>
    have hs : [c].contains ' ' = false := by
      simp only [List.contains_eq_mem, decide_eq_false_iff_not]
      simpa using fun e => h1 e.symm
    refine ⟨?_, ?_⟩
    · intro p hp
      rcases List.mem_cons.mp hp with rfl | hp
      · by_cases hc : c = '\n'
        · exact .inl (by rw [hc]; rfl)
        · exact .inr (by simpa using fun e => hc e.symm)
      · exact ih.1 p hp
    · rw [List.filter_cons, hs]
      simp only [Bool.not_false, if_true, List.flatten_cons, List.count_append, ih.2]
      rw [← List.singleton_append (l := r), List.count_append]
  | @spaces n r ps _ _ ih =>
    have hs : (List.replicate (n + 1) ' ').contains ' ' = true := by
      simp
    refine ⟨?_, ?_⟩
    · intro p hp
      rcases List.mem_cons.mp hp with rfl | hp
      · exact .inr (by simp)
      · exact ih.1 p hp
    · rw [List.filter_cons, hs, List.count_append, List.count_replicate, ← ih.2]
      simp

theorem codePiece_newline (u : Ucd) : codePiece u "\n".toList = ⟨.newLine, "\n".toList, .space⟩ := by
  unfold codePiece
  rw [if_pos rfl]

theorem codePiece_line (u : Ucd) {p : Str} (h : '\n' ∉ p) : '\n' ∉ (codePiece u p).text := by
  unfold codePiece
  split
  · exact h
  · split
    · show '\n' ∉ "\t".toList
      decide
    · split
      · exact newline_map_lower h
      · split <;> exact h

theorem codePieces_breaks (u : Ucd) {ps : List Str} (h : ∀ p ∈ ps, p = "\n".toList ∨ '\n' ∉ p) :
    (∀ q ∈ ps.map (codePiece u), Clean q) ∧ ((ps.map (codePiece u)).flatMap (·.text)).count '\n' = ps.flatten.count '\n' := by
  induction ps with
  | nil => exact ⟨by simp, rfl⟩
  | cons p r ih =>
    obtain ⟨i1, i2⟩ := ih fun q hq => h q (by simp [hq])
    simp only [List.map_cons, List.flatMap_cons, List.flatten_cons, List.count_append, i2]
    rcases h p (by simp) with rfl | hp
    · rw [codePiece_newline]
      refine ⟨?_, rfl⟩
      intro q hq
      rcases List.mem_cons.mp hq with rfl | hq
      · exact .inl ⟨rfl, rfl⟩
      · exact i1 q hq
    · refine ⟨?_, ?_⟩
      · intro q hq
        rcases List.mem_cons.mp hq with rfl | hq
        · exact .inr (codePiece_line u hp)
        · exact i1 q hq
      · rw [List.count_eq_zero.mpr (codePiece_line u hp), List.count_eq_zero.mpr hp]

theorem within_breaks (ty : Ty) {qs : List Piece} (h : ∀ q ∈ qs, Clean q) :
    (∀ q ∈ qs.map (Piece.within ty), Clean q) ∧
      ((qs.map (Piece.within ty)).flatMap (·.text)).count '\n' = (qs.flatMap (·.text)).count '\n' := by
  refine ⟨?_, ?_⟩
  · intro q hq
    obtain ⟨p, hp, rfl⟩ := List.mem_map.mp hq
    exact h p hp
  · rw [List.flatMap_map]
    rfl

theorem shows_iff {u : Ucd} (hu : u.Laws) {call : ApiCall} {e : TokType × Str} (hb : ∃ c ∈ e.2, u.space c = false) :
    ShowsBreaks u call e ↔ (kindOf e.1 = .words ∨ (kindOf e.1 = .lineComment ∨ kindOf e.1 = .blockComment) ∧ (optsOf call).noCom = false ∨
      kindOf e.1 = .string ∧ (optsOf call).noStr = false ∧ e.2.length ≤ limitOf (optsOf call).maxStrLength ∧
        (pieceOpts call).literals = .split) :=
  ⟨fun h => h.elim (fun h => absurd hb (space_white hu (.inl h))) (·.2), fun h => .inr ⟨hb, h⟩⟩

theorem hides_iff {u : Ucd} {call : ApiCall} {e : TokType × Str} (hb : ∃ c ∈ e.2, u.space c = false) :
    HidesBreaks u call e ↔ ((kindOf e.1 = .lineComment ∨ kindOf e.1 = .blockComment) ∧ (optsOf call).noCom = true ∨
      kindOf e.1 = .string ∧ ((optsOf call).noStr = true ∨ limitOf (optsOf call).maxStrLength < e.2.length)) := by
  refine ⟨fun h => h.elim (fun h => ?_) (·.2), fun h => .inr ⟨hb, h⟩⟩
  obtain ⟨c, hc, hf⟩ := hb
  rw [h.1 c hc] at hf
  cases hf

/-- What a description says about line breaks. -/
def Breaks (u : Ucd) (call : ApiCall) (e : TokType × Str) (ps : List Piece) : Prop :=
  (ps.flatMap (·.text)).count '\n' ≤ e.2.count '\n' ∧
  (ShowsBreaks u call e ∨ '\n' ∉ e.2 → (∀ p ∈ ps, Clean p) ∧ (ps.flatMap (·.text)).count '\n' = e.2.count '\n') ∧
  (HidesBreaks u call e → ∀ p ∈ ps, '\n' ∉ p.text)

theorem breaks_shown {u : Ucd} {call : ApiCall} {e : TokType × Str} {ps : List Piece} (h1 : ∀ p ∈ ps, Clean p)
    (h2 : (ps.flatMap (·.text)).count '\n' = e.2.count '\n') (h3 : ¬ HidesBreaks u call e) : Breaks u call e ps :=
  ⟨Nat.le_of_eq h2, fun _ => ⟨h1, h2⟩, fun h => absurd h h3⟩

theorem breaks_hidden {u : Ucd} {call : ApiCall} {e : TokType × Str} {ps : List Piece} (h1 : ∀ p ∈ ps, '\n' ∉ p.text)
    (h2 : ¬ ShowsBreaks u call e) : Breaks u call e ps := by
  have h0 : (ps.flatMap (·.text)).count '\n' = 0 := by
    rw [List.count_eq_zero]
    intro hm
    obtain ⟨p, hp, hq⟩ := List.mem_flatMap.mp hm
    exact h1 p hp hq
  refine ⟨by rw [h0]; exact Nat.zero_le _, ?_, fun _ => h1⟩
  rintro (hs | hs)
  · exact absurd hs h2
  · exact ⟨fun p hp => .inr (h1 p hp), by rw [h0, List.count_eq_zero.mpr hs]⟩

theorem breaks_verbatim {u : Ucd} {call : ApiCall} {e : TokType × Str} {p : Piece} (h1 : p.text.count '\n' = e.2.count '\n')
    (h2 : ¬ ShowsBreaks u call e) (h3 : ¬ HidesBreaks u call e) : Breaks u call e [p] := by
  have h0 : ([p].flatMap (·.text)).count '\n' = e.2.count '\n' := by simpa using h1
  refine ⟨Nat.le_of_eq h0, ?_, fun h => absurd h h3⟩
  rintro (hs | hs)
  · exact absurd hs h2
  · refine ⟨?_, h0⟩
    intro q hq
    simp only [List.mem_cons, List.not_mem_nil, or_false] at hq
    subst hq
    exact .inr (List.count_eq_zero.mp (h1.trans (List.count_eq_zero.mpr hs)))

theorem one_line {ty : Ty} {s : Str} {f : Form} (h : '\n' ∉ s) : ∀ p ∈ [(⟨ty, s, f⟩ : Piece)], '\n' ∉ p.text := by
  intro p hp
  simp only [List.mem_cons, List.not_mem_nil, or_false] at hp
  subst hp
  exact h

theorem nbsp_count (s : Str) : (nbsp s).count '\n' = s.count '\n' := by
  induction s with
  | nil => rfl
  | cons c r ih =>
    show ((if c = ' ' then '\u00a0' else c) :: nbsp r).count '\n' = _
    rw [List.count_cons, List.count_cons, ih]
    split
    · next h => rw [h]; rfl
    · rfl

theorem lower_count (s : Str) : (s.map asciiToLower).count '\n' = s.count '\n' := by
  induction s with
  | nil => rfl
  | cons c r ih =>
    rw [List.map_cons, List.count_cons, List.count_cons, ih]
    by_cases h : c = '\n'
    · rw [h]; rfl
    · have : asciiToLower c ≠ '\n' := fun e => h (newline_lower e)
      simp [h, this]

theorem literal_count {u : Ucd} {v : Str} {ps : List Str} (h : LiteralSplit u v ps) :
    ((ps.map shownLiteral).flatten).count '\n' = v.count '\n' := by
  rw [← literalSplit_flatten h]
  clear h
  induction ps with
  | nil => rfl
  | cons p r ih =>
    simp only [List.map_cons, List.flatten_cons, List.count_append, ih]
    congr 1
    unfold shownLiteral lowerNumber
    rw [nbsp_count]
    split
    · exact lower_count p
    · rfl

theorem described_breaks {u : Ucd} (hu : u.Laws) (hk : KeepsWhite u) {call : ApiCall} {e : TokType × Str} {ps : List Piece} (hp : PlainNumber e)
    (h : Described u (pieceOpts call) e ps) : Breaks u call e ps := by
  have nc : (pieceOpts call).noCom = (optsOf call).noCom := rfl
  have ns : (pieceOpts call).noStr = (optsOf call).noStr := rfl
  have lm : (pieceOpts call).limit = limitOf (optsOf call).maxStrLength := rfl
  cases h with
  | newline ty =>
    refine breaks_shown ?_ rfl ?_
    · intro p hp
      simp only [List.mem_cons, List.not_mem_nil, or_false] at hp
      subst hp
      exact .inl ⟨rfl, rfl⟩
    · rintro (h | h)
      · exact h.2 rfl
      · exact space_white hu (.inl rfl) h.1
  | tab ty =>
    refine breaks_hidden (one_line (by decide)) ?_
    rintro (h | h)
    · exact absurd (show "\t".toList = "\n".toList from h) (by decide)
    · exact space_white hu (.inr rfl) h.1
  | blank h1 h2 h3 =>
    refine breaks_hidden ?_ ?_
    · intro p hp
      rw [List.eq_of_mem_replicate hp]
      show '\n' ∉ "\t".toList
      decide
    · rintro (h | h)
      · exact h2 h
      · obtain ⟨c, hc, hf⟩ := h.1
        rw [h1 c hc] at hf
        cases hf
  | operator h1 h2 => exact breaks_verbatim rfl (by rw [shows_iff hu h1]; simp [h2]) (by rw [hides_iff h1]; simp [h2])
  | @number ty v h1 h2 =>
    refine breaks_hidden ?_ (by rw [shows_iff hu h1]; simp [h2])
    unfold numberPiece
    split
    · next h => exact one_line (by rw [h]; decide)
    · split
      · next h => exact one_line (by rw [h]; decide)
      · refine one_line ?_
        exact hk.lower '\n' (by simp) v fun hm => (hp h2 _ hm).2 rfl
  | keyword h1 h2 => exact breaks_verbatim rfl (by rw [shows_iff hu h1]; simp [h2]) (by rw [hides_iff h1]; simp [h2])
  | words h1 h2 h3 =>
    obtain ⟨t1, t2⟩ := textSplit_breaks hu h3
    obtain ⟨c1, c2⟩ := codePieces_breaks u t1
    exact breaks_shown c1 (c2.trans t2) (by rw [hides_iff h1]; simp [h2])
  | lineComment h1 h2 h3 h4 =>
    obtain ⟨t1, t2⟩ := textSplit_breaks hu h4
    obtain ⟨c1, c2⟩ := codePieces_breaks u t1
    obtain ⟨w1, w2⟩ := within_breaks .oneLineComment c1
    refine breaks_shown ?_ ?_ (by rw [hides_iff h1, ← nc, h3]; simp [h2])
    · intro p hp
      rcases List.mem_append.mp hp with hp | hp
      · exact w1 p hp
      · exact .inr (one_line (by decide) p hp)
    · rw [List.flatMap_append, List.count_append, w2, c2, t2]
      rfl
  | blockComment h1 h2 h3 h4 =>
    obtain ⟨t1, t2⟩ := textSplit_breaks hu h4
    obtain ⟨c1, c2⟩ := codePieces_breaks u t1
    obtain ⟨w1, w2⟩ := within_breaks .multilineComment c1
    exact breaks_shown w1 (w2.trans (c2.trans t2)) (by rw [hides_iff h1, ← nc, h3]; simp [h2])
  | hiddenLine h1 h2 h3 => exact breaks_hidden (one_line (by decide)) (by rw [shows_iff hu h1, ← nc, h3]; simp [h2])
  | hiddenBlock h1 h2 h3 => exact breaks_hidden (one_line (by decide)) (by rw [shows_iff hu h1, ← nc, h3]; simp [h2])
  | hiddenString h1 h2 h3 => exact breaks_hidden (one_line (by decide)) (by rw [shows_iff hu h1, ← ns, h3]; simp [h2])
  | @long ty v h1 h2 h3 h4 =>
    refine breaks_hidden (one_line (by decide)) ?_
    rw [shows_iff hu h1, ← lm]
    rintro (h | h | h)
    · rw [h2] at h; cases h
    · rw [h2] at h; rcases h.1 with h | h <;> cases h
    · exact absurd h.2.2.1 (Nat.not_le.mpr h4)
  | splitLiteral h1 h2 h3 h4 h5 h6 =>
    obtain ⟨t1, t2⟩ := literalSplit_breaks hu h6
    obtain ⟨c1, c2⟩ := codePieces_breaks u (fun p hp => t1 p (List.mem_filter.mp hp).1)
    obtain ⟨w1, w2⟩ := within_breaks .stringLiteral c1
    refine breaks_shown w1 (w2.trans (c2.trans t2)) ?_
    rw [hides_iff h1, ← ns, h3, ← lm]
    rintro (h | h)
    · rw [h2] at h; rcases h.1 with h | h <;> cases h
    · rcases h.2 with h | h
      · cases h
      · exact absurd h4 (Nat.not_le.mpr h)
  | wholeLiteral h1 h2 h3 h4 h5 h6 =>
    refine breaks_verbatim (literal_count h6) ?_ ?_
    · rw [shows_iff hu h1]
      rintro (h | h | h)
      · rw [h2] at h; cases h
      · rw [h2] at h; rcases h.1 with h | h <;> cases h
      · exact h5 h.2.2.2
    · rw [hides_iff h1, ← ns, h3, ← lm]
      rintro (h | h)
      · rw [h2] at h; rcases h.1 with h | h <;> cases h
      · rcases h.2 with h | h
        · cases h
        · exact absurd h4 (Nat.not_le.mpr h)

/-- Words, numbers and literals contain no spaces, words and numbers no line breaks either. -/
def Fit (p : Piece) : Prop := ((p.form = .word ∨ p.form = .number) → '\n' ∉ p.text ∧ ' ' ∉ p.text) ∧ (p.form = .literal → ' ' ∉ p.text)

theorem space_map_lower {s : Str} (h : ' ' ∉ s) : ' ' ∉ s.map asciiToLower := by
  have tab : ∀ n < 128, asciiToLower (Char.ofNat n) = ' ' → Char.ofNat n = ' ' := by decide +kernel
  intro hm
  obtain ⟨c, hc, he⟩ := List.mem_map.mp hm
  refine h ?_
  have : c = ' ' := by
    by_cases hn : c.toNat < 128
    · have := tab c.toNat hn
      rw [Char.ofNat_toNat] at this
      exact this he
    · unfold asciiToLower at he
      split at he
      · next hu =>
        simp only [asciiUpper, Bool.and_eq_true, decide_eq_true_eq] at hu
        omega
      · exact he
  exact this ▸ hc

theorem codePiece_fit {u : Ucd} {p : Str} (hp : p = "\n".toList ∨ '\n' ∉ p) (hs : ' ' ∉ p ∨ p = "    ".toList) :
    Fit (codePiece u p) := by
  unfold codePiece
  split
  · exact ⟨by simp, by simp⟩
  · next h1 =>
    split
    · exact ⟨by simp, by simp⟩
    · next h2 =>
      have hn : '\n' ∉ p := hp.resolve_left h1
      have hs' : ' ' ∉ p := hs.resolve_right fun e => h2 (.inr e)
      split
      · exact ⟨fun _ => ⟨newline_map_lower hn, space_map_lower hs'⟩, by simp⟩
      · split
        · exact ⟨fun _ => ⟨hn, hs'⟩, by simp⟩
        · exact ⟨by simp, by simp⟩

theorem textSplit_spaces {u : Ucd} (hu : u.Laws) {v : Str} {ps : List Str} (h : TextSplit u v ps) :
    ∀ p ∈ ps, ' ' ∉ p ∨ p = "    ".toList := by
  induction h with
  | nil => simp
  | word h1 h2 _ _ ih =>
    intro p hp
    rcases List.mem_cons.mp hp with rfl | hp
    · refine .inl fun hm => ?_
      have := h2 _ hm
      rw [hu.reWord_ascii _ (by decide)] at this
      exact absurd this (by decide)
    · exact ih p hp
  | @char c r ps h1 h2 _ ih =>
    intro p hp
    rcases List.mem_cons.mp hp with rfl | hp
    · exact .inl (by simpa using fun e => h1 e.symm)
    · exact ih p hp
  | fourSpaces _ ih =>
    intro p hp
    rcases List.mem_cons.mp hp with rfl | hp
    · exact .inr rfl
    · exact ih p hp
  | space _ _ ih => exact ih

theorem nbsp_space (s : Str) : ' ' ∉ nbsp s := by
  intro hm
  obtain ⟨c, _, he⟩ := List.mem_map.mp hm
  split at he
  · exact absurd he (by decide)
  · next h => exact h he

theorem fit_one {ty : Ty} {s : Str} {f : Form} (h : Fit ⟨ty, s, f⟩) : ∀ p ∈ [(⟨ty, s, f⟩ : Piece)], Fit p := by
  intro p hp
  simp only [List.mem_cons, List.not_mem_nil, or_false] at hp
  subst hp
  exact h

theorem described_fit {u : Ucd} (hu : u.Laws) (hk : KeepsWhite u) {o : PieceOpts} {e : TokType × Str} {ps : List Piece} (hp : PlainNumber e)
    (h : Described u o e ps) : ∀ p ∈ ps, Fit p := by
  have words : ∀ {v : Str} {ps : List Str}, TextSplit u v ps → ∀ p ∈ ps.map (codePiece u), Fit p := by
    intro v ps h p hp
    obtain ⟨q, hq, rfl⟩ := List.mem_map.mp hp
    exact codePiece_fit ((textSplit_breaks hu h).1 q hq) (textSplit_spaces hu h q hq)
  have within : ∀ (ty : Ty) {qs : List Piece}, (∀ p ∈ qs, Fit p) → ∀ p ∈ qs.map (Piece.within ty), Fit p := by
    intro ty qs h p hp
    obtain ⟨q, hq, rfl⟩ := List.mem_map.mp hp
    exact h q hq
  cases h with
  | newline ty => exact fit_one ⟨by simp, by simp⟩
  | tab ty => exact fit_one ⟨by simp, by simp⟩
  | blank h1 h2 h3 => intro p hp; rw [List.eq_of_mem_replicate hp]; exact ⟨by simp, by simp⟩
  | operator h1 h2 => exact fit_one ⟨by simp, by simp⟩
  | @number ty v h1 h2 =>
    unfold numberPiece
    split
    · exact fit_one ⟨by simp, by simp⟩
    · split
      · exact fit_one ⟨by simp, by simp⟩
      · refine fit_one ⟨fun _ => ?_, by simp⟩
        show '\n' ∉ u.toLower v ∧ ' ' ∉ u.toLower v
        exact ⟨hk.lower _ (by simp) v fun hm => (hp h2 _ hm).2 rfl, hk.lower _ (by simp) v fun hm => (hp h2 _ hm).1 rfl⟩
  | keyword h1 h2 => exact fit_one ⟨by simp, by simp⟩
  | words h1 h2 h3 => exact words h3
  | lineComment h1 h2 h3 h4 =>
    intro p hp
    rcases List.mem_append.mp hp with hp | hp
    · exact within _ (words h4) p hp
    · exact fit_one ⟨by simp, by simp⟩ p hp
  | blockComment h1 h2 h3 h4 => exact within _ (words h4)
  | hiddenLine h1 h2 h3 => exact fit_one ⟨by simp, by simp⟩
  | hiddenBlock h1 h2 h3 => exact fit_one ⟨by simp, by simp⟩
  | hiddenString h1 h2 h3 => exact fit_one ⟨by simp, by simp⟩
  | long h1 h2 h3 h4 =>
    refine fit_one ?_
    split
    · exact ⟨by simp, by simp⟩
    · exact ⟨by simp, by simp⟩
  | splitLiteral h1 h2 h3 h4 h5 h6 =>
    refine within _ ?_
    intro p hp
    obtain ⟨q, hq, rfl⟩ := List.mem_map.mp hp
    obtain ⟨hq, hs⟩ := List.mem_filter.mp hq
    exact codePiece_fit ((literalSplit_breaks hu h6).1 q hq) (.inl (by simpa using hs))
  | wholeLiteral h1 h2 h3 h4 h5 h6 =>
    refine fit_one ⟨by simp, fun _ hm => ?_⟩
    obtain ⟨q, hq, hc⟩ := List.mem_flatten.mp hm
    obtain ⟨r, _, rfl⟩ := List.mem_map.mp hq
    exact nbsp_space _ hc

/-! ## Any characters -/

theorem recased_white {u : Ucd} (hk : KeepsWhite u) {c : Char} (hc : c ∈ ['\n', ' ']) {p : Str} (h : c ∉ p) : c ∉ recased u p := by
  cases p with
  | nil => exact h
  | cons d r =>
    rw [recased_cons]
    split
    · exact hk.upper c hc _ (hk.lower c hc _ h)
    split
    · refine hk.capitalize c hc _ ?_
      simp only [List.mem_cons, not_or] at h
      simp only [List.mem_append, not_or]
      exact ⟨hk.lower c hc _ (by simpa using h.1), h.2⟩
    · exact h

theorem identSplit_sub {u : Ucd} {s : Str} {ps : List Str} (h : IdentSplit u s ps) : ∀ p ∈ ps, ∀ c ∈ p, c ∈ s := by
  induction h with
  | nil => simp
  | space _ ih => intro p hp c hc; exact List.mem_cons_of_mem _ (ih p hp c hc)
  | underscore _ ih =>
    intro p hp c hc
    rcases List.mem_cons.mp hp with rfl | hp
    · simp at hc; simp [hc]
    · exact List.mem_cons_of_mem _ (ih p hp c hc)
  | other _ _ _ _ _ _ ih =>
    intro p hp c hc
    rcases List.mem_cons.mp hp with rfl | hp
    · simp at hc; simp [hc]
    · exact List.mem_cons_of_mem _ (ih p hp c hc)
  | digits _ _ _ _ ih =>
    intro p hp c hc
    rcases List.mem_cons.mp hp with rfl | hp
    · exact List.mem_append_left _ hc
    · exact List.mem_append_right _ (ih p hp c hc)
  | lower _ _ _ _ ih =>
    intro p hp c hc
    rcases List.mem_cons.mp hp with rfl | hp
    · exact List.mem_append_left _ hc
    · exact List.mem_append_right _ (ih p hp c hc)
  | capitalised _ _ _ _ _ ih =>
    intro p hp c hc
    rcases List.mem_cons.mp hp with rfl | hp
    · exact List.mem_append_left _ hc
    · exact List.mem_append_right _ (ih p hp c hc)
  | capitals _ _ _ _ _ ih =>
    intro p hp c hc
    rcases List.mem_cons.mp hp with rfl | hp
    · exact List.mem_append_left _ hc
    · exact List.mem_append_right _ (ih p hp c hc)

/-- An identifier as it is shown. -/
theorem shown_white {u : Ucd} (hk : KeepsWhite u) {c : Char} (hc : c ∈ ['\n', ' ']) {s : Str} {ps : List Str} (h : IdentSplit u s ps)
    (hs : c ∉ s) : c ∉ (ps.map (recased u)).flatten := by
  intro hm
  obtain ⟨q, hq, hcq⟩ := List.mem_flatten.mp hm
  obtain ⟨p, hp, rfl⟩ := List.mem_map.mp hq
  exact recased_white hk hc (fun h' => hs (identSplit_sub h p hp c h')) hcq

theorem word_white {u : Ucd} (hu : u.Laws) {c : Char} (hc : c ∈ ['\n', ' ']) {w : Str} (h : ∀ c ∈ w, u.reWord c = true) : c ∉ w := by
  intro hm
  have := h _ hm
  simp only [List.mem_cons, List.not_mem_nil, or_false] at hc
  rcases hc with rfl | rfl <;> rw [hu.reWord_ascii _ (by decide)] at this <;> exact absurd this (by decide)

theorem replaced_white {c : Char} (hc : c ∈ ['\n', ' ']) {s x : Str} (h : Replaced "÷".toList s x) (hs : c ∉ s) : c ∉ x := by
  induction h with
  | nil => simp
  | keep _ _ ih =>
    simp only [List.mem_cons, not_or] at hs ⊢
    exact ⟨hs.1, ih hs.2⟩
  | run _ _ _ _ ih =>
    simp only [List.mem_append, not_or] at hs ⊢
    refine ⟨?_, ih hs.2⟩
    simp only [List.mem_cons, List.not_mem_nil, or_false] at hc
    rcases hc with rfl | rfl <;> decide

theorem hiddenText_count {s x : Str} (h : HiddenText s x) : x.count '\n' = s.count '\n' := by
  induction h with
  | nil => rfl
  | keep _ _ ih => rw [List.count_cons, List.count_cons, ih]
  | @run r w out _ hr _ _ ih =>
    have : r.count '\n' = 0 := by
      rw [List.count_eq_zero]
      intro hm
      have := (hr _ hm).1
      exact absurd this (by decide)
    rw [List.count_append, this, List.count_cons, ih]
    simp

theorem hiddenText_space {s x : Str} (h : HiddenText s x) (hs : ' ' ∉ s) : ' ' ∉ x := by
  induction h with
  | nil => exact hs
  | keep _ _ ih =>
    simp only [List.mem_cons, not_or] at hs ⊢
    exact ⟨hs.1, ih hs.2⟩
  | run _ _ _ _ ih =>
    simp only [List.mem_append, List.mem_cons, not_or] at hs ⊢
    exact ⟨by decide, ih hs.2⟩

theorem shownPiece_breaks {u : Ucd} (hu : u.Laws) (hk : KeepsWhite u) {p x : Str} (h : ShownPiece u p x) (hp : ' ' ∉ p) :
    x.count '\n' = p.count '\n' ∧ ' ' ∉ x := by
  cases h with
  | identifier h1 h2 h3 =>
    refine ⟨?_, shown_white hk (by simp) h3 hp⟩
    rw [List.count_eq_zero.mpr (shown_white hk (by simp) h3 (word_white hu (by simp) h1)),
      List.count_eq_zero.mpr (word_white hu (by simp) h1)]
  | number h => exact ⟨lower_count p, space_map_lower hp⟩
  | other _ _ => exact ⟨rfl, hp⟩

theorem shownLiterals_breaks {u : Ucd} (hu : u.Laws) (hk : KeepsWhite u) {ps xs : List Str} (h : ShownLiterals u ps xs) :
    xs.flatten.count '\n' = ps.flatten.count '\n' ∧ ' ' ∉ xs.flatten := by
  induction h with
  | nil => exact ⟨rfl, by simp⟩
  | @spaces n ps xs _ ih =>
    refine ⟨?_, ?_⟩
    · rw [List.flatten_cons, List.flatten_cons, List.count_append, List.count_append, ih.1, List.count_replicate, List.count_replicate]
      rfl
    · simp only [List.flatten_cons, List.mem_append, List.mem_replicate, not_or]
      exact ⟨by rintro ⟨_, h⟩; exact absurd h (by decide), ih.2⟩
  | piece h1 h2 _ ih =>
    obtain ⟨g1, g2⟩ := shownPiece_breaks hu hk h2 h1
    refine ⟨by rw [List.flatten_cons, List.flatten_cons, List.count_append, List.count_append, ih.1, g1], ?_⟩
    simp only [List.flatten_cons, List.mem_append, not_or]
    exact ⟨g2, ih.2⟩

theorem anyPiece_breaks {u : Ucd} (hu : u.Laws) (hk : KeepsWhite u) {nu : Bool} {o : PieceOpts} {p : Str} {q : Piece}
    (h : AnyPiece u nu o p q) (hp : p = "\n".toList ∨ '\n' ∉ p) (hs : ' ' ∉ p ∨ p = "    ".toList) :
    Clean q ∧ q.text.count '\n' = p.count '\n' ∧ Fit q := by
  cases h with
  | plain _ =>
    refine ⟨?_, ?_, codePiece_fit hp hs⟩
    · rcases hp with rfl | hp
      · rw [codePiece_newline]; exact .inl ⟨rfl, rfl⟩
      · exact .inr (codePiece_line u hp)
    · rcases hp with rfl | hp
      · rw [codePiece_newline]
      · rw [List.count_eq_zero.mpr (codePiece_line u hp), List.count_eq_zero.mpr hp]
  | hidden h1 _ _ _ =>
    have h0 : '\n' ∉ "<non-en>".toList := by decide
    refine ⟨.inr h0, ?_, by simp, by simp⟩
    rw [List.count_eq_zero.mpr (word_white hu (by simp) h1.2.1)]
    rfl
  | @replaced qs x h1 _ _ _ h5 h6 =>
    have hw : ∀ c ∈ ['\n', ' '], c ∉ recased u x := fun c hc =>
      recased_white hk hc (replaced_white hc h6 (shown_white hk hc h5 (word_white hu hc h1.2.1)))
    refine ⟨.inr (hw _ (by simp)), ?_, by simp, fun _ => hw _ (by simp)⟩
    rw [List.count_eq_zero.mpr (word_white hu (by simp) h1.2.1)]
    exact List.count_eq_zero.mpr (hw _ (by simp))

theorem anyPieces_breaks {u : Ucd} (hu : u.Laws) (hk : KeepsWhite u) {nu : Bool} {o : PieceOpts} {ps : List Str} {qs : List Piece}
    (h : AnyPieces u nu o ps qs) (hp : ∀ p ∈ ps, p = "\n".toList ∨ '\n' ∉ p) (hs : ∀ p ∈ ps, ' ' ∉ p ∨ p = "    ".toList) :
    (∀ q ∈ qs, Clean q) ∧ (qs.flatMap (·.text)).count '\n' = ps.flatten.count '\n' ∧ ∀ q ∈ qs, Fit q := by
  induction h with
  | nil => exact ⟨by simp, rfl, by simp⟩
  | cons h _ ih =>
    obtain ⟨i1, i2, i3⟩ := ih (fun q hq => hp q (by simp [hq])) (fun q hq => hs q (by simp [hq]))
    obtain ⟨h1, h2, h3⟩ := anyPiece_breaks hu hk h (hp _ (by simp)) (hs _ (by simp))
    refine ⟨?_, by rw [List.flatMap_cons, List.count_append, List.flatten_cons, List.count_append, h2, i2], ?_⟩
    · intro q hq
      rcases List.mem_cons.mp hq with rfl | hq
      · exact h1
      · exact i1 q hq
    · intro q hq
      rcases List.mem_cons.mp hq with rfl | hq
      · exact h3
      · exact i3 q hq

theorem within_fit (ty : Ty) {qs : List Piece} (h : ∀ p ∈ qs, Fit p) : ∀ p ∈ qs.map (Piece.within ty), Fit p := by
  intro p hp
  obtain ⟨q, hq, rfl⟩ := List.mem_map.mp hp
  exact h q hq

theorem describedAny_breaks {u : Ucd} (hu : u.Laws) (hk : KeepsWhite u) {call : ApiCall} {nu : Bool} {e : TokType × Str}
    {ps : List Piece} (hp : PlainNumber e) (h : DescribedAny u nu (pieceOpts call) e ps) : Breaks u call e ps ∧ ∀ p ∈ ps, Fit p := by
  have nc : (pieceOpts call).noCom = (optsOf call).noCom := rfl
  have ns : (pieceOpts call).noStr = (optsOf call).noStr := rfl
  have lm : (pieceOpts call).limit = limitOf (optsOf call).maxStrLength := rfl
  have text : ∀ {v : Str} {ps : List Str} {qs : List Piece}, TextSplit u v ps → AnyPieces u nu (pieceOpts call) ps qs →
      (∀ q ∈ qs, Clean q) ∧ (qs.flatMap (·.text)).count '\n' = v.count '\n' ∧ ∀ q ∈ qs, Fit q := by
    intro v ps qs h1 h2
    obtain ⟨t1, t2⟩ := textSplit_breaks hu h1
    obtain ⟨g1, g2, g3⟩ := anyPieces_breaks hu hk h2 t1 (textSplit_spaces hu h1)
    exact ⟨g1, g2.trans t2, g3⟩
  cases h with
  | same _ h => exact ⟨described_breaks hu hk hp h, described_fit hu hk hp h⟩
  | words h1 h2 h3 h4 =>
    obtain ⟨c1, c2, c3⟩ := text h3 h4
    exact ⟨breaks_shown c1 c2 (by rw [hides_iff h1]; simp [h2]), c3⟩
  | lineComment h1 h2 h3 h4 h5 =>
    obtain ⟨c1, c2, c3⟩ := text h4 h5
    obtain ⟨w1, w2⟩ := within_breaks .oneLineComment c1
    refine ⟨breaks_shown ?_ ?_ (by rw [hides_iff h1, ← nc, h3]; simp [h2]), ?_⟩
    · intro p hp
      rcases List.mem_append.mp hp with hp | hp
      · exact w1 p hp
      · exact .inr (one_line (by decide) p hp)
    · rw [List.flatMap_append, List.count_append, w2, c2]
      rfl
    · intro p hp
      rcases List.mem_append.mp hp with hp | hp
      · exact within_fit _ c3 p hp
      · exact fit_one ⟨by simp, by simp⟩ p hp
  | blockComment h1 h2 h3 h4 h5 =>
    obtain ⟨c1, c2, c3⟩ := text h4 h5
    obtain ⟨w1, w2⟩ := within_breaks .multilineComment c1
    exact ⟨breaks_shown w1 (w2.trans c2) (by rw [hides_iff h1, ← nc, h3]; simp [h2]), within_fit _ c3⟩
  | splitLiteral h1 h2 h3 h4 h5 h6 h7 =>
    obtain ⟨t1, t2⟩ := literalSplit_breaks hu h6
    obtain ⟨c1, c2, c3⟩ := anyPieces_breaks hu hk h7 (fun p hp => t1 p (List.mem_filter.mp hp).1)
      (fun p hp => .inl (by simpa using (List.mem_filter.mp hp).2))
    obtain ⟨w1, w2⟩ := within_breaks .stringLiteral c1
    refine ⟨breaks_shown w1 (w2.trans (c2.trans t2)) ?_, within_fit _ c3⟩
    rw [hides_iff h1, ← ns, h3, ← lm]
    rintro (h | h)
    · rw [h2] at h; rcases h.1 with h | h <;> cases h
    · rcases h.2 with h | h
      · cases h
      · exact absurd h4 (Nat.not_le.mpr h)
  | @wholeLiteral ty v qs xs x h1 h2 h3 h4 h5 h6 h7 h8 h9 =>
    obtain ⟨g1, g2⟩ := shownLiterals_breaks hu hk h7
    rw [literalSplit_flatten h6] at g1
    have hx : x.count '\n' = v.count '\n' ∧ ' ' ∉ x := by
      cases nu with
      | false => rw [h8 rfl]; exact ⟨g1, g2⟩
      | true => exact ⟨(hiddenText_count (h9 rfl)).trans g1, hiddenText_space (h9 rfl) g2⟩
    refine ⟨breaks_verbatim hx.1 ?_ ?_, fit_one ⟨by simp, fun _ => hx.2⟩⟩
    · rw [shows_iff hu h1]
      rintro (h | h | h)
      · rw [h2] at h; cases h
      · rw [h2] at h; rcases h.1 with h | h <;> cases h
      · exact h5 h.2.2.2
    · rw [hides_iff h1, ← ns, h3, ← lm]
      rintro (h | h)
      · rw [h2] at h; rcases h.1 with h | h <;> cases h
      · rcases h.2 with h | h
        · cases h
        · exact absurd h4 (Nat.not_le.mpr h)

/-! ## Spelling -/

/-- The splitters introduce no line breaks. -/
def LineMode : Mode → Prop
  | .nosplit => True
  | .basic _ f _ => ∀ s, '\n' ∉ s → ∀ p ∈ f s, '\n' ∉ p
  | .bpe d => LineCache d

theorem count_flatten (t : Str) (ht : '\n' ∈ t) (xs : List Str) : xs.count t ≤ xs.flatten.count '\n' := by
  induction xs with
  | nil => simp
  | cons x r ih =>
    rw [List.count_cons, List.flatten_cons, List.count_append]
    split
    · next h =>
      have : x = t := by simpa using h
      have : 0 < x.count '\n' := List.count_pos_iff.mpr (this ▸ ht)
      omega
    · omega

theorem markEnd_count (l : List Str) : (markEnd l).flatten.count '\n' = l.flatten.count '\n' := by
  induction l using markEnd.induct with
  | case1 => rfl
  | case2 x => simp [markEnd, List.count_append]
  | case3 x y r ih =>
    simp only [markEnd, List.flatten_cons, List.count_append] at ih ⊢
    rw [ih]

theorem line_undouble {s : Str} (h : '\n' ∉ s) : '\n' ∉ undoubleEsc s := by
  induction s using undoubleEsc.induct with
  | case1 => simp [undoubleEsc]
  | case2 c => exact h
  | case3 c d r hcd ih =>
    unfold undoubleEsc
    rw [if_pos hcd]
    simp only [List.mem_cons, not_or] at h ⊢
    exact ⟨by decide, ih h.2.2⟩
  | case4 c d r hcd ih =>
    unfold undoubleEsc
    rw [if_neg hcd]
    simp only [List.mem_cons, not_or] at h ih ⊢
    exact ⟨h.1, ih h.2⟩

theorem line_unescape {l : List Str} {r : List Str × List Str} (hl : ∀ p ∈ l, '\n' ∉ p) (h : unescape l = .ok r) :
    ∀ p ∈ r.1, '\n' ∉ p := by
  unfold unescape at h
  split at h
  · cases h
  · next x hx =>
    split at h
    · cases h
    · split at h
      · cases h
      · simp only [Except.ok.injEq] at h
        subst h
        intro p hp
        simp only [List.map_append, List.map_cons, List.map_nil] at hp
        rcases List.mem_append.mp hp with hp | hp
        · obtain ⟨q, hq, rfl⟩ := List.mem_map.mp hp
          exact line_undouble (hl q (List.dropLast_subset _ hq))
        · simp only [List.mem_cons, List.not_mem_nil, or_false] at hp
          subst hp
          exact line_undouble fun hm => hl x (List.mem_of_getLast? hx) (List.dropLast_subset _ hm)

theorem flatten_line {l : List Str} (h : ∀ p ∈ l, '\n' ∉ p) : l.flatten.count '\n' = 0 := by
  rw [List.count_eq_zero]
  intro hm
  obtain ⟨p, hp, hc⟩ := List.mem_flatten.mp hm
  exact h p hp hc

theorem bpe_count {w : Str} {d : BpeData} {l : List Str} (hd : LineCache d) (hw : ' ' ∉ w) (h : getBpeSubwords w d = .ok l) :
    l.flatten.count '\n' ≤ w.count '\n' := by
  cases hc : d.cache.get? (escape w true) with
  | some r =>
    unfold getBpeSubwords getBpeSubwordsSt at h
    simp only [hc] at h
    cases hu : unescape r with
    | error e => simp [hu, bind, Except.bind, Except.map] at h
    | ok x =>
      simp only [hu, bind, Except.bind, Except.map, Except.ok.injEq] at h
      subst h
      rw [flatten_line (line_unescape (hd _ _ hc) hu)]
      exact Nat.zero_le _
  | none =>
    obtain ⟨v, r, -, -, hv, hf, -, -, -⟩ := getBpeSubwords_miss w d hw hc
    unfold getBpeSubwords at h
    rw [hv] at h
    cases h
    rw [← hf]
    exact Nat.le_refl _

theorem markPiece_line {f : Str → List Str} (hf : ∀ s, '\n' ∉ s → ∀ p ∈ f s, '\n' ∉ p) {nc : Bool} {p : Str} (hp : '\n' ∉ p) :
    ∀ q ∈ markPieceWith f nc p, '\n' ∉ q := by
  intro q hq
  unfold markPieceWith at hq
  split at hq
  · simp at hq; rw [hq]; exact hp
  · split at hq
    · split at hq
      · rcases List.mem_cons.mp hq with rfl | hq
        · decide
        · exact hf _ (newline_map_lower hp) q hq
      · split at hq
        · rcases List.mem_cons.mp hq with rfl | hq
          · decide
          · exact hf _ (newline_map_lower hp) q hq
        · exact hf _ hp q hq
    · exact hf _ hp q hq

theorem markAny_line {u : Ucd} (hk : KeepsWhite u) {f : Str → List Str} (hf : ∀ s, '\n' ∉ s → ∀ p ∈ f s, '\n' ∉ p) {nc : Bool} {p : Str}
    (hp : '\n' ∉ p) : ∀ q ∈ markAny u f nc p, '\n' ∉ q := by
  intro q hq
  unfold markAny at hq
  split at hq
  · simp at hq; rw [hq]; exact hp
  · split at hq
    · have hl : (∀ q ∈ (loweredPiece u p).1, '\n' ∉ q) ∧ '\n' ∉ (loweredPiece u p).2 := by
        unfold loweredPiece
        split
        · exact ⟨by simp, by simp⟩
        · next c r =>
          split
          · exact ⟨by intro q hq; simp at hq; rw [hq]; decide, hk.lower _ (by simp) _ hp⟩
          · split
            · refine ⟨by intro q hq; simp at hq; rw [hq]; decide, ?_⟩
              simp only [List.mem_cons, not_or] at hp
              simp only [List.mem_append, not_or]
              exact ⟨hk.lower _ (by simp) _ (by simpa using hp.1), hp.2⟩
            · exact ⟨by simp, hp⟩
      rcases List.mem_append.mp hq with hq | hq
      · exact hl.1 q hq
      · exact hf _ hl.2 q hq
    · exact hf _ (recased_white hk (by simp) hp) q hq

theorem wrapWord_line {l : List Str} (h : ∀ p ∈ l, '\n' ∉ p) : ∀ p ∈ wrapWord l, '\n' ∉ p := by
  have wrapped : ∀ l : List Str, (∀ p ∈ l, '\n' ∉ p) → ∀ p ∈ ["<w>".toList] ++ l ++ ["</w>".toList], '\n' ∉ p := by
    intro l h p hp
    simp only [List.cons_append, List.nil_append, List.mem_cons, List.mem_append, List.not_mem_nil, or_false] at hp
    rcases hp with rfl | hp | rfl
    · decide
    · exact h p hp
    · decide
  unfold wrapWord
  split
  · exact h
  · split
    · exact h
    · exact wrapped _ h
  · exact wrapped _ h

theorem spelled_count {u : Ucd} {m : Mode} (hm : LineMode m) {p : Piece} {l : List Str} (hf : Fit p) (h : Spelled u m p l) :
    l.flatten.count '\n' ≤ p.text.count '\n' := by
  cases h with
  | space => simp
  | fixed => simp
  | constant => simp
  | quotes => exact Nat.zero_le _
  | numberWhole => simp
  | wordWhole => simp
  | literalWhole => simp
  | @numberBasic sn f nc ty s =>
    unfold markNumber
    split
    · have : ∀ s : Str, (List.map (fun c => [c]) s).flatten = s := by
        intro s
        induction s with
        | nil => rfl
        | cons c r ih => rw [List.map_cons, List.flatten_cons, ih]; rfl
      simp [List.count_append, this]
    · simp
  | wordBasic hi =>
    refine Nat.le_trans (Nat.le_of_eq (flatten_line (wrapWord_line ?_))) (Nat.zero_le _)
    intro q hq
    obtain ⟨r, hr, hq⟩ := List.mem_flatMap.mp hq
    exact markPiece_line hm (fun hn => (hf.1 (.inl rfl)).1 (identSplit_sub hi r hr _ hn)) q hq
  | numberBpe hb => exact bpe_count hm (hf.1 (.inr rfl)).2 hb
  | wordBpe hb => exact bpe_count hm (hf.1 (.inl rfl)).2 hb
  | literalBpe hb => exact bpe_count hm (hf.2 rfl) hb

theorem spelledAny_count {u : Ucd} (hk : KeepsWhite u) {m : Mode} (hm : LineMode m) {p : Piece} {l : List Str} (hf : Fit p)
    (h : SpelledAny u m p l) : l.flatten.count '\n' ≤ p.text.count '\n' := by
  cases h with
  | same _ h => exact spelled_count hm hf h
  | wordWhole hi =>
    have := shown_white hk (c := '\n') (by simp) hi (hf.1 (.inl rfl)).1
    rw [List.flatten_cons, List.flatten_nil, List.append_nil, List.count_eq_zero.mpr this]
    exact Nat.zero_le _
  | wordBasic hi =>
    refine Nat.le_trans (Nat.le_of_eq (flatten_line (wrapWord_line ?_))) (Nat.zero_le _)
    intro q hq
    obtain ⟨r, hr, hq⟩ := List.mem_flatMap.mp hq
    exact markAny_line hk hm (fun hn => (hf.1 (.inl rfl)).1 (identSplit_sub hi r hr _ hn)) q hq
  | wordBpe hi hb =>
    refine Nat.le_trans (bpe_count hm (shown_white hk (by simp) hi (hf.1 (.inl rfl)).2) hb) ?_
    rw [List.count_eq_zero.mpr (shown_white hk (c := '\n') (by simp) hi (hf.1 (.inl rfl)).1)]
    exact Nat.zero_le _

/-- The strings of a piece in the output. -/
def shownPiece (bpe : Bool) (l : List Str) : List Str := if bpe then markEnd l else l

theorem breakToken_mem (call : ApiCall) : '\n' ∈ breakToken call := by
  unfold breakToken
  split <;> decide

theorem spelled_le {u : Ucd} (hk : KeepsWhite u) {m : Mode} (hm : LineMode m) {p : Piece} {l : List Str} (hf : Fit p) (h : SpelledAny u m p l)
    (call : ApiCall) : (shownPiece (usesBpe call) l).count (breakToken call) ≤ p.text.count '\n' := by
  refine Nat.le_trans (count_flatten _ (breakToken_mem call) _) ?_
  refine Nat.le_trans (Nat.le_of_eq ?_) (spelledAny_count hk hm hf h)
  unfold shownPiece
  split
  · exact markEnd_count l
  · rfl

theorem spelled_exact {u : Ucd} (hk : KeepsWhite u) {m : Mode} (hm : LineMode m) {p : Piece} {l : List Str} (hf : Fit p) (h : SpelledAny u m p l)
    (call : ApiCall) (hc : Clean p) : (shownPiece (usesBpe call) l).count (breakToken call) = p.text.count '\n' := by
  rcases hc with ⟨h1, h2⟩ | hc
  · obtain ⟨ty, s, f⟩ := p
    simp only at h1 h2
    subst h1 h2
    cases h
    rename_i h
    cases h
    show (shownPiece (usesBpe call) ["\n".toList]).count (breakToken call) = "\n".toList.count '\n'
    unfold shownPiece breakToken
    cases usesBpe call <;> decide
  · have := spelled_le hk hm hf h call
    rw [List.count_eq_zero.mpr hc] at this ⊢
    omega

theorem spelledAll_le {u : Ucd} (hk : KeepsWhite u) {m : Mode} (hm : LineMode m) {ns : Bool} {ps : List Piece} {us : List FullTok} (hf : ∀ p ∈ ps, Fit p)
    (h : SpelledAnyAll u m ns ps us) (call : ApiCall) :
    (us.flatMap fun x => shownPiece (usesBpe call) x.subs).count (breakToken call) ≤ (ps.flatMap (·.text)).count '\n' := by
  induction h with
  | nil => simp
  | skip _ _ _ ih =>
    have := ih fun p hp => hf p (by simp [hp])
    rw [List.flatMap_cons, List.count_append]
    omega
  | cons _ hs _ ih =>
    have h1 := ih fun p hp => hf p (by simp [hp])
    have h2 := spelled_le hk hm (hf _ (by simp)) hs call
    rw [List.flatMap_cons, List.count_append, List.flatMap_cons, List.count_append]
    exact Nat.add_le_add h2 h1

theorem spelledAll_exact {u : Ucd} (hk : KeepsWhite u) {m : Mode} (hm : LineMode m) {ps : List Piece} {us : List FullTok} (hf : ∀ p ∈ ps, Fit p)
    (hc : ∀ p ∈ ps, Clean p) (h : SpelledAnyAll u m false ps us) (call : ApiCall) :
    (us.flatMap fun x => shownPiece (usesBpe call) x.subs).count (breakToken call) = (ps.flatMap (·.text)).count '\n' := by
  generalize hns : false = ns at h
  induction h with
  | nil => rfl
  | skip h0 _ _ ih => rw [← hns] at h0; cases h0
  | cons _ hs _ ih =>
    have h1 := ih (fun p hp => hf p (by simp [hp])) (fun p hp => hc p (by simp [hp]))
    have h2 := spelled_exact hk hm (hf _ (by simp)) hs call (hc _ (by simp))
    rw [List.flatMap_cons, List.count_append, List.flatMap_cons, List.count_append, h1]
    exact congrArg (· + _) h2

theorem describedAll_breaks {u : Ucd} (hu : u.Laws) (hk : KeepsWhite u) {nu : Bool} {call : ApiCall} {l : List (TokType × Str)} {ps : List Piece}
    (hp : ∀ e ∈ l, PlainNumber e) (h : DescribedAnyAll u nu (pieceOpts call) l ps) :
    (∀ p ∈ ps, Fit p) ∧ (ps.flatMap (·.text)).count '\n' ≤ lineBreaks (lexedText l) ∧
    ((∀ e ∈ l, '\n' ∈ e.2 → ShowsBreaks u call e) →
      (∀ p ∈ ps, Clean p) ∧ (ps.flatMap (·.text)).count '\n' = lineBreaks (lexedText l)) ∧
    ((∃ e ∈ l, '\n' ∈ e.2 ∧ HidesBreaks u call e) → (ps.flatMap (·.text)).count '\n' < lineBreaks (lexedText l)) := by
  induction h with
  | nil => exact ⟨by simp, by simp, fun _ => ⟨by simp, rfl⟩, by simp⟩
  | @cons e r ps qs hd _ ih =>
    obtain ⟨i0, i1, i2, i3⟩ := ih fun x hx => hp x (by simp [hx])
    obtain ⟨⟨b1, b2, b3⟩, bf⟩ := describedAny_breaks hu hk (hp e (by simp)) hd
    have ht : lineBreaks (lexedText (e :: r)) = e.2.count '\n' + lineBreaks (lexedText r) := by
      simp [lineBreaks, lexedText, List.count_append]
    rw [ht, List.flatMap_append, List.count_append]
    refine ⟨?_, Nat.add_le_add b1 i1, ?_, ?_⟩
    · intro p hq
      rcases List.mem_append.mp hq with hq | hq
      · exact bf p hq
      · exact i0 p hq
    · intro hs
      obtain ⟨j1, j2⟩ := i2 fun x hx => hs x (by simp [hx])
      have hc : ShowsBreaks u call e ∨ '\n' ∉ e.2 := by
        by_cases hn : '\n' ∈ e.2
        · exact .inl (hs e (by simp) hn)
        · exact .inr hn
      obtain ⟨k1, k2⟩ := b2 hc
      refine ⟨?_, by rw [k2, j2]⟩
      intro p hq
      rcases List.mem_append.mp hq with hq | hq
      · exact k1 p hq
      · exact j1 p hq
    · rintro ⟨x, hx, hn, hh⟩
      rcases List.mem_cons.mp hx with rfl | hx
      · have h0 : (ps.flatMap (·.text)).count '\n' = 0 := by
          rw [List.count_eq_zero]
          intro hm
          obtain ⟨p, hq, hc⟩ := List.mem_flatMap.mp hm
          exact b3 hh p hq hc
        have : 0 < x.2.count '\n' := List.count_pos_iff.mpr hn
        omega
      · have := i3 ⟨x, hx, hn, hh⟩
        omega

theorem describedAny_newline {u : Ucd} (hu : u.Laws) {nu : Bool} {o : PieceOpts} (ty : TokType) :
    DescribedAny u nu o (ty, "\n".toList) [⟨.newLine, "\n".toList, .space⟩] :=
  .same (.inl (by simpa using hu.space_ascii '\n' (by decide))) (.newline ty)

theorem describedAll_snoc {u : Ucd} (hu : u.Laws) {nu : Bool} {o : PieceOpts} {l : List (TokType × Str)} {ty : TokType} {ps : List Piece}
    (h : DescribedAnyAll u nu o (l ++ [(ty, "\n".toList)]) ps) :
    ∃ qs, DescribedAnyAll u nu o l qs ∧ ps = qs ++ [⟨.newLine, "\n".toList, .space⟩] := by
  induction l generalizing ps with
  | nil =>
    cases h with
    | @cons _ _ p q h1 h2 =>
      cases h2
      refine ⟨[], .nil, ?_⟩
      rw [describedAnyAll_unique hu (.cons h1 .nil) (.cons (describedAny_newline hu ty) .nil)]
      rfl
  | cons e r ih =>
    cases h with
    | @cons _ _ p q h1 h2 =>
      obtain ⟨qs, g1, g2⟩ := ih h2
      exact ⟨p ++ qs, .cons h1 g1, by rw [g2, List.append_assoc]⟩

theorem finish_snoc (eof : Bool) (qs : List Piece) : finishPieces eof (qs ++ [⟨.newLine, "\n".toList, .space⟩]) =
    qs ++ (if eof then [⟨.specialToken, "<EOF>".toList, .fixed⟩] else []) := by
  unfold finishPieces
  rw [List.getLast?_concat, if_pos (show Option.map (fun x => x.ty) (some (⟨.newLine, "\n".toList, .space⟩ : Piece)) =
    some .newLine from rfl), List.dropLast_concat]

theorem wordParts_line {env : Env} (hk : KeepsLines env) (ro st : Bool) : ∀ s, '\n' ∉ s → ∀ p ∈ wordParts env ro st s, '\n' ∉ p := by
  intro s hs p hp
  unfold wordParts at hp
  split at hp
  · obtain ⟨w, hw, rfl⟩ := List.mem_map.mp hp
    have hl := hk.ronin s hs w hw
    split
    · exact hl
    · unfold likeCase
      split
      · exact hk.white.upper _ (by simp) _ (hk.porter _ hl)
      · split
        · exact hk.white.capitalize _ (by simp) _ (hk.porter _ hl)
        · exact hk.porter _ hl
  · split at hp
    · exact hk.ronin s hs p hp
    · simp at hp; rw [hp]; exact hs

theorem modeOf_line {env : Env} (hk : KeepsLines env) {load : Str → Except PyErr BpeData} {call : ApiCall}
    (hl : ∀ i, apiBpeCodesId call = some i → i ≠ [] ∧ ∃ d, load i = .ok d ∧ CacheOk d ∧ LineCache d) {m : Mode}
    (h : ModeOf env load call m) : LineMode m := by
  cases h with
  | nosplit => trivial
  | basic => exact wordParts_line hk _ _
  | chars hd =>
    obtain ⟨_, d, h1, _, h2⟩ := hl _ rfl
    rw [hd] at h1
    cases h1
    exact h2
  | bpe hd =>
    obtain ⟨_, d, h1, _, h2⟩ := hl _ rfl
    rw [hd] at h1
    cases h1
    exact h2

theorem dropLast_text_count (ps : List Piece) : (ps.dropLast.flatMap (·.text)).count '\n' ≤ (ps.flatMap (·.text)).count '\n' := by
  rcases List.eq_nil_or_concat ps with rfl | ⟨a, x, rfl⟩
  · exact Nat.le_refl _
  · rw [List.concat_eq_append, List.dropLast_concat, List.flatMap_append, List.count_append]
    exact Nat.le_add_right _ _

end Verif.Props
