import Verif.Spec.Case
import Verif.Proofs.ParseText
import Verif.Props.Parse
/-!
# What becomes of the letters of an identifier: proofs
-/
namespace Verif
open Spec

theorem not_upper_of_lower {u : Ucd} {s : Str} (h : u.isLower s = true) : u.isUpper s = false := by
  rw [Ucd.isLower, Bool.and_eq_true] at h
  rw [Ucd.isUpper, Bool.and_eq_false_iff]
  refine .inr (List.any_eq_false.mpr fun c hc => ?_)
  have := List.all_eq_true.mp h.1 c hc
  simp only [Bool.and_eq_true, Bool.not_eq_true'] at this
  simp [this.1]

theorem recased_cons (u : Ucd) (c : Char) (r : Str) : recased u (c :: r) =
    if u.isUpper (c :: r) then u.toUpper (u.toLower (c :: r))
    else if u.isLower (c :: r) = false ∧ u.isUpper [c] = true then u.capitalize (u.toLower [c] ++ r)
    else c :: r := rfl

/-- A word shows its piece with the case made anew. -/
theorem partToSubtok_recased {u : Ucd} (hu : u.Laws) {p : Str} (hp : p ≠ []) : ∃ w, partToSubtok u p = .ok w ∧ w.str u = recased u p := by
  cases p with
  | nil => exact absurd rfl hp
  | cons c r =>
    unfold partToSubtok
    by_cases h : (c :: r) = ['_']
    · rw [if_neg (by simp [h])]
      cases h
      refine ⟨_, rfl, ?_⟩
      have hup : u.upper '_' = false := hu.upper_ascii '_' (by decide)
      have h1 : u.isUpper ['_'] = false := by simp [Ucd.isUpper, hup]
      simp [recased, h1, Subtok.str]
    · rw [if_pos h, wordFrom_eq hu]
      refine ⟨_, rfl, ?_⟩
      rw [recased_cons]
      by_cases hl : u.isLower (c :: r) = true
      · rw [if_pos hl, if_neg (show ¬ u.isUpper (c :: r) = true by rw [not_upper_of_lower hl]; simp),
          if_neg (show ¬ (u.isLower (c :: r) = false ∧ u.isUpper [c] = true) by simp [hl])]
        rfl
      · rw [if_neg hl]
        by_cases hup : u.isUpper (c :: r) = true
        · rw [if_pos hup, if_pos hup]; rfl
        · rw [if_neg hup, if_neg hup]
          by_cases h1 : u.isUpper [c] = true
          · rw [if_pos h1, if_pos (show u.isLower (c :: r) = false ∧ u.isUpper [c] = true from ⟨by simpa using hl, h1⟩)]; rfl
          · rw [if_neg h1, if_neg (show ¬ (u.isLower (c :: r) = false ∧ u.isUpper [c] = true) from fun e => h1 e.2)]; rfl

theorem mapM_recased {u : Ucd} (hu : u.Laws) : ∀ {ps : List Str}, (∀ p ∈ ps, p ≠ []) →
    ∃ ws, ps.mapM (partToSubtok u) = .ok ws ∧ ws.map (Subtok.str u) = ps.map (recased u) := by
  intro ps
  induction ps with
  | nil => intro _; exact ⟨[], rfl, rfl⟩
  | cons p r ih =>
    intro h
    obtain ⟨w, h1, h2⟩ := partToSubtok_recased hu (h p (by simp))
    obtain ⟨ws, h3, h4⟩ := ih fun p hp => h p (by simp [hp])
    exact ⟨w :: ws, by rw [List.mapM_cons, h1, h3]; rfl, by rw [List.map_cons, h2, h4, List.map_cons]⟩

/-- An identifier. -/
theorem identifier_recased {u : Ucd} (hu : u.Laws) (s : Str) : ∃ ps t, IdentSplit u s ps ∧ splitIdentifier u s = .ok t ∧
    t.str u = (ps.map (recased u)).flatten := by
  have hps := (identSplit_iff hu s _).mpr rfl
  obtain ⟨ws, h1, h2⟩ := mapM_recased hu (identSplit_ne_nil hps)
  refine ⟨_, (if isNonEng s then .nonEng ws else .split ws), hps, by unfold splitIdentifier; rw [h1]; rfl, ?_⟩
  rw [← h2]
  split <;> exact concat_eq_flatten _

/-- A piece of a text. -/
theorem toParsedToken_any {u : Ucd} (hu : u.Laws) {p : Str}
    (hw : (p ≠ [] ∧ ∀ c ∈ p, u.reWord c = true) ∨ ∃ c, p = [c] ∧ u.reWord c = false) :
    ∃ t, toParsedToken u p = .ok t ∧ ShownPiece u p (t.str u) := by
  have other : ∀ c, p = [c] → u.reWord c = false → isNumber p = false → ShownPiece u p p := by
    rintro c rfl hc hn
    exact .other ⟨c, by simp, hc⟩ fun h => by rw [(isNumber_iff _).mpr h] at hn; cases hn
  unfold toParsedToken
  by_cases h1 : p = ['\n']
  · refine ⟨.newLine, if_pos h1, ?_⟩
    subst h1
    exact other '\n' rfl (by rw [hu.reWord_ascii _ (by decide)]; decide) (by decide)
  rw [if_neg h1]
  by_cases h2 : p = ['\t']
  · refine ⟨.tab, if_pos h2, ?_⟩
    subst h2
    exact other '\t' rfl (by rw [hu.reWord_ascii _ (by decide)]; decide) (by decide)
  rw [if_neg h2]
  by_cases h3 : isNumber p = true
  · rw [if_pos h3]
    have h3' := (isNumber_iff p).mp h3
    refine ⟨_, rfl, ?_⟩
    rw [mkNumber, Tok.str, Tok.plain, pyJoin_single, hu.toLower_ascii _ (List.all_eq_true.mpr (isNumber_ascii h3').2)]
    exact .number h3'
  rw [if_neg h3]
  have h3' : ¬ IsNumber p := fun h => h3 ((isNumber_iff p).mpr h)
  rcases hw with ⟨hne, hall⟩ | ⟨c, rfl, hc⟩
  · have h4 : isWordText u p = true := by
      rw [isWordText, Bool.and_eq_true]
      exact ⟨by simpa using hne, List.all_eq_true.mpr hall⟩
    rw [if_pos h4]
    obtain ⟨ps, t, e1, e2, e3⟩ := identifier_recased hu p
    exact ⟨t, e2, e3 ▸ .identifier hall h3' e1⟩
  · have h4 : ¬ isWordText u [c] = true := by simp [isWordText, hc]
    rw [if_neg h4]
    exact ⟨_, rfl, .other ⟨c, by simp, hc⟩ h3'⟩

theorem no_space_word {u : Ucd} (hu : u.Laws) {w : Str} (h : ∀ c ∈ w, u.reWord c = true) : ' ' ∉ w := by
  intro hs
  have := h ' ' hs
  rw [reWord_space hu] at this
  cases this

theorem wordPiece_any {u : Ucd} (hu : u.Laws) {s : Str} {ps : List Str} (h : TextSplit u s ps) :
    ∃ ts, ps.mapM (wordPiece u) = .ok ts ∧ ShownTexts u ps (ts.map (Tok.str u)) := by
  have piece : ∀ {p : Str} {ps : List Str}, ' ' ∉ p →
      ((p ≠ [] ∧ ∀ c ∈ p, u.reWord c = true) ∨ ∃ c, p = [c] ∧ u.reWord c = false) →
      (∃ ts, ps.mapM (wordPiece u) = .ok ts ∧ ShownTexts u ps (ts.map (Tok.str u))) →
      ∃ ts, (p :: ps).mapM (wordPiece u) = .ok ts ∧ ShownTexts u (p :: ps) (ts.map (Tok.str u)) := by
    rintro p ps hs hp ⟨ts, h3, h4⟩
    obtain ⟨t, h1, h2⟩ := toParsedToken_any hu hp
    have hne : p ≠ [' ', ' ', ' ', ' '] := by rintro rfl; simp at hs
    exact ⟨t :: ts, by rw [List.mapM_cons, wordPiece, if_neg hne, h1, h3]; rfl, .piece hs h2 h4⟩
  induction h with
  | nil => exact ⟨[], rfl, .nil⟩
  | @word w r ps hw hall _ _ ih => exact piece (no_space_word hu hall) (.inl ⟨hw, hall⟩) ih
  | @char c r ps h1 h2 _ ih =>
    refine piece ?_ (.inr ⟨c, rfl, h2⟩) ih
    simpa using fun e => h1 e.symm
  | fourSpaces _ ih =>
    obtain ⟨ts, h3, h4⟩ := ih
    exact ⟨.tab :: ts, by rw [List.mapM_cons, wordPiece, if_pos rfl, h3]; rfl, .tab h4⟩
  | space _ _ ih => exact ih

theorem stringPiece_any {u : Ucd} (hu : u.Laws) {s : Str} {ps : List Str} (h : LiteralSplit u s ps) :
    ∃ ts, ps.mapM (stringPiece u) = .ok ts ∧ ShownLiterals u ps (ts.map (Tok.str u)) := by
  have piece : ∀ {p : Str} {ps : List Str}, ' ' ∉ p →
      ((p ≠ [] ∧ ∀ c ∈ p, u.reWord c = true) ∨ ∃ c, p = [c] ∧ u.reWord c = false) →
      (∃ ts, ps.mapM (stringPiece u) = .ok ts ∧ ShownLiterals u ps (ts.map (Tok.str u))) →
      ∃ ts, (p :: ps).mapM (stringPiece u) = .ok ts ∧ ShownLiterals u (p :: ps) (ts.map (Tok.str u)) := by
    rintro p ps hs hp ⟨ts, h3, h4⟩
    obtain ⟨t, h1, h2⟩ := toParsedToken_any hu hp
    have hne : p ≠ [] := by
      rcases hp with h | ⟨c, rfl, _⟩
      · exact h.1
      · simp
    have hsp : isSpaces p = false := by
      rw [isSpaces, Bool.and_eq_false_iff]
      right
      cases p with
      | nil => exact absurd rfl hne
      | cons c r => simp at hs; simp [Ne.symm hs.1]
    have : stringPiece u p = .ok t := by rw [stringPiece, hsp]; exact h1
    exact ⟨t :: ts, by rw [List.mapM_cons, this, h3]; rfl, .piece hs h2 h4⟩
  induction h with
  | nil => exact ⟨[], rfl, .nil⟩
  | @word w r ps hw hall _ _ ih => exact piece (no_space_word hu hall) (.inl ⟨hw, hall⟩) ih
  | @char c r ps h1 h2 _ ih =>
    refine piece ?_ (.inr ⟨c, rfl, h2⟩) ih
    simpa using fun e => h1 e.symm
  | @spaces n r ps _ _ ih =>
    obtain ⟨ts, h3, h4⟩ := ih
    have h1 : stringPiece u (List.replicate (n + 1) ' ') = .ok (.spaceInString (n + 1)) := by
      have : isSpaces (List.replicate (n + 1) ' ') = true := by simp [isSpaces]
      rw [stringPiece, this]
      simp
    refine ⟨.spaceInString (n + 1) :: ts, by rw [List.mapM_cons, h1, h3]; rfl, ?_⟩
    have h2 : Tok.str u (.spaceInString (n + 1)) = List.replicate (n + 1) '\u00a0' := by
      rw [Tok.str, Tok.plain, pyJoin_single]
      simp [Ph.spaceInStr]
    rw [List.map_cons, h2]
    exact .spaces h4

/-- A piece that keeps its case shows itself, apart from number literals. -/
theorem shownPiece_keeps {u : Ucd} {p x : Str} (hs : ' ' ∉ p) (h : ShownPiece u p x)
    (hk : (∀ c ∈ p, u.reWord c = true) → ¬ IsNumber p → ∀ qs, IdentSplit u p qs → ∀ q ∈ qs, recased u q = q) :
    x = lowerNumber p := by
  cases h with
  | @identifier qs h1 h2 h3 =>
    rw [lowerNumber, if_neg h2]
    have : qs.map (recased u) = qs := by
      conv => rhs; rw [← List.map_id qs]
      exact List.map_congr_left fun q hq => hk h1 h2 qs h3 q hq
    rw [this]
    exact identSplit_flatten h3 hs
  | number h => rw [lowerNumber, if_pos h]
  | other h1 h2 => rw [lowerNumber, if_neg h2]

theorem shownTexts_keeps {u : Ucd} {ps xs : List Str} (h : ShownTexts u ps xs) (hk : KeepsCase u ps) :
    xs = ps.map shownText := by
  induction h with
  | nil => rfl
  | tab _ ih => rw [ih fun p hp => hk p (by simp [hp])]; simp [shownText]
  | @piece p x ps xs hs h _ ih =>
    have hne : p ≠ [' ', ' ', ' ', ' '] := by rintro rfl; simp at hs
    rw [List.map_cons, shownText, if_neg hne, ← shownPiece_keeps hs h (hk p (by simp)), ← ih fun p hp => hk p (by simp [hp])]

theorem shownLiterals_keeps {u : Ucd} {ps xs : List Str} (h : ShownLiterals u ps xs) (hk : KeepsCase u ps) :
    xs = ps.map shownLiteral := by
  induction h with
  | nil => rfl
  | @spaces n ps xs _ ih =>
    have hn : ¬ IsNumber (List.replicate (n + 1) ' ') := fun hn => isNumber_noSpace hn (by simp)
    rw [ih fun p hp => hk p (by simp [hp]), List.map_cons, shownLiteral, lowerNumber, if_neg hn, nbsp]
    simp [List.map_replicate]
  | @piece p x ps xs hs h _ ih =>
    rw [List.map_cons, shownLiteral, nbsp_id (lowerNumber_noSpace hs), ← shownPiece_keeps hs h (hk p (by simp)),
      ← ih fun p hp => hk p (by simp [hp])]

end Verif
