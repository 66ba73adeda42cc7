import Verif.Proofs.ParseTok
import Verif.Proofs.Regex
/-!
# What the tokens of a text show
-/
namespace Verif
open Spec

theorem isNumber_eq (p : Str) : isNumber p = true ↔ IsNumber p := isNumber_iff p

theorem lowerNumber_of {p : Str} (h : isNumber p = true) : lowerNumber p = p.map asciiToLower := by
  rw [lowerNumber, if_pos ((isNumber_iff p).mp h)]

theorem lowerNumber_not {p : Str} (h : isNumber p = false) : lowerNumber p = p := by
  rw [lowerNumber, if_neg]
  intro hn
  rw [(isNumber_iff p).mpr hn] at h
  exact absurd h (by simp)

theorem pyJoin_single (sep s : Str) : pyJoin sep [s] = s := rfl

theorem toParsedToken_str {u : Ucd} (hu : u.Laws) {p : Str} (hs : ' ' ∉ p)
    (h : (∀ c ∈ p, isAscii c = true) ∨ ∃ c, p = [c] ∧ u.reWord c = false) :
    ∃ t, toParsedToken u p = .ok t ∧ t.str u = lowerNumber p := by
  unfold toParsedToken
  by_cases h1 : p = ['\n']
  · subst h1
    exact ⟨.newLine, rfl, (lowerNumber_not (p := ['\n']) (by decide)).symm⟩
  rw [if_neg h1]
  by_cases h2 : p = ['\t']
  · subst h2
    exact ⟨.tab, rfl, (lowerNumber_not (p := ['\t']) (by decide)).symm⟩
  rw [if_neg h2]
  by_cases h3 : isNumber p = true
  · rw [if_pos h3, lowerNumber_of h3]
    refine ⟨_, rfl, ?_⟩
    rw [mkNumber, Tok.str, Tok.plain, pyJoin_single, hu.toLower_ascii]
    exact List.all_eq_true.mpr (isNumber_ascii ((isNumber_iff p).mp h3)).2
  rw [if_neg h3, lowerNumber_not (by simpa using h3)]
  by_cases h4 : isWordText u p = true
  · rw [if_pos h4]
    have ha : ∀ c ∈ p, isAscii c = true := by
      rcases h with h | ⟨c, rfl, hc⟩
      · exact h
      · simp [isWordText, hc] at h4
    obtain ⟨ps, ws, _, _, h5, h6⟩ := splitIdentifier_ascii hu ha hs
    refine ⟨_, h5, ?_⟩
    rw [Tok.str, Tok.plain, pyJoin_single, h6]
  · rw [if_neg h4]
    exact ⟨_, rfl, rfl⟩

theorem wordPiece_str {u : Ucd} (hu : u.Laws) {s : Str} {ps : List Str} (h : TextSplit u s ps) (ha : AsciiWords u s) :
    ∃ ts, ps.mapM (wordPiece u) = .ok ts ∧ ts.map (Tok.str u) = ps.map shownText := by
  have step : ∀ {p : Str} {ps : List Str}, (∃ t, wordPiece u p = .ok t ∧ t.str u = shownText p) →
      (∃ ts, ps.mapM (wordPiece u) = .ok ts ∧ ts.map (Tok.str u) = ps.map shownText) →
      ∃ ts, (p :: ps).mapM (wordPiece u) = .ok ts ∧ ts.map (Tok.str u) = (p :: ps).map shownText := by
    rintro p ps ⟨t, h1, h2⟩ ⟨ts, h3, h4⟩
    exact ⟨t :: ts, by rw [List.mapM_cons, h1, h3]; rfl, by rw [List.map_cons, h2, h4, List.map_cons]⟩
  have piece : ∀ {p : Str}, ' ' ∉ p → ((∀ c ∈ p, isAscii c = true) ∨ ∃ c, p = [c] ∧ u.reWord c = false) →
      ∃ t, wordPiece u p = .ok t ∧ t.str u = shownText p := by
    intro p hs hp
    obtain ⟨t, h1, h2⟩ := toParsedToken_str hu hs hp
    have hne : p ≠ [' ', ' ', ' ', ' '] := by rintro rfl; simp at hs
    exact ⟨t, by rw [wordPiece, if_neg hne, h1], by rw [h2, shownText, if_neg hne]⟩
  induction h with
  | nil => exact ⟨[], rfl, rfl⟩
  | @word w r ps hw hall _ _ ih =>
    refine step (piece ?_ (.inl ?_)) (ih fun c hc => ha c (by simp [hc]))
    · intro hsp
      have := hall ' ' hsp
      rw [reWord_space hu] at this
      exact absurd this (by simp)
    · intro c hc
      exact ha c (by simp [hc]) (hall c hc)
  | @char c r ps h1 h2 _ ih =>
    refine step (piece ?_ (.inr ⟨c, rfl, h2⟩)) (ih fun c hc => ha c (by simp [hc]))
    simpa using fun e => h1 e.symm
  | fourSpaces _ ih =>
    exact step ⟨.tab, rfl, rfl⟩ (ih fun c hc => ha c (by simp [hc]))
  | space _ _ ih => exact ih fun c hc => ha c (by simp [hc])

theorem nbsp_id {p : Str} (h : ' ' ∉ p) : nbsp p = p := by
  unfold nbsp
  conv => rhs; rw [← List.map_id p]
  refine List.map_congr_left fun c hc => ?_
  rw [if_neg]
  · rfl
  · rintro rfl; exact h hc

theorem lowerNumber_noSpace {p : Str} (h : ' ' ∉ p) : ' ' ∉ lowerNumber p := by
  unfold lowerNumber
  split
  · intro hm
    obtain ⟨c, hc, e⟩ := List.mem_map.mp hm
    by_cases hu : asciiUpper c = true
    · have := asciiToLower_lower hu
      rw [e] at this
      exact absurd this (by decide)
    · rw [asciiToLower_id (by simpa using hu)] at e
      subst e
      exact h hc
  · exact h

theorem stringPiece_str {u : Ucd} (hu : u.Laws) {s : Str} {ps : List Str} (h : LiteralSplit u s ps) (ha : AsciiWords u s) :
    ∃ ts, ps.mapM (stringPiece u) = .ok ts ∧ ts.map (Tok.str u) = ps.map shownLiteral := by
  have step : ∀ {p : Str} {ps : List Str}, (∃ t, stringPiece u p = .ok t ∧ t.str u = shownLiteral p) →
      (∃ ts, ps.mapM (stringPiece u) = .ok ts ∧ ts.map (Tok.str u) = ps.map shownLiteral) →
      ∃ ts, (p :: ps).mapM (stringPiece u) = .ok ts ∧ ts.map (Tok.str u) = (p :: ps).map shownLiteral := by
    rintro p ps ⟨t, h1, h2⟩ ⟨ts, h3, h4⟩
    exact ⟨t :: ts, by rw [List.mapM_cons, h1, h3]; rfl, by rw [List.map_cons, h2, h4, List.map_cons]⟩
  have piece : ∀ {p : Str}, p ≠ [] → ' ' ∉ p → ((∀ c ∈ p, isAscii c = true) ∨ ∃ c, p = [c] ∧ u.reWord c = false) →
      ∃ t, stringPiece u p = .ok t ∧ t.str u = shownLiteral p := by
    intro p hne hs hp
    obtain ⟨t, h1, h2⟩ := toParsedToken_str hu hs hp
    have hsp : isSpaces p = false := by
      rw [isSpaces, Bool.and_eq_false_iff]
      right
      cases p with
      | nil => exact absurd rfl hne
      | cons c r => simp at hs; simp [Ne.symm hs.1]
    refine ⟨t, by rw [stringPiece, hsp]; exact h1, ?_⟩
    rw [h2, shownLiteral, nbsp_id (lowerNumber_noSpace hs)]
  induction h with
  | nil => exact ⟨[], rfl, rfl⟩
  | @word w r ps hw hall _ _ ih =>
    refine step (piece hw ?_ (.inl ?_)) (ih fun c hc => ha c (by simp [hc]))
    · intro hsp
      have := hall ' ' hsp
      rw [reWord_space hu] at this
      exact absurd this (by simp)
    · intro c hc
      exact ha c (by simp [hc]) (hall c hc)
  | @char c r ps h1 h2 _ ih =>
    refine step (piece (by simp) ?_ (.inr ⟨c, rfl, h2⟩)) (ih fun c hc => ha c (by simp [hc]))
    simpa using fun e => h1 e.symm
  | @spaces n r ps _ _ ih =>
    refine step ⟨.spaceInString (n + 1), ?_, ?_⟩ (ih fun c hc => ha c (by simp [hc]))
    · have : isSpaces (List.replicate (n + 1) ' ') = true := by simp [isSpaces]
      rw [stringPiece, this]
      simp
    · have hn : isNumber (List.replicate (n + 1) ' ') = false := by
        rw [← Bool.not_eq_true]
        intro hn
        exact isNumber_noSpace ((isNumber_iff _).mp hn) (by simp)
      rw [Tok.str, Tok.plain, pyJoin_single, shownLiteral, lowerNumber_not hn, nbsp]
      simp [Ph.spaceInStr, List.map_replicate]

end Verif
