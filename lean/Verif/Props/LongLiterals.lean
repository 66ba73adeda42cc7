import Verif.Props.AnyText
/-!
# String literals without a limit (C21)
-/
namespace Verif.Props
open Verif Spec

/-- Limits that are ignored are those of the largest size there is. -/
theorem limitOf_large {m : Int} (h : 62 ≤ m ∨ m < 0) : limitOf m = 2 ^ 63 - 1 := by
  unfold limitOf
  rw [if_neg (by omega), if_neg (by omega)]
  rfl

theorem one_literal {u : Ucd} (hu : u.Laws) {nu : Bool} {o : PieceOpts} {ty : TokType} {v : Str} {ps : List Piece} (hk : kindOf ty = .string)
    (hb : ∃ c ∈ v, u.space c = false) (hs : o.noStr = false) (hf : o.literals ≠ .split) (h : DescribedAny u nu o (ty, v) ps) :
    (v.length ≤ o.limit ∧ ∃ qs xs x, LiteralSplit u v qs ∧ ShownLiterals u qs xs ∧ (nu = false → x = xs.flatten) ∧
        (nu = true → HiddenText xs.flatten x) ∧ ps = [⟨.stringLiteral, x, .literal⟩]) ∨
      (o.limit < v.length ∧ ps = [⟨.stringLiteral, "\"\"".toList, if o.literals = .full then .constant else .quotes⟩]) := by
  obtain ⟨c, hc, hc'⟩ := hb
  have nb : ¬ ∀ c ∈ v, u.space c = true := fun h => by rw [h c hc] at hc'; cases hc'
  have no : ∀ {k}, kindOf ty = k → k ≠ .string → False := fun h1 h2 => h2 (h1.symm.trans hk)
  cases h with
  | same hn h =>
    have hl : o.limit < v.length := by
      rcases hn with hn | hn | hn | hn | ⟨hn | hn, -⟩ | ⟨-, hn | hn⟩
      · exact absurd hn nb
      · exact (no hn (by decide)).elim
      · exact (no hn (by decide)).elim
      · exact (no hn (by decide)).elim
      · exact (no hn (by decide)).elim
      · exact (no hn (by decide)).elim
      · rw [hs] at hn; cases hn
      · exact hn
    refine .inr ⟨hl, ?_⟩
    generalize he : (ty, v) = e at h
    cases h with
    | newline _ =>
      have hv := (Prod.mk.inj he).2
      rw [hv] at hc
      rw [List.mem_singleton.mp hc, hu.space_ascii _ (by decide)] at hc'
      exact absurd hc' (by decide)
    | tab _ =>
      have hv := (Prod.mk.inj he).2
      rw [hv] at hc
      rw [List.mem_singleton.mp hc, hu.space_ascii _ (by decide)] at hc'
      exact absurd hc' (by decide)
    | blank h _ _ => cases he; exact absurd h nb
    | operator _ h => cases he; exact (no h (by decide)).elim
    | number _ h => cases he; exact (no h (by decide)).elim
    | keyword _ h => cases he; exact (no h (by decide)).elim
    | words _ h _ => cases he; exact (no h (by decide)).elim
    | lineComment _ h _ _ => cases he; exact (no h (by decide)).elim
    | blockComment _ h _ _ => cases he; exact (no h (by decide)).elim
    | hiddenLine _ h _ => cases he; exact (no h (by decide)).elim
    | hiddenBlock _ h _ => cases he; exact (no h (by decide)).elim
    | hiddenString _ _ h => rw [hs] at h; cases h
    | long _ _ _ _ => rfl
    | splitLiteral _ _ _ _ h _ => exact absurd h hf
    | wholeLiteral _ _ _ h _ _ => cases he; omega
  | words _ h _ _ => exact (no h (by decide)).elim
  | lineComment _ h _ _ _ => exact (no h (by decide)).elim
  | blockComment _ h _ _ _ => exact (no h (by decide)).elim
  | splitLiteral _ _ _ _ h _ _ => exact absurd h hf
  | wholeLiteral _ _ _ h _ h1 h2 h3 h4 => exact .inl ⟨h, _, _, _, h1, h2, h3, h4, rfl⟩

/-- **C21** Without a limit (a negative one, or one of 62 and more) a string literal that is kept whole is shown in full if it has less than
2 to the 63 characters; only longer ones, which no text has, would be replaced by two quotes. -/
theorem C21_no_limit (env : Env) (hu : env.ucd.Laws) (load : Str → Except PyErr BpeData) (o : CommonOpts) (ho : o.noStr = false)
    (hn : o.noUnicode = false) (hm : 62 ≤ o.maxStrLength ∨ o.maxStrLength < 0) {ty : TokType} (hk : kindOf ty = .string) (v : Str)
    (hb : ∃ c ∈ v, env.ucd.space c = false) :
    (v.length < 2 ^ 63 → ∃ qs xs md, LiteralSplit env.ucd v qs ∧ ShownLiterals env.ucd qs xs ∧
        textApi env load (.nosplit o true) [(ty, v)] false = .ok ([xs.flatten], md)) ∧
      (2 ^ 63 ≤ v.length → ∃ md, textApi env load (.nosplit o true) [(ty, v)] false = .ok (["\"\"".toList], md)) := by
  obtain ⟨m, ps, us, h1, h2, h3, h4⟩ := C56_any env hu load (.nosplit o true) (fun i hi => nomatch hi) [(ty, v)] false
  cases h1
  have hl : (pieceOpts (.nosplit o true)).limit = 2 ^ 63 - 1 := limitOf_large hm
  cases h2 with
  | @cons _ _ ps qs h2 h2' =>
    cases h2'
    rw [List.append_nil] at h3
    have shown : ∀ (p : Piece) (s : Str), ps = [p] → p.ty = .stringLiteral → p.form ≠ .space → SpelledAnyAll env.ucd .nosplit o.noSpaces [p] us →
        (∀ l, SpelledAny env.ucd .nosplit p l → l = [s]) → ∃ md, textApi env load (.nosplit o true) [(ty, v)] false = .ok ([s], md) := by
      intro p s _ _ hf h3 hs
      refine ⟨(outputOf (.nosplit o true) us).2, h4.trans (congrArg Except.ok (Prod.ext ?_ rfl))⟩
      cases h3 with
      | skip _ h _ => exact absurd h hf
      | cons _ h h' =>
        cases h'
        show List.flatMap (fun x : FullTok => if usesBpe (.nosplit o true) then markEnd x.subs else x.subs) _ = [s]
        simp only [usesBpe, Bool.false_eq_true, if_false, List.flatMap_cons, List.flatMap_nil, List.append_nil]
        exact hs _ h
    rcases one_literal hu hk hb ho (show Literals.full ≠ .split by decide) h2 with ⟨hle, qs, xs, x, g1, g2, g3, -, rfl⟩ | ⟨hlt, rfl⟩
    · rw [hl] at hle
      refine ⟨fun _ => ?_, fun h => absurd hle (by omega)⟩
      obtain ⟨md, hmd⟩ := shown _ x rfl rfl (fun h => nomatch h) h3 (by
        intro l hl
        cases hl with
        | same _ h => cases h; rfl)
      rw [g3 hn] at hmd
      exact ⟨qs, xs, md, g1, g2, hmd⟩
    · rw [hl] at hlt
      refine ⟨fun h => absurd hlt (by omega), fun _ => ?_⟩
      exact shown _ _ rfl rfl (show Form.constant ≠ .space by decide) h3 (by
        intro l hl
        cases hl with
        | same _ h => cases h; rfl)

/-- Non-vacuity of `C21_no_limit`: a literal of 100 characters with the limit 62. -/
example : ∃ md, textApi demoEnv (fun _ => .error .keyError) (.nosplit { maxStrLength := 62 } true)
    [(["Literal", "String"], '"' :: List.replicate 98 'a' ++ ['"'])] false = .ok (['"' :: List.replicate 98 'a' ++ ['"']], md) := ⟨_, rfl⟩

end Verif.Props
