import Verif.Proofs.AnyText
import Verif.Props.Reference
/-!
# The output of the text functions for texts with any characters (C56)
-/
namespace Verif.Props
open Verif Spec

theorem anyRc_nosplit {env : Env} (hu : env.ucd.Laws) {o : CommonOpts} {fs : Bool} {v : Str} {bd : Option BpeData}
    {rc : ReprConfig} (hok : RcOk env (configOf (.nosplit o fs) v) bd rc) (h0 : o.noStr = true → v = ['0'])
    (h1 : o.noStr = false → v ≠ ['0'] ∧ getMaxStrLength v = .ok (some (limitOf o.maxStrLength))) :
    AnyRc env.ucd rc .nosplit o.noSpaces o.noUnicode (pieceOpts (.nosplit o fs)) := by
  have hty : ∀ t ∈ [Ty.splitContainer, .word, .number, .underscore], t ∉ rc.types := by
    intro t ht
    rw [hok.types, typesToBeRepr_mem]
    simp only [List.mem_cons, List.not_mem_nil, or_false] at ht
    rcases ht with rfl | rfl | rfl | rfl <;> cases fs <;> simp [configOf, splitCode]
  refine ⟨modeRc_nosplit hu hok h0 h1, ?_, ?_⟩
  · intro s ps ws g1 g2
    refine ⟨_, .wordWhole g1, ?_⟩
    rw [splitUnits, if_neg (hty _ (by decide)), subtoksJoin_plain (hty _ (by decide)) (hty _ (by decide)), splitStr_any hu g1 g2]
    rfl
  · intro h
    cases fs <;> simp [pieceOpts] at h

theorem anyRc_basic {env : Env} (hu : env.ucd.Laws) {o : CommonOpts} {sn ro st nc : Bool} {v : Str} {bd : Option BpeData}
    {rc : ReprConfig} (hok : RcOk env (configOf (.basic o sn ro st nc) v) bd rc) (h0 : o.noStr = true → v = ['0'])
    (h1 : o.noStr = false → v ≠ ['0'] ∧ getMaxStrLength v = .ok (some (limitOf o.maxStrLength))) :
    AnyRc env.ucd rc (.basic (sn || ro || st) (wordParts env ro st) nc) o.noSpaces o.noUnicode
      (pieceOpts (.basic o sn ro st nc)) := by
  have hw := wordRc_all hok
  refine ⟨modeRc_basic hu hok h0 h1, ?_, fun _ => hw.container⟩
  intro s ps ws g1 g2
  refine ⟨_, .wordBasic g1, ?_⟩
  rw [splitUnits, if_pos hw.container, hw.bpe]
  simp only [Bool.false_eq_true, if_false, bind, Except.bind]
  rw [subtoksRepr_any hu hw (identSplit_ne_nil g1) g2]
  simp only [List.nil_append]
  rw [wrap_eq]

theorem anyRc_bpe {env : Env} (hu : env.ucd.Laws) {call : ApiCall} (hb : usesBpe call = true) {v : Str} {d : BpeData}
    (hd : CacheOk d) {rc : ReprConfig} (hok : RcOk env (configOf call v) (some d) rc)
    (h0 : (optsOf call).noStr = true → v = ['0'])
    (h1 : (optsOf call).noStr = false → v ≠ ['0'] ∧ getMaxStrLength v = .ok (some (limitOf (optsOf call).maxStrLength))) :
    AnyRc env.ucd rc (.bpe d) (optsOf call).noSpaces (optsOf call).noUnicode (pieceOpts call) := by
  have hm := modeRc_bpe hu hb hd hok h0 h1
  have hlit : (pieceOpts call).literals = .bpe := by
    cases call <;> first | rfl | cases hb
  have hsc : (configOf call v).split ∈ [['4'], ['5'], ['6'], ['8'], ['9']] := by
    cases call with
    | chars o => simp [configOf, splitCode]
    | bpe i o =>
      simp only [configOf, splitCode]
      repeat' split
      all_goals simp
    | _ => cases hb
  have hty : Ty.splitContainer ∈ rc.types := by
    rw [hok.types, typesToBeRepr_mem]
    simp only [List.mem_cons, List.not_mem_nil, or_false] at hsc
    rcases hsc with h | h | h | h | h <;> simp [h]
  refine ⟨hm, ?_, fun _ => hty⟩
  intro s ps ws g1 g2
  obtain ⟨l, h2, h3, -⟩ := hm.literal (by rw [hlit]; simp) (ps.map (recased env.ucd)).flatten
  cases h2 with
  | literalBpe hl =>
    refine ⟨l, .wordBpe g1 hl, ?_⟩
    rw [splitUnits, if_pos hty, if_pos (hm.bpe.mpr hlit), splitStr_any hu g1 g2, h3 hlit]
    rfl

theorem finish_any {env : Env} (hu : env.ucd.Laws) {call : ApiCall} {v : Str} (hv : (configOf call v).Valid) {m : Mode}
    {bd : Option BpeData}
    (hrc : ∀ rc, RcOk env (configOf call v) bd rc →
      AnyRc env.ucd rc m (optsOf call).noSpaces (optsOf call).noUnicode (pieceOpts call))
    {ts : List Tok} {ps : List Piece} (h : AnyParsedAll env.ucd (optsOf call).noUnicode (pieceOpts call) ts ps) :
    ∃ us, SpelledAnyAll env.ucd m (optsOf call).noSpaces ps us ∧ toRepr env (configOf call v) ts bd = .ok (outputOf call us) := by
  obtain ⟨rc, hok, hr⟩ := toRepr_eq (env := env) hv ts bd
  obtain ⟨us, h1, h2⟩ := anyParsedAll_units hu (hrc rc hok) h
  refine ⟨us, h1, ?_⟩
  rw [hr, h2, isBpe_iff]
  simp only [Except.map, outputOf, Except.ok.injEq, Prod.mk.injEq, and_true]
  cases usesBpe call with
  | true =>
    simp only [if_true, List.map_map, List.flatMap]
    congr 1
    exact List.map_congr_left fun x _ => markLast_eq x.subs
  | false => simp [List.flatMap]

/-- **C56** For every call and every text, whatever its characters, the output and the metadata are those of the reference
description: the pieces of the text, one after the other, without a newline at the end, each of them spelled as the mode says. -/
theorem C56_any (env : Env) (hu : env.ucd.Laws) (load : Str → Except PyErr BpeData) (call : ApiCall)
    (hl : ∀ i, apiBpeCodesId call = some i → i ≠ [] ∧ ∃ d, load i = .ok d ∧ CacheOk d)
    (lexed : List (TokType × Str)) (eof : Bool) :
    ∃ m ps us, ModeOf env load call m ∧ DescribedAnyAll env.ucd (optsOf call).noUnicode (pieceOpts call) lexed ps ∧
      SpelledAnyAll env.ucd m (optsOf call).noSpaces (finishPieces eof ps) us ∧
      textApi env load call lexed eof = .ok (outputOf call us) := by
  obtain ⟨v, hv, hvp, h0, h1⟩ := strValue (optsOf call).noStr (optsOf call).maxStrLength
  have hc := (textConfig_eq call hv hvp).1
  have hcv := configOf_valid call hvp
  obtain ⟨ts, ps, h2, h3, h4⟩ := convertText_anyPieces hu (optsOf call).noUnicode (pieceOpts call) lexed
  have h5 := anyParsedAll_finish eof h4
  suffices h : ∃ m us, ModeOf env load call m ∧ SpelledAnyAll env.ucd m (optsOf call).noSpaces (finishPieces eof ps) us ∧
      preprocessText env load lexed (configOf call v) (apiBpeCodesId call) eof = .ok (outputOf call us) by
    obtain ⟨m, us, g1, g2, g3⟩ := h
    refine ⟨m, ps, us, g1, h3, g2, ?_⟩
    unfold textApi
    rw [hc]
    exact g3
  unfold preprocessText
  simp only [h2, bind, Except.bind, isBpe_iff]
  have bpe : ∀ i, apiBpeCodesId call = some i → usesBpe call = true →
      ∃ d us ch r, load i = .ok d ∧ i = ch :: r ∧
        SpelledAnyAll env.ucd (.bpe d) (optsOf call).noSpaces (finishPieces eof ps) us ∧
        toRepr env (configOf call v) (finishParsed ts eof) (some d) = .ok (outputOf call us) := by
    intro i hi hb
    obtain ⟨hne, d, hd, hcd⟩ := hl i hi
    obtain ⟨us, g1, g2⟩ := finish_any hu hcv (m := .bpe d) (bd := some d) (fun rc hok => anyRc_bpe hu hb hcd hok h0 h1) h5
    cases i with
    | nil => exact absurd rfl hne
    | cons ch r => exact ⟨d, us, ch, r, hd, rfl, g1, g2⟩
  cases call with
  | nosplit o fs =>
    obtain ⟨us, g1, g2⟩ := finish_any hu hcv (m := .nosplit) (bd := none) (fun rc hok => anyRc_nosplit hu hok h0 h1) h5
    exact ⟨_, us, .nosplit, g1, g2⟩
  | basic o sn ro st nc =>
    obtain ⟨us, g1, g2⟩ := finish_any hu hcv (bd := none) (fun rc hok => anyRc_basic hu hok h0 h1) h5
    exact ⟨_, us, .basic, g1, g2⟩
  | chars o =>
    obtain ⟨d, us, ch, r, g1, g2, g3, g4⟩ := bpe _ rfl rfl
    refine ⟨_, us, .chars g1, g3, ?_⟩
    rw [if_pos (show usesBpe (.chars o) = true from rfl), show apiBpeCodesId (.chars o) = some (ch :: r) from congrArg some g2]
    rw [g2] at g1
    simp only [g1, g4]
  | bpe i o =>
    obtain ⟨d, us, ch, r, g1, g2, g3, g4⟩ := bpe _ rfl rfl
    refine ⟨_, us, .bpe g1, g3, ?_⟩
    rw [if_pos (show usesBpe (.bpe i o) = true from rfl), show apiBpeCodesId (.bpe i o) = some (ch :: r) from congrArg some g2]
    rw [g2] at g1
    simp only [g1, g4]

/-! ## The description leaves no choice -/

theorem identSplit_unique {u : Ucd} (hu : u.Laws) {s : Str} {ps qs : List Str} (h1 : IdentSplit u s ps) (h2 : IdentSplit u s qs) :
    ps = qs := ((identSplit_iff hu _ _).mp h1).symm.trans ((identSplit_iff hu _ _).mp h2)

theorem textSplit_unique {u : Ucd} (hu : u.Laws) {s : Str} {ps qs : List Str} (h1 : TextSplit u s ps) (h2 : TextSplit u s qs) :
    ps = qs := ((textSplit_iff hu _ _).mp h1).symm.trans ((textSplit_iff hu _ _).mp h2)

theorem literalSplit_unique {u : Ucd} (hu : u.Laws) {s : Str} {ps qs : List Str} (h1 : LiteralSplit u s ps)
    (h2 : LiteralSplit u s qs) : ps = qs := ((literalSplit_iff hu _ _).mp h1).symm.trans ((literalSplit_iff hu _ _).mp h2)

theorem anyPiece_unique {u : Ucd} (hu : u.Laws) {nu : Bool} {o : PieceOpts} {p : Str} {q r : Piece} (h1 : AnyPiece u nu o p q)
    (h2 : AnyPiece u nu o p r) : q = r := by
  cases h1 with
  | plain a =>
    cases h2 with
    | plain => rfl
    | hidden b1 b2 b3 _ => exact absurd (a b1 b2) b3
    | replaced b1 b2 b3 _ _ _ => exact absurd (a b1 b2) b3
  | hidden a1 a2 a3 a4 =>
    cases h2 with
    | plain b => exact absurd (b a1 a2) a3
    | hidden => rfl
    | replaced _ _ _ b4 _ _ => exact absurd b4 a4
  | replaced a1 a2 a3 a4 a5 a6 =>
    cases h2 with
    | plain b => exact absurd (b a1 a2) a3
    | hidden _ _ _ b4 => exact absurd a4 b4
    | replaced _ _ _ _ b5 b6 =>
      obtain rfl := identSplit_unique hu a5 b5
      rw [C46_spec_deterministic _ _ _ _ a6 b6]

theorem anyPieces_unique {u : Ucd} (hu : u.Laws) {nu : Bool} {o : PieceOpts} {ps : List Str} {qs rs : List Piece}
    (h1 : AnyPieces u nu o ps qs) (h2 : AnyPieces u nu o ps rs) : qs = rs := by
  induction h1 generalizing rs with
  | nil => cases h2; rfl
  | cons a _ ih =>
    cases h2 with
    | cons c d => rw [anyPiece_unique hu a c, ih d]

theorem shownPiece_unique {u : Ucd} (hu : u.Laws) {p x y : Str} (h1 : ShownPiece u p x) (h2 : ShownPiece u p y) : x = y := by
  cases h1 with
  | identifier a1 a2 a3 =>
    cases h2 with
    | identifier _ _ b3 => rw [identSplit_unique hu a3 b3]
    | number b => exact absurd b a2
    | other b1 b2 =>
      obtain ⟨c, hc, hf⟩ := b1
      rw [a1 c hc] at hf
      cases hf
  | number a =>
    cases h2 with
    | identifier _ b _ => exact absurd a b
    | number => rfl
    | other _ b => exact absurd a b
  | other a1 a2 =>
    cases h2 with
    | identifier b1 _ _ =>
      obtain ⟨c, hc, hf⟩ := a1
      rw [b1 c hc] at hf
      cases hf
    | number b => exact absurd b a2
    | other => rfl

theorem shownLiterals_unique {u : Ucd} (hu : u.Laws) {ps xs ys : List Str} (h1 : ShownLiterals u ps xs) (h2 : ShownLiterals u ps ys) :
    xs = ys := by
  induction h1 generalizing ys with
  | nil => cases h2; rfl
  | @spaces n ps xs _ ih =>
    generalize hq : List.replicate (n + 1) ' ' :: ps = q at h2
    cases h2 with
    | nil => cases hq
    | @spaces m ps' ys g =>
      injection hq with e1 e2
      subst e2
      have : n + 1 = m + 1 := by simpa using congrArg List.length e1
      rw [ih g, this]
    | piece g1 _ _ =>
      injection hq with e1 e2
      exact absurd (by rw [← e1]; simp) g1
  | @piece p x ps xs a b _ ih =>
    generalize hq : p :: ps = q at h2
    cases h2 with
    | nil => cases hq
    | spaces g =>
      injection hq with e1 e2
      exact absurd (by rw [e1]; simp) a
    | piece g1 g2 g3 =>
      injection hq with e1 e2
      subst e1; subst e2
      rw [shownPiece_unique hu b g2, ih g3]

theorem not_noWords {u : Ucd} {o : PieceOpts} {e : TokType × Str} (h : NoWords u o e) (hb : ∃ c ∈ e.2, u.space c = false) :
    (kindOf e.1 ≠ .words) ∧ (kindOf e.1 = .lineComment ∨ kindOf e.1 = .blockComment → o.noCom = true) ∧
      (kindOf e.1 = .string → o.noStr = false → o.limit < e.2.length) := by
  have hnb : ¬ ∀ c ∈ e.2, u.space c = true := by
    intro h
    obtain ⟨c, hc, hf⟩ := hb
    rw [h c hc] at hf
    cases hf
  rcases h with h | h | h | h | ⟨h1, h2⟩ | ⟨h1, h2⟩
  · exact absurd h hnb
  · simp [h]
  · simp [h]
  · simp [h]
  · rcases h1 with h1 | h1 <;> simp [h1, h2]
  · refine ⟨by simp [h1], by simp [h1], fun _ hn => ?_⟩
    rcases h2 with h2 | h2
    · rw [hn] at h2; cases h2
    · exact h2

theorem describedAny_unique {u : Ucd} (hu : u.Laws) {nu : Bool} {o : PieceOpts} {e : TokType × Str} {ps qs : List Piece}
    (h1 : DescribedAny u nu o e ps) (h2 : DescribedAny u nu o e qs) : ps = qs := by
  have key : ∀ {e : TokType × Str} {qs : List Piece}, NoWords u o e → DescribedAny u nu o e qs → Described u o e qs := by
    intro e qs h1 h2
    cases h2 with
    | same _ h => exact h
    | words b1 b2 _ _ => exact absurd b2 (not_noWords h1 b1).1
    | lineComment b1 b2 b3 _ _ =>
      have := (not_noWords h1 b1).2.1 (.inl b2)
      rw [b3] at this
      cases this
    | blockComment b1 b2 b3 _ _ =>
      have := (not_noWords h1 b1).2.1 (.inr b2)
      rw [b3] at this
      cases this
    | splitLiteral b1 b2 b3 b4 _ _ _ => exact absurd ((not_noWords h1 b1).2.2 b2 b3) (Nat.not_lt.mpr b4)
    | wholeLiteral b1 b2 b3 b4 _ _ _ _ _ => exact absurd ((not_noWords h1 b1).2.2 b2 b3) (Nat.not_lt.mpr b4)
  cases h1 with
  | same a1 a2 => rw [described_eq hu a2, described_eq hu (key a1 h2)]
  | words a1 a2 a3 a4 =>
    cases h2 with
    | same b1 b2 => exact absurd a2 (not_noWords b1 a1).1
    | words _ _ b3 b4 =>
      obtain rfl := textSplit_unique hu a3 b3
      exact anyPieces_unique hu a4 b4
    | _ => rename_i b2 _ _; simp_all
  | lineComment a1 a2 a3 a4 a5 =>
    cases h2 with
    | same b1 b2 =>
      have := (not_noWords b1 a1).2.1 (.inl a2)
      rw [a3] at this
      cases this
    | lineComment _ _ _ b4 b5 =>
      obtain rfl := textSplit_unique hu a4 b4
      rw [anyPieces_unique hu a5 b5]
    | words _ b2 _ _ => rw [a2] at b2; cases b2
    | blockComment _ b2 _ _ _ => rw [a2] at b2; cases b2
    | splitLiteral _ b2 _ _ _ _ _ => rw [a2] at b2; cases b2
    | wholeLiteral _ b2 _ _ _ _ _ _ _ => rw [a2] at b2; cases b2
  | blockComment a1 a2 a3 a4 a5 =>
    cases h2 with
    | same b1 b2 =>
      have := (not_noWords b1 a1).2.1 (.inr a2)
      rw [a3] at this
      cases this
    | blockComment _ _ _ b4 b5 =>
      obtain rfl := textSplit_unique hu a4 b4
      rw [anyPieces_unique hu a5 b5]
    | words _ b2 _ _ => rw [a2] at b2; cases b2
    | lineComment _ b2 _ _ _ => rw [a2] at b2; cases b2
    | splitLiteral _ b2 _ _ _ _ _ => rw [a2] at b2; cases b2
    | wholeLiteral _ b2 _ _ _ _ _ _ _ => rw [a2] at b2; cases b2
  | splitLiteral a1 a2 a3 a4 a5 a6 a7 =>
    cases h2 with
    | same b1 b2 => exact absurd ((not_noWords b1 a1).2.2 a2 a3) (Nat.not_lt.mpr a4)
    | splitLiteral _ _ _ _ _ b6 b7 =>
      obtain rfl := literalSplit_unique hu a6 b6
      rw [anyPieces_unique hu a7 b7]
    | words _ b2 _ _ => rw [a2] at b2; cases b2
    | lineComment _ b2 _ _ _ => rw [a2] at b2; cases b2
    | blockComment _ b2 _ _ _ => rw [a2] at b2; cases b2
    | wholeLiteral _ _ _ _ b5 _ _ _ _ => exact absurd a5 b5
  | wholeLiteral a1 a2 a3 a4 a5 a6 a7 a8 a9 =>
    cases h2 with
    | same b1 b2 => exact absurd ((not_noWords b1 a1).2.2 a2 a3) (Nat.not_lt.mpr a4)
    | splitLiteral _ _ _ _ b5 _ _ => exact absurd b5 a5
    | words _ b2 _ _ => rw [a2] at b2; cases b2
    | lineComment _ b2 _ _ _ => rw [a2] at b2; cases b2
    | blockComment _ b2 _ _ _ => rw [a2] at b2; cases b2
    | wholeLiteral _ _ _ _ _ b6 b7 b8 b9 =>
      obtain rfl := literalSplit_unique hu a6 b6
      obtain rfl := shownLiterals_unique hu a7 b7
      cases nu with
      | false => rw [a8 rfl, b8 rfl]
      | true => rw [hiddenText_unique (a9 rfl) (b9 rfl)]

theorem describedAnyAll_unique {u : Ucd} (hu : u.Laws) {nu : Bool} {o : PieceOpts} {l : List (TokType × Str)} {ps qs : List Piece}
    (h1 : DescribedAnyAll u nu o l ps) (h2 : DescribedAnyAll u nu o l qs) : ps = qs := by
  induction h1 generalizing qs with
  | nil => cases h2; rfl
  | cons a b ih =>
    cases h2 with
    | cons c d => rw [ih d, describedAny_unique hu a c]

theorem spelledAny_unique {u : Ucd} (hu : u.Laws) {m : Mode} {p : Piece} {k l : List Str} (h1 : SpelledAny u m p k)
    (h2 : SpelledAny u m p l) : k = l := by
  cases h1 with
  | same a b =>
    cases h2 with
    | same _ d => exact spelled_unique hu b d
    | _ => exact absurd rfl a
  | wordWhole a =>
    cases h2 with
    | same b _ => exact absurd rfl b
    | wordWhole b => rw [identSplit_unique hu a b]
  | wordBasic a =>
    cases h2 with
    | same b _ => exact absurd rfl b
    | wordBasic b => rw [identSplit_unique hu a b]
  | wordBpe a c =>
    cases h2 with
    | same b _ => exact absurd rfl b
    | wordBpe b d =>
      obtain rfl := identSplit_unique hu a b
      rw [c] at d
      exact Except.ok.inj d

theorem spelledAnyAll_unique {u : Ucd} (hu : u.Laws) {m : Mode} {b : Bool} {ps : List Piece} {us vs : List FullTok}
    (h1 : SpelledAnyAll u m b ps us) (h2 : SpelledAnyAll u m b ps vs) : us = vs := by
  induction h1 generalizing vs with
  | nil => cases h2; rfl
  | skip a c _ ih =>
    cases h2 with
    | skip _ _ g => exact ih g
    | cons g _ _ => rcases g with g | g
                    · rw [a] at g; cases g
                    · exact absurd c g
  | cons a c _ ih =>
    cases h2 with
    | skip g1 g2 _ => rcases a with a | a
                      · rw [a] at g1; cases g1
                      · exact absurd g2 a
    | cons _ g1 g2 => rw [ih g2, spelledAny_unique hu c g1]

/-- **C56** Whatever fits the reference description is the output. -/
theorem C56_any_unique (env : Env) (hu : env.ucd.Laws) (load : Str → Except PyErr BpeData) (call : ApiCall)
    (hl : ∀ i, apiBpeCodesId call = some i → i ≠ [] ∧ ∃ d, load i = .ok d ∧ CacheOk d)
    (lexed : List (TokType × Str)) (eof : Bool)
    {m : Mode} {ps : List Piece} {us : List FullTok} (h1 : ModeOf env load call m)
    (h2 : DescribedAnyAll env.ucd (optsOf call).noUnicode (pieceOpts call) lexed ps)
    (h3 : SpelledAnyAll env.ucd m (optsOf call).noSpaces (finishPieces eof ps) us) :
    textApi env load call lexed eof = .ok (outputOf call us) := by
  obtain ⟨m', ps', us', g1, g2, g3, g4⟩ := C56_any env hu load call hl lexed eof
  obtain rfl := modeOf_unique h1 g1
  obtain rfl := describedAnyAll_unique hu h2 g2
  obtain rfl := spelledAnyAll_unique hu h3 g3
  exact g4

/-! ## Examples -/

/-- `Größe` and the literal `"ää b"`. -/
def anyTokens : List (TokType × Str) :=
  [(["Name"], "Größe".toList), (["Literal", "String"], "\"ää b\"".toList), (["Text"], "\n".toList)]

theorem anyWord : IsIdentifier demoEnv.ucd "Größe".toList :=
  ⟨by decide, by decide, by rw [← isNumber_iff]; decide⟩

theorem anyLiteral : LiteralSplit demoEnv.ucd "\"ää b\"".toList [['"'], "ää".toList, [' '], ['b'], ['"']] :=
  (literalSplit_iff asciiUcd_laws _ _).mpr (by decide +kernel)

theorem anyShown : ShownLiterals demoEnv.ucd [['"'], "ää".toList, [' '], ['b'], ['"']] [['"'], "ää".toList, ['\u00a0'], ['b'], ['"']] := by
  have quote : ShownPiece demoEnv.ucd ['"'] ['"'] := .other ⟨'"', by simp, by decide⟩ (by rw [← isNumber_iff]; decide)
  have word : ∀ (w : Str) (qs : List Str), (∀ c ∈ w, demoEnv.ucd.reWord c = true) → isNumber w = false →
      IdentSplit demoEnv.ucd w qs → (qs.map (recased demoEnv.ucd)).flatten = w → ShownPiece demoEnv.ucd w w := by
    intro w qs h1 h2 h3 h4
    have := ShownPiece.identifier h1 (by rw [← isNumber_iff, h2]; simp) h3
    rwa [h4] at this
  refine .piece (by decide) quote (.piece (by decide) (word _ [['ä'], ['ä']] (by decide) (by decide) ?_ (by decide)) (.spaces (n := 0) (.piece (by decide)
    (word _ [['b']] (by decide) (by decide) ?_ (by decide)) (.piece (by decide) quote .nil))))
  · exact (identSplit_iff asciiUcd_laws _ _).mpr (by decide +kernel)
  · exact (identSplit_iff asciiUcd_laws _ _).mpr (by decide +kernel)

/-- Non-vacuity of C56 for other characters: `nosplit(text, no_unicode=True, full_strings=True)` delivers `<non-en>` for the word
and the literal with `÷` for its two umlauts. -/
example : textApi demoEnv (fun _ => .error .keyError) (.nosplit { noUnicode := true } true) anyTokens false =
    .ok (outputOf (.nosplit { noUnicode := true } true)
      [⟨.nonEng, ["<non-en>".toList], []⟩, ⟨.stringLiteral, ["\"÷".toList ++ '\u00a0' :: "b\"".toList], []⟩]) := by
  have hd : DescribedAnyAll demoEnv.ucd true (pieceOpts (.nosplit { noUnicode := true } true)) anyTokens
      [⟨.nonEng, "<non-en>".toList, .constant⟩, ⟨.stringLiteral, "\"÷".toList ++ '\u00a0' :: "b\"".toList, .literal⟩,
        ⟨.newLine, "\n".toList, .space⟩] := by
    refine .cons (ps := [_]) ?_ (.cons (ps := [_]) ?_ (.cons (ps := [_]) (.same (.inl (by decide)) (.newline _)) .nil))
    · exact .words (ps := ["Größe".toList]) (by decide) (by decide) ((textSplit_iff asciiUcd_laws _ _).mpr (by decide +kernel))
        (.cons (.hidden anyWord rfl (by unfold AllAscii; decide) (by decide)) .nil)
    · refine .wholeLiteral (by decide) (by decide) rfl (by decide) (by decide) anyLiteral anyShown (by simp) fun _ => ?_
      exact .keep (.inl (by decide)) (.run (r := "ää".toList) (by decide) (by decide) (by decide)
        (.keep (.inr rfl) (.keep (.inl (by decide)) (.keep (.inl (by decide)) .nil))))
  refine C56_any_unique demoEnv asciiUcd_laws _ _ ?_ _ _ .nosplit hd ?_
  · intro i hi; cases hi
  · exact .cons (.inl rfl) (.same (by decide) .constant) (.cons (.inl rfl) (.same (by decide) .literalWhole) .nil)

/-- The same word with `basic(text, no_case=True)`: the first letter is made small and marked, and every other character of the
word stays as it is. -/
example : SpelledAny demoEnv.ucd (.basic false (wordParts demoEnv false false) true) ⟨.splitContainer, "Größe".toList, .word⟩
    ["<w>".toList, "<Cap>".toList, "gr".toList, "ö".toList, "ß".toList, "e".toList, "</w>".toList] := by
  have := SpelledAny.wordBasic (u := demoEnv.ucd) (sn := false) (f := wordParts demoEnv false false) (nc := true)
    (ty := .splitContainer) (s := "Größe".toList) (ps := ["Gr".toList, "ö".toList, "ß".toList, "e".toList])
    ((identSplit_iff asciiUcd_laws _ _).mpr (by decide +kernel))
  rwa [show wrapWord (List.flatMap (markAny demoEnv.ucd (wordParts demoEnv false false) true)
    ["Gr".toList, "ö".toList, "ß".toList, "e".toList]) =
    ["<w>".toList, "<Cap>".toList, "gr".toList, "ö".toList, "ß".toList, "e".toList, "</w>".toList] by decide +kernel] at this

end Verif.Props
