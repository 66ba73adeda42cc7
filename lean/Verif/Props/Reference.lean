import Verif.Proofs.Reference
import Verif.Props.Marks
/-!
# The output of the text functions, completely (C56)
-/
namespace Verif.Props
open Verif Spec

theorem limitOf_value (m : Int) : ∃ v, createStrValue false m = .ok v ∧ v ∈ possibleStrValues ∧
    getMaxStrLength v = .ok (some (limitOf m)) ∧ v ≠ ['0'] := by
  have hl : possibleStrValues.length = 62 := by decide +kernel
  unfold limitOf
  by_cases h2 : 0 ≤ m ∧ m < 2
  · rw [if_pos h2]
    refine ⟨['2'], ?_, by decide +kernel, by decide +kernel, by decide⟩
    unfold createStrValue
    rw [if_neg (by decide), if_pos h2]
  · rw [if_neg h2]
    by_cases h62 : 2 ≤ m ∧ m < 62
    · rw [if_pos h62]
      obtain ⟨v, h1, h3, h4, h5⟩ := limit_decoded m.toNat (by omega) (by omega)
      have e : ((m.toNat : Nat) : Int) = m := by omega
      rw [e] at h1
      exact ⟨v, h1, h3, h4, h5⟩
    · rw [if_neg h62]
      refine ⟨['1'], ?_, by decide +kernel, by decide +kernel, by decide⟩
      unfold createStrValue
      rw [if_neg (by decide), if_neg h2, if_neg (by rw [hl]; exact h62)]

theorem strValue (noStr : Bool) (m : Int) : ∃ v, createStrValue noStr m = .ok v ∧ v ∈ possibleStrValues ∧
    (noStr = true → v = ['0']) ∧ (noStr = false → v ≠ ['0'] ∧ getMaxStrLength v = .ok (some (limitOf m))) := by
  cases noStr with
  | true => exact ⟨['0'], rfl, by decide +kernel, fun _ => rfl, by simp⟩
  | false =>
    obtain ⟨v, h1, h2, h3, h4⟩ := limitOf_value m
    exact ⟨v, h1, h2, by simp, fun _ => ⟨h4, h3⟩⟩

theorem splitStr_pieces {u : Ucd} (hu : u.Laws) {s : Str} {ps : List Str} {ws : List Subtok} (h1 : IdentSplit u s ps)
    (h2 : Pieces ps ws) (hs : ' ' ∉ s) : splitStr u ws = s := by
  rw [splitStr, h2.strs hu, concat_eq_flatten, identSplit_flatten h1 hs]

theorem subtoksJoin_plain {u : Ucd} {rc : ReprConfig} (h1 : Ty.word ∉ rc.types) (h2 : Ty.underscore ∉ rc.types)
    (ws : List Subtok) : subtoksJoin u rc ws = .ok (splitStr u ws) := by
  induction ws with
  | nil => rfl
  | cons w r ih =>
    have hw : w.repr u rc = .ok [w.str u] := by
      cases w with
      | underscore => rw [Subtok.repr, if_neg h2]; rfl
      | word c cap => rw [Subtok.repr, if_neg h1]; rfl
    simp only [subtoksJoin, hw, bind, Except.bind, ih]
    rfl

/-- The parts of `ModeRc` that do not depend on the splitting mode. -/
theorem modeRc_of {env : Env} {call : ApiCall} {v : Str} {bd : Option BpeData} {rc : ReprConfig} {m : Mode}
    (hok : RcOk env (configOf call v) bd rc) (h0 : (optsOf call).noStr = true → v = ['0'])
    (h1 : (optsOf call).noStr = false → v ≠ ['0'] ∧ getMaxStrLength v = .ok (some (limitOf (optsOf call).maxStrLength)))
    (hfull : rc.fullStrings = true ↔ (pieceOpts call).literals = .full)
    (hbpe : rc.bpe = true ↔ (pieceOpts call).literals = .bpe)
    (number : ∀ v, v ≠ [] → ∃ l, Spelled env.ucd m ⟨.number, v, .number⟩ l ∧ numberUnits rc .number v = .ok [⟨.number, l, []⟩])
    (word : ∀ s ps ws, IdentSplit env.ucd s ps → Pieces ps ws → ' ' ∉ s →
      ∃ l, Spelled env.ucd m ⟨.splitContainer, s, .word⟩ l ∧ splitUnits env.ucd rc ws = .ok [⟨.splitContainer, l, []⟩])
    (literal : (pieceOpts call).literals ≠ .split → ∀ s, ∃ l, Spelled env.ucd m ⟨.stringLiteral, s, .literal⟩ l ∧
      ((pieceOpts call).literals = .bpe → rc.splitWord s = .ok l) ∧ ((pieceOpts call).literals = .full → l = [s])) :
    ModeRc env.ucd rc m (optsOf call).noSpaces (optsOf call).noUnicode (pieceOpts call) where
  newLine := by rw [hok.types, typesToBeRepr_mem]; cases hn : (optsOf call).noSpaces <;> simp [configOf, hn]
  tab := by rw [hok.types, typesToBeRepr_mem]; cases hn : (optsOf call).noSpaces <;> simp [configOf, hn]
  never := by
    intro t ht
    rw [hok.types, typesToBeRepr_mem]
    simp only [List.mem_cons, List.not_mem_nil, or_false] at ht
    rcases ht with rfl | rfl | rfl | rfl | rfl | rfl | rfl | rfl | rfl | rfl | rfl <;> simp
  oneLine := by
    rw [hok.types, typesToBeRepr_mem]
    cases hn : (optsOf call).noCom <;> simp [configOf, pieceOpts, hn]
  multiLine := by
    rw [hok.types, typesToBeRepr_mem]
    cases hn : (optsOf call).noCom <;> simp [configOf, pieceOpts, hn]
  string := by
    rw [hok.types, typesToBeRepr_mem]
    cases hn : (optsOf call).noStr with
    | true => simp [configOf, pieceOpts, hn, h0 hn]
    | false => simp [configOf, pieceOpts, hn, (h1 hn).1]
  nonEng := by rw [hok.types, typesToBeRepr_mem]; cases hn : (optsOf call).noUnicode <;> simp [configOf, hn]
  max := by
    intro hn
    have := hok.maxLen
    have e : (configOf call v).str = v := rfl
    rw [e, (h1 hn).2] at this
    exact (Except.ok.inj this).symm
  full := hfull
  bpe := hbpe
  number := number
  word := word
  literal := literal

theorem modeRc_nosplit {env : Env} (hu : env.ucd.Laws) {o : CommonOpts} {fs : Bool} {v : Str} {bd : Option BpeData}
    {rc : ReprConfig} (hok : RcOk env (configOf (.nosplit o fs) v) bd rc) (h0 : o.noStr = true → v = ['0'])
    (h1 : o.noStr = false → v ≠ ['0'] ∧ getMaxStrLength v = .ok (some (limitOf o.maxStrLength))) :
    ModeRc env.ucd rc .nosplit o.noSpaces o.noUnicode (pieceOpts (.nosplit o fs)) := by
  have hty : ∀ t ∈ [Ty.splitContainer, .word, .number, .underscore], t ∉ rc.types := by
    intro t ht
    rw [hok.types, typesToBeRepr_mem]
    simp only [List.mem_cons, List.not_mem_nil, or_false] at ht
    rcases ht with rfl | rfl | rfl | rfl <;> cases fs <;> simp [configOf, splitCode]
  refine modeRc_of (call := .nosplit o fs) hok h0 h1 ?_ ?_ ?_ ?_ ?_
  · rw [hok.fullStrings]; cases fs <;> simp [configOf, splitCode, pieceOpts]
  · rw [hok.bpe]; cases fs <;> simp [configOf, splitCode, pieceOpts, PrepConfig.isBpe]
  · intro n _
    exact ⟨_, .numberWhole, by rw [numberUnits, if_neg (hty _ (by decide))]⟩
  · intro s ps ws g1 g2 g3
    refine ⟨_, .wordWhole, ?_⟩
    rw [splitUnits, if_neg (hty _ (by decide)), subtoksJoin_plain (hty _ (by decide)) (hty _ (by decide)),
      splitStr_pieces hu g1 g2 g3]
    rfl
  · intro _ s
    exact ⟨_, .literalWhole, by cases fs <;> simp [pieceOpts], fun _ => rfl⟩

theorem wordRc_all {env : Env} {o : CommonOpts} {sn ro st nc : Bool} {v : Str} {bd : Option BpeData}
    {rc : ReprConfig} (h : RcOk env (configOf (.basic o sn ro st nc) v) bd rc) : WordRc rc (wordParts env ro st) nc := by
  by_cases hrs : ro = true ∨ st = true
  · have := wordRc hrs h
    have e : roninStem env st = wordParts env ro st := by
      funext s
      unfold roninStem wordParts
      cases st <;> cases ro <;> simp at hrs ⊢
    rwa [e] at this
  · have hro : ro = false := by cases ro <;> simp at hrs ⊢
    have hst : st = false := by cases st <;> simp at hrs ⊢
    subst hro; subst hst
    have := basicRc h
    exact ⟨this.container, this.word, this.underscore, this.bpe, this.lower, this.splitWord⟩

theorem modeRc_basic {env : Env} (hu : env.ucd.Laws) {o : CommonOpts} {sn ro st nc : Bool} {v : Str} {bd : Option BpeData}
    {rc : ReprConfig} (hok : RcOk env (configOf (.basic o sn ro st nc) v) bd rc) (h0 : o.noStr = true → v = ['0'])
    (h1 : o.noStr = false → v ≠ ['0'] ∧ getMaxStrLength v = .ok (some (limitOf o.maxStrLength))) :
    ModeRc env.ucd rc (.basic (sn || ro || st) (wordParts env ro st) nc) o.noSpaces o.noUnicode
      (pieceOpts (.basic o sn ro st nc)) := by
  have hw := wordRc_all hok
  refine modeRc_of (call := .basic o sn ro st nc) hok h0 h1 ?_ ?_ ?_ ?_ ?_
  · rw [hok.fullStrings]; cases sn <;> cases ro <;> cases st <;> simp [configOf, splitCode, pieceOpts]
  · rw [hw.bpe]; simp [pieceOpts]
  · intro n hn
    refine ⟨_, .numberBasic, ?_⟩
    have hnum := hok.number
    have hty : Ty.number ∈ rc.types ↔ (sn || ro || st) = true := by
      rw [hok.types, typesToBeRepr_mem]
      cases sn <;> cases ro <;> cases st <;> simp [configOf, splitCode]
    unfold numberUnits markNumber
    cases hs : (sn || ro || st) with
    | false =>
      rw [if_neg (by rw [hty, hs]; simp)]
      simp
    | true =>
      rw [if_pos (hty.mpr hs)]
      have hsp : rc.numberSplitter = fun s => .ok (s.map fun ch => [ch]) := by
        cases sn <;> cases ro <;> cases st <;>
          first | (simp at hs; done) | (simp [configOf, splitCode, PrepConfig.numberSplitter] at hnum; exact hnum.symm)
      rw [hsp, hw.bpe]
      simp only [bind, Except.bind]
      by_cases hl : 1 < n.length
      · simp [Ph.wordStart, Ph.wordEnd, hl]
      · have : n.length = 1 := by
          have := List.length_pos_iff.mpr hn
          omega
        obtain ⟨c, rfl⟩ := List.length_eq_one_iff.mp this
        simp
  · intro s ps ws g1 g2 g3
    refine ⟨_, .wordBasic g1, ?_⟩
    rw [splitUnits, if_pos hw.container, hw.bpe]
    simp only [Bool.false_eq_true, if_false, bind, Except.bind]
    rw [Pieces.reprWith hu hw g2]
    simp only [List.nil_append]
    rw [wrap_eq]
  · intro hl; exact absurd rfl hl

/-- Calls that use BPE. -/
theorem modeRc_bpe {env : Env} (hu : env.ucd.Laws) {call : ApiCall} (hb : usesBpe call = true) {v : Str} {d : BpeData}
    (hd : CacheOk d) {rc : ReprConfig} (hok : RcOk env (configOf call v) (some d) rc)
    (h0 : (optsOf call).noStr = true → v = ['0'])
    (h1 : (optsOf call).noStr = false → v ≠ ['0'] ∧ getMaxStrLength v = .ok (some (limitOf (optsOf call).maxStrLength))) :
    ModeRc env.ucd rc (.bpe d) (optsOf call).noSpaces (optsOf call).noUnicode (pieceOpts call) := by
  have hsc : (configOf call v).split ∈ [['4'], ['5'], ['6'], ['8'], ['9']] := by
    cases call with
    | chars o => simp [configOf, splitCode]
    | bpe i o =>
      simp only [configOf, splitCode]
      repeat' split
      all_goals simp
    | _ => cases hb
  have hlit : (pieceOpts call).literals = .bpe := by
    cases call <;> first | rfl | cases hb
  simp only [List.mem_cons, List.not_mem_nil, or_false] at hsc
  have hbpe : (configOf call v).isBpe = true := by
    rcases hsc with h | h | h | h | h <;> simp [PrepConfig.isBpe, h]
  have hword : ∀ s, rc.splitWord s = getBpeSubwords s d := by
    intro s
    have hw := hok.word
    rw [hbpe] at hw
    have : rc.wordSplitter = some (bpeSplitter (some d)) := by
      rcases hsc with h | h | h | h | h <;> simp [PrepConfig.wordSplitter, h] at hw <;> exact hw.symm
    rw [ReprConfig.splitWord, this]
    rfl
  have hnum : ∀ s, rc.numberSplitter s = getBpeSubwords s d := by
    intro s
    have hw := hok.number
    rw [hbpe] at hw
    have : rc.numberSplitter = bpeSplitter (some d) := by
      rcases hsc with h | h | h | h | h <;> simp [PrepConfig.numberSplitter, h] at hw <;> exact hw.symm
    rw [this]
    rfl
  have hrb : rc.bpe = true := by rw [hok.bpe, hbpe]; rfl
  have hty : ∀ t ∈ [Ty.splitContainer, .number], t ∈ rc.types := by
    intro t ht
    rw [hok.types, typesToBeRepr_mem]
    simp only [List.mem_cons, List.not_mem_nil, or_false] at ht
    rcases ht with rfl | rfl <;> rcases hsc with h | h | h | h | h <;> simp [h]
  refine modeRc_of hok h0 h1 ?_ ?_ ?_ ?_ ?_
  · rw [hok.fullStrings, hlit]
    rcases hsc with h | h | h | h | h <;> simp [h]
  · rw [hrb, hlit]; simp
  · intro n _
    obtain ⟨l, hl⟩ := getBpeSubwords_total n d hd
    refine ⟨l, .numberBpe hl, ?_⟩
    rw [numberUnits, if_pos (hty _ (by decide)), hnum, hl, hrb]
    simp [bind, Except.bind]
  · intro s ps ws g1 g2 g3
    obtain ⟨l, hl⟩ := getBpeSubwords_total s d hd
    refine ⟨l, .wordBpe hl, ?_⟩
    rw [splitUnits, if_pos (hty _ (by decide)), if_pos hrb, splitStr_pieces hu g1 g2 g3, hword, hl]
    rfl
  · intro _ s
    obtain ⟨l, hl⟩ := getBpeSubwords_total s d hd
    exact ⟨l, .literalBpe hl, fun _ => by rw [hword, hl], by rw [hlit]; simp⟩

theorem markLast_eq (l : List Str) : markLast l = markEnd l := by
  induction l with
  | nil => rfl
  | cons x r ih =>
    cases r with
    | nil => rfl
    | cons y r => rw [markLast, markEnd, ih]

theorem isBpe_iff (call : ApiCall) (v : Str) : (configOf call v).isBpe = usesBpe call := by
  cases call with
  | nosplit o fs => cases fs <;> simp [configOf, splitCode, PrepConfig.isBpe, usesBpe]
  | chars o => simp [configOf, splitCode, PrepConfig.isBpe, usesBpe]
  | basic o sn ro st nc => cases sn <;> cases ro <;> cases st <;> simp [configOf, splitCode, PrepConfig.isBpe, usesBpe]
  | bpe i o =>
    simp only [configOf, splitCode, PrepConfig.isBpe, usesBpe]
    repeat' split
    all_goals simp

theorem finish_output {env : Env} {call : ApiCall} {v : Str} (hv : (configOf call v).Valid) {m : Mode} {bd : Option BpeData}
    (hrc : ∀ rc, RcOk env (configOf call v) bd rc →
      ModeRc env.ucd rc m (optsOf call).noSpaces (optsOf call).noUnicode (pieceOpts call))
    {ts : List Tok} {ps : List Piece} (h : ParsedAll env.ucd (optsOf call).noUnicode (pieceOpts call) ts ps) :
    ∃ us, SpelledAll env.ucd m (optsOf call).noSpaces ps us ∧ toRepr env (configOf call v) ts bd = .ok (outputOf call us) := by
  obtain ⟨rc, hok, hr⟩ := toRepr_eq (env := env) hv ts bd
  obtain ⟨us, h1, h2⟩ := parsedAll_units (hrc rc hok) h
  refine ⟨us, h1, ?_⟩
  rw [hr, h2, isBpe_iff]
  simp only [Except.map, outputOf, Except.ok.injEq, Prod.mk.injEq, and_true]
  cases usesBpe call with
  | true =>
    simp only [if_true, List.map_map, List.flatMap]
    congr 1
    exact List.map_congr_left fun x _ => markLast_eq x.subs
  | false => simp [List.flatMap]

/-- **C56** For every call and every text whose word characters are ASCII, the output and the metadata are those of the
reference description: the pieces of the text, one after the other, without a newline at the end, each of them spelled as the
mode says.  With `no_unicode`, string literals that are kept as a whole have to be ASCII. -/
theorem C56_reference (env : Env) (hu : env.ucd.Laws) (load : Str → Except PyErr BpeData) (call : ApiCall)
    (hl : ∀ i, apiBpeCodesId call = some i → i ≠ [] ∧ ∃ d, load i = .ok d ∧ CacheOk d)
    (lexed : List (TokType × Str)) (eof : Bool)
    (ha : ∀ e ∈ lexed, AsciiWords env.ucd e.2)
    (hn : (optsOf call).noUnicode = true → (pieceOpts call).literals ≠ .split →
      ∀ e ∈ lexed, kindOf e.1 = .string → ∀ c ∈ e.2, c.toNat < 128) :
    ∃ m ps us, ModeOf env load call m ∧ DescribedAll env.ucd (pieceOpts call) lexed ps ∧
      SpelledAll env.ucd m (optsOf call).noSpaces (finishPieces eof ps) us ∧
      textApi env load call lexed eof = .ok (outputOf call us) := by
  obtain ⟨v, hv, hvp, h0, h1⟩ := strValue (optsOf call).noStr (optsOf call).maxStrLength
  have hc := (textConfig_eq call hv hvp).1
  have hcv := configOf_valid call hvp
  obtain ⟨ts, ps, h2, h3, h4⟩ := convertText_pieces (nu := (optsOf call).noUnicode) (o := pieceOpts call) hu (l := lexed)
    fun e he => ⟨ha e he, fun a b => hn a b e he⟩
  have h5 := parsedAll_finish eof h4
  suffices h : ∃ m us, ModeOf env load call m ∧ SpelledAll env.ucd m (optsOf call).noSpaces (finishPieces eof ps) us ∧
      preprocessText env load lexed (configOf call v) (apiBpeCodesId call) eof = .ok (outputOf call us) by
    obtain ⟨m, us, g1, g2, g3⟩ := h
    refine ⟨m, ps, us, g1, h3, g2, ?_⟩
    unfold textApi
    rw [hc]
    exact g3
  unfold preprocessText
  simp only [h2, bind, Except.bind, isBpe_iff]
  have bpe : ∀ i, apiBpeCodesId call = some i → usesBpe call = true →
      ∃ d us ch r, load i = .ok d ∧ i = ch :: r ∧
        SpelledAll env.ucd (.bpe d) (optsOf call).noSpaces (finishPieces eof ps) us ∧
        toRepr env (configOf call v) (finishParsed ts eof) (some d) = .ok (outputOf call us) := by
    intro i hi hb
    obtain ⟨hne, d, hd, hcd⟩ := hl i hi
    obtain ⟨us, g1, g2⟩ := finish_output hcv (m := .bpe d) (bd := some d) (fun rc hok => modeRc_bpe hu hb hcd hok h0 h1) h5
    cases i with
    | nil => exact absurd rfl hne
    | cons ch r => exact ⟨d, us, ch, r, hd, rfl, g1, g2⟩
  cases call with
  | nosplit o fs =>
    obtain ⟨us, g1, g2⟩ := finish_output hcv (m := .nosplit) (bd := none) (fun rc hok => modeRc_nosplit hu hok h0 h1) h5
    exact ⟨_, us, .nosplit, g1, g2⟩
  | basic o sn ro st nc =>
    obtain ⟨us, g1, g2⟩ := finish_output hcv (bd := none) (fun rc hok => modeRc_basic hu hok h0 h1) h5
    exact ⟨_, us, .basic, g1, g2⟩
  | chars o =>
    obtain ⟨d, us, ch, r, g1, g2, g3, g4⟩ := bpe _ rfl rfl
    refine ⟨_, us, .chars g1, g3, ?_⟩
    rw [if_pos (show usesBpe (.chars o) = true from rfl), show apiBpeCodesId (.chars o) = some (ch :: r) from congrArg some g2]
    rw [g2] at g1
    simp only [g1, g4]
  | bpe i o =>
    obtain ⟨d, us, ch, r, g1, g2, g3, g4⟩ := bpe _ rfl rfl
    refine ⟨_, us, .bpe g1, g3, ?_⟩
    rw [if_pos (show usesBpe (.bpe i o) = true from rfl), show apiBpeCodesId (.bpe i o) = some (ch :: r) from congrArg some g2]
    rw [g2] at g1
    simp only [g1, g4]

/-! ## The description leaves no choice -/

/-- The pieces of a text that is not blank, computed. -/
noncomputable def textPieces (u : Ucd) (o : PieceOpts) (k : Kind) (v : Str) : List Piece :=
    match k with
    | .operator => [⟨operatorType v, v, .fixed⟩]
    | .number => [numberPiece u v]
    | .keyword => [⟨.keyWord, v, .fixed⟩]
    | .words => (finditer (wordMatch u) v.length v).map (codePiece u)
    | .lineComment =>
      if o.noCom then [⟨.oneLineComment, "<comment>".toList, .constant⟩]
      else ((finditer (wordMatch u) v.length v).map (codePiece u)).map (Piece.within .oneLineComment) ++ [⟨.oneLineComment, "<EOL>".toList, .constant⟩]
    | .blockComment =>
      if o.noCom then [⟨.multilineComment, "<comment>".toList, .constant⟩] else ((finditer (wordMatch u) v.length v).map (codePiece u)).map (Piece.within .multilineComment)
    | .string =>
      if o.noStr then [⟨.stringLiteral, "<str-literal>".toList, .constant⟩]
      else if o.limit < v.length then
        [⟨.stringLiteral, "\"\"".toList, if o.literals = .full then .constant else .quotes⟩]
      else if o.literals = .split then
        (((finditer (stringMatch u) v.length v).filter fun p => !p.contains ' ').map (codePiece u)).map (Piece.within .stringLiteral)
      else [⟨.stringLiteral, ((finditer (stringMatch u) v.length v).map shownLiteral).flatten, .literal⟩]

open Classical in
/-- The pieces, computed. -/
noncomputable def piecesOf (u : Ucd) (o : PieceOpts) (ty : TokType) (v : Str) : List Piece :=
  if v = "\n".toList then [⟨.newLine, "\n".toList, .space⟩]
  else if v = "\t".toList then [⟨.tab, "\t".toList, .space⟩]
  else if ∀ c ∈ v, u.space c = true then List.replicate (v.length / 4) ⟨.tab, "\t".toList, .space⟩
  else textPieces u o (kindOf ty) v

theorem space_white {u : Ucd} (hu : u.Laws) {v : Str} (h : v = "\n".toList ∨ v = "\t".toList) :
    ¬ ∃ c ∈ v, u.space c = false := by
  rintro ⟨c, hc, hf⟩
  have : c = '\n' ∨ c = '\t' := by rcases h with rfl | rfl <;> simp at hc <;> simp [hc]
  rcases this with rfl | rfl <;> rw [hu.space_ascii _ (by decide)] at hf <;> exact absurd hf (by decide)

theorem piecesOf_text {u : Ucd} (hu : u.Laws) {o : PieceOpts} {ty : TokType} {v : Str} (h : ∃ c ∈ v, u.space c = false)
    {k : Kind} (hk : kindOf ty = k) : piecesOf u o ty v = textPieces u o k v := by
  unfold piecesOf
  rw [if_neg fun e => space_white hu (.inl e) h, if_neg fun e => space_white hu (.inr e) h, if_neg, hk]
  · intro e
    obtain ⟨c, hc, hf⟩ := h
    rw [e c hc] at hf
    cases hf

theorem described_eq {u : Ucd} (hu : u.Laws) {o : PieceOpts} {e : TokType × Str} {ps : List Piece}
    (h : Described u o e ps) : ps = piecesOf u o e.1 e.2 := by
  cases h with
  | newline ty => unfold piecesOf; rw [if_pos rfl]
  | tab ty => unfold piecesOf; rw [if_neg (show ¬ "\t".toList = "\n".toList by decide), if_pos rfl]
  | blank h1 h2 h3 => unfold piecesOf; rw [if_neg h2, if_neg h3, if_pos h1]
  | operator h1 h2 => rw [piecesOf_text hu h1 h2, textPieces]
  | number h1 h2 => rw [piecesOf_text hu h1 h2, textPieces]
  | keyword h1 h2 => rw [piecesOf_text hu h1 h2, textPieces]
  | words h1 h2 h3 => rw [piecesOf_text hu h1 h2, textPieces, (textSplit_iff hu _ _).mp h3]
  | lineComment h1 h2 h3 h4 => rw [piecesOf_text hu h1 h2, textPieces, (textSplit_iff hu _ _).mp h4, h3]; rfl
  | blockComment h1 h2 h3 h4 => rw [piecesOf_text hu h1 h2, textPieces, (textSplit_iff hu _ _).mp h4, h3]; rfl
  | hiddenLine h1 h2 h3 => rw [piecesOf_text hu h1 h2, textPieces, h3]; rfl
  | hiddenBlock h1 h2 h3 => rw [piecesOf_text hu h1 h2, textPieces, h3]; rfl
  | hiddenString h1 h2 h3 => rw [piecesOf_text hu h1 h2, textPieces, h3]; rfl
  | long h1 h2 h3 h4 =>
    rw [piecesOf_text hu h1 h2, textPieces, h3]
    simp only [Bool.false_eq_true, if_false, if_pos h4]
  | splitLiteral h1 h2 h3 h4 h5 h6 =>
    rw [piecesOf_text hu h1 h2, textPieces, h3, (literalSplit_iff hu _ _).mp h6]
    simp only [Bool.false_eq_true, if_false, if_neg (Nat.not_lt.mpr h4), if_pos h5]
  | wholeLiteral h1 h2 h3 h4 h5 h6 =>
    rw [piecesOf_text hu h1 h2, textPieces, h3, (literalSplit_iff hu _ _).mp h6]
    simp only [Bool.false_eq_true, if_false, if_neg (Nat.not_lt.mpr h4), if_neg h5]

theorem describedAll_unique {u : Ucd} (hu : u.Laws) {o : PieceOpts} {l : List (TokType × Str)} {ps qs : List Piece}
    (h1 : DescribedAll u o l ps) (h2 : DescribedAll u o l qs) : ps = qs := by
  induction h1 generalizing qs with
  | nil => cases h2; rfl
  | cons a b ih =>
    cases h2 with
    | cons c d => rw [ih d, described_eq hu a, described_eq hu c]

theorem spelled_unique {u : Ucd} (hu : u.Laws) {m : Mode} {p : Piece} {k l : List Str} (h1 : Spelled u m p k)
    (h2 : Spelled u m p l) : k = l := by
  cases h1 with
  | wordBasic a =>
    cases h2 with
    | wordBasic b => rw [((identSplit_iff hu _ _).mp a).symm.trans ((identSplit_iff hu _ _).mp b)]
  | numberBpe a => cases h2 with | numberBpe b => rw [a] at b; exact Except.ok.inj b
  | wordBpe a => cases h2 with | wordBpe b => rw [a] at b; exact Except.ok.inj b
  | literalBpe a => cases h2 with | literalBpe b => rw [a] at b; exact Except.ok.inj b
  | _ => cases h2; rfl

theorem spelledAll_unique {u : Ucd} (hu : u.Laws) {m : Mode} {b : Bool} {ps : List Piece} {us vs : List FullTok}
    (h1 : SpelledAll u m b ps us) (h2 : SpelledAll u m b ps vs) : us = vs := by
  induction h1 generalizing vs with
  | nil => cases h2; rfl
  | skip a c _ ih =>
    cases h2 with
    | skip _ _ g => exact ih g
    | cons g _ _ => rcases g with g | g
                    · rw [a] at g; cases g
                    · exact absurd c g
  | cons a c _ ih =>
    cases h2 with
    | skip g1 g2 _ => rcases a with a | a
                      · rw [a] at g1; cases g1
                      · exact absurd g2 a
    | cons _ g1 g2 => rw [ih g2, spelled_unique hu c g1]

theorem modeOf_unique {env : Env} {load : Str → Except PyErr BpeData} {call : ApiCall} {m n : Mode}
    (h1 : ModeOf env load call m) (h2 : ModeOf env load call n) : m = n := by
  cases h1 with
  | nosplit => cases h2; rfl
  | basic => cases h2; rfl
  | chars a => cases h2 with | chars b => rw [a] at b; rw [Except.ok.inj b]
  | bpe a => cases h2 with | bpe b => rw [a] at b; rw [Except.ok.inj b]

/-- **C56** Whatever fits the reference description is the output. -/
theorem C56_unique (env : Env) (hu : env.ucd.Laws) (load : Str → Except PyErr BpeData) (call : ApiCall)
    (hl : ∀ i, apiBpeCodesId call = some i → i ≠ [] ∧ ∃ d, load i = .ok d ∧ CacheOk d)
    (lexed : List (TokType × Str)) (eof : Bool)
    (ha : ∀ e ∈ lexed, AsciiWords env.ucd e.2)
    (hn : (optsOf call).noUnicode = true → (pieceOpts call).literals ≠ .split →
      ∀ e ∈ lexed, kindOf e.1 = .string → ∀ c ∈ e.2, c.toNat < 128)
    {m : Mode} {ps : List Piece} {us : List FullTok} (h1 : ModeOf env load call m)
    (h2 : DescribedAll env.ucd (pieceOpts call) lexed ps)
    (h3 : SpelledAll env.ucd m (optsOf call).noSpaces (finishPieces eof ps) us) :
    textApi env load call lexed eof = .ok (outputOf call us) := by
  obtain ⟨m', ps', us', g1, g2, g3, g4⟩ := C56_reference env hu load call hl lexed eof ha hn
  obtain rfl := modeOf_unique h1 g1
  obtain rfl := describedAll_unique hu h2 g2
  obtain rfl := spelledAll_unique hu h3 g3
  exact g4

/-- Non-vacuity of C56: `int fooBar=12;` and a newline, with `basic(text, split_numbers=True, no_case=True)`. -/
def refTokens : List (TokType × Str) :=
  [(["Keyword", "Type"], "int".toList), (["Text"], " ".toList), (["Name"], "fooBar".toList), (["Operator"], "=".toList),
   (["Literal", "Number", "Integer"], "12".toList), (["Punctuation"], ";".toList), (["Text"], "\n".toList)]

def refPieces : List Piece :=
  [⟨.keyWord, "int".toList, .fixed⟩, ⟨.splitContainer, "fooBar".toList, .word⟩, ⟨.operator, "=".toList, .fixed⟩,
   ⟨.number, "12".toList, .number⟩, ⟨.semicolon, ";".toList, .fixed⟩, ⟨.newLine, "\n".toList, .space⟩]

theorem refDescribed : DescribedAll demoEnv.ucd (pieceOpts (.basic {} true false false true)) refTokens refPieces := by
  have hw : codePiece demoEnv.ucd "fooBar".toList = ⟨.splitContainer, "fooBar".toList, .word⟩ := by
    unfold codePiece
    rw [if_neg (by decide), if_neg (by decide), if_neg (by rw [← isNumber_iff]; decide), if_pos (by decide)]
  refine .cons (ps := [_]) (.keyword (by decide) (by decide)) (.cons (ps := []) (.blank (by decide) (by decide) (by decide))
    (.cons (ps := [_]) ?_ (.cons (ps := [_]) (.operator (by decide) (by decide)) (.cons (ps := [_]) (.number (by decide) (by decide))
      (.cons (ps := [_]) (.operator (by decide) (by decide)) (.cons (ps := [_]) (.newline _) .nil))))))
  have := Described.words (u := demoEnv.ucd) (o := pieceOpts (.basic {} true false false true)) (ty := ["Name"])
    (v := "fooBar".toList) (ps := ["fooBar".toList]) (by decide) (by decide)
    ((textSplit_iff asciiUcd_laws _ _).mpr (by decide +kernel))
  rwa [List.map_cons, List.map_nil, hw] at this

example : textApi demoEnv (fun _ => .error .keyError) (.basic {} true false false true) refTokens false =
    .ok (outputOf (.basic {} true false false true)
      [⟨.keyWord, ["int".toList], ["int".toList]⟩,
       ⟨.splitContainer, ["<w>".toList, "foo".toList, "<Cap>".toList, "bar".toList, "</w>".toList], []⟩,
       ⟨.operator, ["=".toList], ["=".toList]⟩, ⟨.number, ["<w>".toList, "1".toList, "2".toList, "</w>".toList], []⟩,
       ⟨.semicolon, [";".toList], [";".toList]⟩]) := by
  refine C56_unique demoEnv asciiUcd_laws _ _ ?_ _ _ ?_ ?_ .basic refDescribed ?_
  · intro i hi; cases hi
  · unfold AsciiWords; decide
  · intro h; cases h
  · have hw : Spelled demoEnv.ucd (.basic true (wordParts demoEnv false false) true)
        ⟨.splitContainer, "fooBar".toList, .word⟩
        ["<w>".toList, "foo".toList, "<Cap>".toList, "bar".toList, "</w>".toList] := by
      have := Spelled.wordBasic (u := demoEnv.ucd) (sn := true) (f := wordParts demoEnv false false) (nc := true)
        (ty := .splitContainer) (s := "fooBar".toList) (ps := ["foo".toList, "Bar".toList])
        ((identSplit_iff asciiUcd_laws _ _).mpr (by decide +kernel))
      rwa [show wrapWord (List.flatMap (markPieceWith (wordParts demoEnv false false) true) ["foo".toList, "Bar".toList]) =
        ["<w>".toList, "foo".toList, "<Cap>".toList, "bar".toList, "</w>".toList] by decide +kernel] at this
    have hn : Spelled demoEnv.ucd (.basic true (wordParts demoEnv false false) true) ⟨.number, "12".toList, .number⟩
        ["<w>".toList, "1".toList, "2".toList, "</w>".toList] := .numberBasic
    exact .cons (.inl rfl) .fixed (.cons (.inl rfl) hw (.cons (.inl rfl) .fixed (.cons (.inl rfl) hn
      (.cons (.inl rfl) .fixed .nil))))

end Verif.Props
