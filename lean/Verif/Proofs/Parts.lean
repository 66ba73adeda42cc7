import Verif.Props.AnyText
import Verif.Spec.Parts
/-!
# The parts of a text one by one
-/
namespace Verif.Props
open Verif Spec

/-- What can be said of all pieces of a text. -/
structure Sound (p : Piece) : Prop where
  newline : p.ty = .newLine → p.form = .space
  space : p.form = .space → p.text = "\n".toList ∨ p.text = "\t".toList
  fixed : p.form = .fixed → p.text ≠ "\n".toList ∧ p.text ≠ "\t".toList

theorem codePiece_sound (u : Ucd) (p : Str) : Sound (codePiece u p) := by
  unfold codePiece
  split
  · next h => exact ⟨fun _ => rfl, fun _ => .inl h, nofun⟩
  · next h1 =>
    split
    · exact ⟨nofun, fun _ => .inr rfl, nofun⟩
    · next h2 =>
      split
      · exact ⟨nofun, nofun, nofun⟩
      · split
        · exact ⟨nofun, nofun, nofun⟩
        · exact ⟨nofun, nofun, fun _ => ⟨h1, fun h => h2 (.inl h)⟩⟩

theorem sound_within {ty : Ty} (ht : ty ≠ .newLine) {p : Piece} (h : Sound p) : Sound (p.within ty) :=
  ⟨fun e => absurd e ht, h.space, h.fixed⟩

theorem anyPieces_sound {u : Ucd} {nu : Bool} {o : PieceOpts} {ps : List Str} {qs : List Piece} (h : AnyPieces u nu o ps qs) :
    ∀ q ∈ qs, Sound q := by
  induction h with
  | nil => simp
  | cons h _ ih =>
    intro q hq
    rcases List.mem_cons.1 hq with rfl | hq
    · cases h with
      | plain _ => exact codePiece_sound u _
      | hidden _ _ _ _ => exact ⟨nofun, nofun, nofun⟩
      | replaced _ _ _ _ _ _ => exact ⟨nofun, nofun, nofun⟩
    · exact ih q hq

theorem numberPiece_sound (u : Ucd) (v : Str) : Sound (numberPiece u v) := by
  unfold numberPiece
  split
  · exact ⟨nofun, nofun, nofun⟩
  · split
    · exact ⟨nofun, nofun, nofun⟩
    · exact ⟨nofun, nofun, nofun⟩

theorem visible_ne {u : Ucd} (hu : u.Laws) {v : Str} (h : ∃ c ∈ v, u.space c = false) : v ≠ "\n".toList ∧ v ≠ "\t".toList := by
  obtain ⟨c, hc, h⟩ := h
  constructor
  · rintro rfl
    rw [show c = '\n' by simpa using hc, hu.space_ascii '\n' (by decide)] at h
    exact absurd h (by decide)
  · rintro rfl
    rw [show c = '\t' by simpa using hc, hu.space_ascii '\t' (by decide)] at h
    exact absurd h (by decide)

theorem operatorType_ne (v : Str) : operatorType v ≠ .newLine := by
  unfold operatorType
  repeat' split
  all_goals nofun

theorem described_sound {u : Ucd} (hu : u.Laws) {o : PieceOpts} {e : TokType × Str} {ps : List Piece} (h : Described u o e ps) :
    ∀ q ∈ ps, Sound q := by
  have one : ∀ {p : Piece}, Sound p → ∀ q ∈ [p], Sound q := by
    intro p hp q hq
    rw [List.mem_singleton.1 hq]
    exact hp
  cases h with
  | newline ty => exact one ⟨fun _ => rfl, fun _ => .inl rfl, nofun⟩
  | tab ty => exact one ⟨nofun, fun _ => .inr rfl, nofun⟩
  | blank h1 h2 h3 => intro q hq; rw [List.eq_of_mem_replicate hq]; exact ⟨nofun, fun _ => .inr rfl, nofun⟩
  | operator h1 h2 => exact one ⟨fun e => absurd e (operatorType_ne _), nofun, fun _ => visible_ne hu h1⟩
  | number h1 h2 => exact one (numberPiece_sound _ _)
  | keyword h1 h2 => exact one ⟨nofun, nofun, fun _ => visible_ne hu h1⟩
  | words h1 h2 h3 =>
    intro q hq
    obtain ⟨r, _, rfl⟩ := List.mem_map.mp hq
    exact codePiece_sound u r
  | lineComment h1 h2 h3 h4 =>
    intro q hq
    rcases List.mem_append.1 hq with hq | hq
    · obtain ⟨x, hx, rfl⟩ := List.mem_map.mp hq
      obtain ⟨r, _, rfl⟩ := List.mem_map.mp hx
      exact sound_within (by decide) (codePiece_sound u r)
    · rw [List.mem_singleton.1 hq]; exact ⟨nofun, nofun, nofun⟩
  | blockComment h1 h2 h3 h4 =>
    intro q hq
    obtain ⟨x, hx, rfl⟩ := List.mem_map.mp hq
    obtain ⟨r, _, rfl⟩ := List.mem_map.mp hx
    exact sound_within (by decide) (codePiece_sound u r)
  | hiddenLine h1 h2 h3 => exact one ⟨nofun, nofun, nofun⟩
  | hiddenBlock h1 h2 h3 => exact one ⟨nofun, nofun, nofun⟩
  | hiddenString h1 h2 h3 => exact one ⟨nofun, nofun, nofun⟩
  | long h1 h2 h3 h4 =>
    refine one ⟨nofun, ?_, ?_⟩
    · simp only; split <;> nofun
    · simp only; split <;> nofun
  | splitLiteral h1 h2 h3 h4 h5 h6 =>
    intro q hq
    obtain ⟨x, hx, rfl⟩ := List.mem_map.mp hq
    obtain ⟨r, _, rfl⟩ := List.mem_map.mp hx
    exact sound_within (by decide) (codePiece_sound u r)
  | wholeLiteral h1 h2 h3 h4 h5 h6 => exact one ⟨nofun, nofun, nofun⟩

theorem describedAny_sound {u : Ucd} (hu : u.Laws) {nu : Bool} {o : PieceOpts} {e : TokType × Str} {ps : List Piece}
    (h : DescribedAny u nu o e ps) : ∀ q ∈ ps, Sound q := by
  cases h with
  | same h1 h2 => exact described_sound hu h2
  | words h1 h2 h3 h4 => exact anyPieces_sound h4
  | lineComment h1 h2 h3 h4 h5 =>
    intro q hq
    rcases List.mem_append.1 hq with hq | hq
    · obtain ⟨x, hx, rfl⟩ := List.mem_map.mp hq
      exact sound_within (by decide) (anyPieces_sound h5 x hx)
    · rw [List.mem_singleton.1 hq]; exact ⟨nofun, nofun, nofun⟩
  | blockComment h1 h2 h3 h4 h5 =>
    intro q hq
    obtain ⟨x, hx, rfl⟩ := List.mem_map.mp hq
    exact sound_within (by decide) (anyPieces_sound h5 x hx)
  | splitLiteral h1 h2 h3 h4 h5 h6 h7 =>
    intro q hq
    obtain ⟨x, hx, rfl⟩ := List.mem_map.mp hq
    exact sound_within (by decide) (anyPieces_sound h7 x hx)
  | wholeLiteral h1 h2 h3 h4 h5 h6 h7 h8 h9 =>
    intro q hq
    rw [List.mem_singleton.1 hq]
    exact ⟨nofun, nofun, nofun⟩

/-! ## Spelling piece by piece -/

theorem spelledAnyAll_split {u : Ucd} {m : Mode} {ns : Bool} {qs : List Piece} : ∀ {ps : List Piece} {us : List FullTok},
    SpelledAnyAll u m ns (ps ++ qs) us → ∃ vs ws, us = vs ++ ws ∧ SpelledAnyAll u m ns ps vs ∧ SpelledAnyAll u m ns qs ws
  | [], us, h => ⟨[], us, rfl, .nil, h⟩
  | p :: ps, us, h => by
    cases h with
    | skip h1 h2 h =>
      obtain ⟨vs, ws, rfl, g1, g2⟩ := spelledAnyAll_split h
      exact ⟨vs, ws, rfl, .skip h1 h2 g1, g2⟩
    | cons h1 h2 h =>
      obtain ⟨vs, ws, rfl, g1, g2⟩ := spelledAnyAll_split h
      exact ⟨_ :: vs, ws, rfl, .cons h1 h2 g1, g2⟩

/-- What the lexer delivers for one piece of the text, in the output. -/
def PartIs (env : Env) (load : Str → Except PyErr BpeData) (call : ApiCall) (e : TokType × Str) (us : List FullTok) : Prop :=
  ∃ m ps, ModeOf env load call m ∧ DescribedAny env.ucd (optsOf call).noUnicode (pieceOpts call) e ps ∧
    SpelledAnyAll env.ucd m (optsOf call).noSpaces ps us

theorem partIs_unique {env : Env} (hu : env.ucd.Laws) {load : Str → Except PyErr BpeData} {call : ApiCall} {e : TokType × Str}
    {us vs : List FullTok} (h : PartIs env load call e us) (g : PartIs env load call e vs) : us = vs := by
  obtain ⟨m, ps, h1, h2, h3⟩ := h
  obtain ⟨m', ps', g1, g2, g3⟩ := g
  obtain rfl := modeOf_unique h1 g1
  obtain rfl := describedAny_unique hu h2 g2
  exact spelledAnyAll_unique hu h3 g3

theorem partIs_exists {env : Env} (hu : env.ucd.Laws) {load : Str → Except PyErr BpeData} {call : ApiCall}
    (hl : ∀ i, apiBpeCodesId call = some i → i ≠ [] ∧ ∃ d, load i = .ok d ∧ CacheOk d) (e : TokType × Str) :
    ∃ us, PartIs env load call e us := by
  obtain ⟨m, ps, us, h1, h2, h3, -⟩ := C56_any env hu load call hl [e, (["Operator"], ";".toList)] false
  cases h2 with
  | cons h2 g =>
    cases g with
    | cons g g' =>
      cases g'
      have hne : ∃ c ∈ ";".toList, env.ucd.space c = false :=
        ⟨';', by decide, by rw [hu.space_ascii ';' (by decide)]; decide⟩
      have hop : DescribedAny env.ucd (optsOf call).noUnicode (pieceOpts call) (["Operator"], ";".toList) [⟨operatorType ";".toList, ";".toList, .fixed⟩] :=
        .same (.inr (.inl rfl)) (.operator hne rfl)
      obtain rfl := describedAny_unique hu g hop
      have hfin : ∀ ps : List Piece, finishPieces false (ps ++ ([⟨operatorType ";".toList, ";".toList, .fixed⟩] ++ [])) =
          ps ++ [⟨operatorType ";".toList, ";".toList, .fixed⟩] := by
        intro ps
        unfold finishPieces
        rw [List.append_nil, if_neg (by
          rw [List.getLast?_append]
          intro e
          exact operatorType_ne _ (Option.some.inj (show some (operatorType ";".toList) = _ from e)))]
        exact List.append_nil _
      rw [hfin] at h3
      obtain ⟨vs, ws, -, k1, -⟩ := spelledAnyAll_split h3
      exact ⟨vs, m, _, h1, h2, k1⟩

theorem spelledAnyAll_last {u : Ucd} {m : Mode} {ns : Bool} {ps : List Piece} {us : List FullTok} (hs : ∀ p ∈ ps, Sound p)
    (h : SpelledAnyAll u m ns ps us) (eof : Bool) : SpelledAnyAll u m ns (finishPieces eof ps) (finishToks eof us) := by
  have hend : SpelledAnyAll u m ns (if eof then [⟨.specialToken, "<EOF>".toList, .fixed⟩] else [])
      (if eof then [⟨.specialToken, ["<EOF>".toList], ["<EOF>".toList]⟩] else []) := by
    cases eof with
    | false => exact .nil
    | true => exact .cons (.inr (by simp)) (.same (by simp) .fixed) .nil
  unfold finishPieces finishToks
  refine spelledAnyAll_append ?_ hend
  -- with `no_spaces` no newlines are left
  have hns : ns = true → ∀ x ∈ us, x.ty ≠ .newLine := by
    intro hn
    clear hend
    induction h with
    | nil => simp
    | skip h1 h2 _ ih => exact ih fun p hp => hs p (by simp [hp])
    | cons h1 h2 _ ih =>
      intro x hx
      rcases List.mem_cons.1 hx with rfl | hx
      · intro e
        rcases h1 with h1 | h1
        · rw [hn] at h1; cases h1
        · exact h1 ((hs _ (by simp)).newline e)
      · exact ih (fun p hp => hs p (by simp [hp])) x hx
  by_cases hps : ps = []
  · subst hps
    cases h
    exact .nil
  obtain ⟨qs, q, rfl⟩ : ∃ qs q, ps = qs ++ [q] := ⟨ps.dropLast, ps.getLast hps, (List.dropLast_concat_getLast hps).symm⟩
  obtain ⟨vs, ws, rfl, k1, k2⟩ := spelledAnyAll_split h
  have hlast : ((qs ++ [q]).getLast?.map (·.ty) = some Ty.newLine) ↔ q.ty = .newLine := by
    rw [List.getLast?_append]
    exact ⟨fun e => Option.some.inj e, fun e => congrArg some e⟩
  cases k2 with
  | skip h1 h2 k2 =>
    cases k2
    rw [List.append_nil] at hns ⊢
    rw [if_neg (c := vs.getLast?.map (·.ty) = some Ty.newLine)]
    · by_cases hq : q.ty = .newLine
      · rw [if_pos (hlast.2 hq), List.dropLast_concat]; exact k1
      · rw [if_neg fun e => hq (hlast.1 e)]
        have := spelledAnyAll_append k1 (SpelledAnyAll.skip h1 h2 .nil)
        rwa [List.append_nil] at this
    · intro e
      obtain ⟨x, hx, e⟩ := Option.map_eq_some_iff.1 e
      exact hns h1 x (List.mem_of_getLast? hx) e
  | @cons _ l _ _ h1 h2 k2 =>
    cases k2
    have hlast' : ((vs ++ [FullTok.mk q.ty l q.recorded]).getLast?.map (·.ty) = some Ty.newLine) ↔ q.ty = .newLine := by
      rw [List.getLast?_append]
      exact ⟨fun e => Option.some.inj e, fun e => congrArg some e⟩
    by_cases hq : q.ty = .newLine
    · rw [if_pos (hlast.2 hq), if_pos (hlast'.2 hq), List.dropLast_concat, List.dropLast_concat]; exact k1
    · rw [if_neg fun e => hq (hlast.1 e), if_neg fun e => hq (hlast'.1 e)]
      exact spelledAnyAll_append k1 (.cons h1 h2 .nil)

/-- The parts make up the whole. -/
theorem parts_whole {env : Env} (hu : env.ucd.Laws) {load : Str → Except PyErr BpeData} {call : ApiCall}
    (hl : ∀ i, apiBpeCodesId call = some i → i ≠ [] ∧ ∃ d, load i = .ok d ∧ CacheOk d) {part : TokType × Str → List FullTok}
    (hp : ∀ e, PartIs env load call e (part e)) : PartByPart env load call part := by
  intro lexed eof
  obtain ⟨m, -, hm, -⟩ := hp ([], [])
  have key : ∃ ps, DescribedAnyAll env.ucd (optsOf call).noUnicode (pieceOpts call) lexed ps ∧ (∀ p ∈ ps, Sound p) ∧
      SpelledAnyAll env.ucd m (optsOf call).noSpaces ps (lexed.flatMap part) := by
    induction lexed with
    | nil => exact ⟨[], .nil, by simp, .nil⟩
    | cons e r ih =>
      obtain ⟨qs, h1, h2, h3⟩ := ih
      obtain ⟨m', ps, g1, g2, g3⟩ := hp e
      obtain rfl := modeOf_unique hm g1
      refine ⟨ps ++ qs, .cons g2 h1, ?_, ?_⟩
      · intro p hp
        rcases List.mem_append.1 hp with hp | hp
        · exact describedAny_sound hu g2 p hp
        · exact h2 p hp
      · rw [List.flatMap_cons]
        exact spelledAnyAll_append g3 h3
  obtain ⟨ps, h1, h2, h3⟩ := key
  exact C56_any_unique env hu load call hl lexed eof hm h1 (spelledAnyAll_last h2 h3 eof)

theorem parts_exist {env : Env} (hu : env.ucd.Laws) {load : Str → Except PyErr BpeData} {call : ApiCall}
    (hl : ∀ i, apiBpeCodesId call = some i → i ≠ [] ∧ ∃ d, load i = .ok d ∧ CacheOk d) :
    ∃ part, PartByPart env load call part ∧ ∀ e, PartIs env load call e (part e) :=
  let ⟨part, h⟩ := Classical.axiomOfChoice (partIs_exists hu hl)
  ⟨part, parts_whole hu hl h, h⟩

/-! ## Other options -/

theorem withOpts_opts (call : ApiCall) (o : CommonOpts) : optsOf (withOpts call o) = o := by cases call <;> rfl

theorem withOpts_id (call : ApiCall) (o : CommonOpts) : apiBpeCodesId (withOpts call o) = apiBpeCodesId call := by cases call <;> rfl

theorem withOpts_literals (call : ApiCall) (o : CommonOpts) : (pieceOpts (withOpts call o)).literals = (pieceOpts call).literals := by
  cases call <;> rfl

theorem withOpts_mode {env : Env} {load : Str → Except PyErr BpeData} {call : ApiCall} {o o' : CommonOpts} {m : Mode}
    (h : ModeOf env load (withOpts call o) m) : ModeOf env load (withOpts call o') m := by
  cases call with
  | nosplit _ fs => cases h; exact .nosplit
  | chars _ => cases h with | chars h => exact .chars h
  | basic _ sn ro st nc => cases h; exact .basic
  | bpe i _ => cases h with | bpe h => exact .bpe h

/-- ASCII text stays ASCII. -/
theorem recased_ascii {u : Ucd} (hu : u.Laws) {s : Str} (hs : AllAscii s) : AllAscii (recased u s) := by
  have lo : ∀ c : Char, c.toNat < 128 → (asciiToLower c).toNat < 128 := by
    intro c hc
    have tab : ∀ n < 128, (asciiToLower (Char.ofNat n)).toNat < 128 := by decide +kernel
    have := tab c.toNat hc
    rwa [Char.ofNat_toNat] at this
  have up : ∀ c : Char, c.toNat < 128 → (asciiToUpper c).toNat < 128 := by
    intro c hc
    have tab : ∀ n < 128, (asciiToUpper (Char.ofNat n)).toNat < 128 := by decide +kernel
    have := tab c.toNat hc
    rwa [Char.ofNat_toNat] at this
  have all : ∀ {s : Str}, AllAscii s → s.all isAscii = true := by
    intro s hs
    rw [List.all_eq_true]
    intro c hc
    exact decide_eq_true (hs c hc)
  have mapped : ∀ {f : Char → Char}, (∀ c : Char, c.toNat < 128 → (f c).toNat < 128) → ∀ {s : Str}, AllAscii s → AllAscii (s.map f) := by
    intro f hf s hs c hc
    obtain ⟨d, hd, rfl⟩ := List.mem_map.mp hc
    exact hf d (hs d hd)
  unfold recased
  split
  · exact hs
  · next c r =>
    split
    · rw [hu.toLower_ascii _ (all hs), hu.toUpper_ascii _ (all (mapped lo hs))]
      exact mapped up (mapped lo hs)
    · split
      · have hc : AllAscii [c] := fun d hd => hs d (by rw [List.mem_singleton.1 hd]; simp)
        have hr : AllAscii r := fun d hd => hs d (by simp [hd])
        have hx : AllAscii (asciiToLower c :: r) := by
          intro d hd
          rcases List.mem_cons.1 hd with rfl | hd
          · exact lo c (hc c (by simp))
          · exact hr d hd
        rw [hu.toLower_ascii _ (all hc), List.map_cons, List.map_nil, List.singleton_append, hu.capitalize_ascii _ (all hx)]
        intro d hd
        rcases List.mem_cons.1 hd with rfl | hd
        · exact up _ (lo c (hc c (by simp)))
        · exact mapped lo hr d hd
      · exact hs

theorem shownPiece_ascii {u : Ucd} (hu : u.Laws) {p x : Str} (h : ShownPiece u p x) (hp : AllAscii p) : AllAscii x := by
  cases h with
  | identifier _ _ hs =>
    intro c hc
    obtain ⟨y, hy, hc⟩ := List.mem_flatten.1 hc
    obtain ⟨q, hq, rfl⟩ := List.mem_map.mp hy
    exact recased_ascii hu (fun d hd => hp d (identSplit_mem hs q hq d hd)) c hc
  | number _ =>
    intro c hc
    obtain ⟨d, hd, rfl⟩ := List.mem_map.mp hc
    have tab : ∀ n < 128, (asciiToLower (Char.ofNat n)).toNat < 128 := by decide +kernel
    have := tab d.toNat (hp d hd)
    rwa [Char.ofNat_toNat] at this
  | other _ _ => exact hp

theorem shownLiterals_ascii {u : Ucd} (hu : u.Laws) {ps xs : List Str} (h : ShownLiterals u ps xs) (hp : ∀ p ∈ ps, AllAscii p) :
    ∀ c ∈ xs.flatten, c.toNat < 128 ∨ c = ' ' := by
  induction h with
  | nil => simp
  | spaces _ ih =>
    intro c hc
    rw [List.flatten_cons] at hc
    rcases List.mem_append.1 hc with hc | hc
    · exact .inr (List.eq_of_mem_replicate hc)
    · exact ih (fun p h => hp p (by simp [h])) c hc
  | piece _ h _ ih =>
    intro c hc
    rw [List.flatten_cons] at hc
    rcases List.mem_append.1 hc with hc | hc
    · exact .inl (shownPiece_ascii hu h (hp _ (by simp)) c hc)
    · exact ih (fun p h => hp p (by simp [h])) c hc

theorem hiddenText_same {s : Str} (h : ∀ c ∈ s, c.toNat < 128 ∨ c = ' ') : HiddenText s s := by
  induction s with
  | nil => exact .nil
  | cons c r ih => exact .keep (h c (by simp)) (ih fun d hd => h d (by simp [hd]))

/-- With ASCII characters only, `no_unicode` makes no difference to words. -/
theorem anyPieces_ascii {u : Ucd} {nu nu' : Bool} {o o' : PieceOpts} (hl : o.literals = o'.literals) {ps : List Str} {qs : List Piece}
    (ha : (∀ p ∈ ps, AllAscii p) ∨ nu = nu') (h : AnyPieces u nu o ps qs) : AnyPieces u nu' o' ps qs := by
  induction h with
  | nil => exact .nil
  | @cons p q ps qs h _ ih =>
    refine .cons ?_ (ih (ha.imp (fun ha p hp => ha p (by simp [hp])) id))
    rcases ha with ha | rfl
    · cases h with
      | plain _ => exact .plain fun _ _ => ha _ (by simp)
      | hidden _ _ h _ => exact absurd (ha _ (by simp)) h
      | replaced _ _ h _ _ _ => exact absurd (ha _ (by simp)) h
    · cases h with
      | plain h => exact .plain h
      | hidden h1 h2 h3 h4 => exact .hidden h1 h2 h3 (hl ▸ h4)
      | replaced h1 h2 h3 h4 h5 h6 => exact .replaced h1 h2 h3 (hl ▸ h4) h5 h6

/-- Options do not matter for pieces that they are not about. -/
theorem describedAny_other {u : Ucd} (hu : u.Laws) {nu nu' : Bool} {o o' : PieceOpts} {e : TokType × Str} {ps : List Piece}
    (hl : o.literals = o'.literals) (hc : IsCommentPiece e → Visible u e → o.noCom = o'.noCom)
    (hs : IsStringPiece e → Visible u e → o.noStr = o'.noStr ∧ (o.limit < e.2.length ↔ o'.limit < e.2.length)) (ha : AllAscii e.2 ∨ nu = nu')
    (h : DescribedAny u nu o e ps) : DescribedAny u nu' o' e ps := by
  cases h with
  | same hn hd =>
    have hw : NoWords u o' e := by
      by_cases hv : Visible u e
      · rcases hn with h | h | h | h | ⟨h, g⟩ | ⟨h, g⟩
        · exact .inl h
        · exact .inr (.inl h)
        · exact .inr (.inr (.inl h))
        · exact .inr (.inr (.inr (.inl h)))
        · exact .inr (.inr (.inr (.inr (.inl ⟨h, hc h hv ▸ g⟩))))
        · exact .inr (.inr (.inr (.inr (.inr ⟨h, g.imp (fun g => (hs h hv).1 ▸ g) (hs h hv).2.1⟩))))
      · refine .inl fun c hc => ?_
        cases hx : u.space c with
        | true => rfl
        | false => exact absurd ⟨c, hc, hx⟩ hv
    refine .same hw ?_
    clear hn hw
    cases hd with
    | newline ty => exact .newline ty
    | tab ty => exact .tab ty
    | blank h1 h2 h3 => exact .blank h1 h2 h3
    | operator h1 h2 => exact .operator h1 h2
    | number h1 h2 => exact .number h1 h2
    | keyword h1 h2 => exact .keyword h1 h2
    | words h1 h2 h3 => exact .words h1 h2 h3
    | lineComment h1 h2 h3 h4 => exact .lineComment h1 h2 (hc (.inl h2) h1 ▸ h3) h4
    | blockComment h1 h2 h3 h4 => exact .blockComment h1 h2 (hc (.inr h2) h1 ▸ h3) h4
    | hiddenLine h1 h2 h3 => exact .hiddenLine h1 h2 (hc (.inl h2) h1 ▸ h3)
    | hiddenBlock h1 h2 h3 => exact .hiddenBlock h1 h2 (hc (.inr h2) h1 ▸ h3)
    | hiddenString h1 h2 h3 => exact .hiddenString h1 h2 ((hs h2 h1).1 ▸ h3)
    | long h1 h2 h3 h4 => rw [hl]; exact .long h1 h2 ((hs h2 h1).1 ▸ h3) ((hs h2 h1).2.1 h4)
    | splitLiteral h1 h2 h3 h4 h5 h6 => exact .splitLiteral h1 h2 ((hs h2 h1).1 ▸ h3) (Nat.le_of_not_lt fun g => absurd ((hs h2 h1).2.2 g) (Nat.not_lt.2 h4)) (hl ▸ h5) h6
    | wholeLiteral h1 h2 h3 h4 h5 h6 => exact .wholeLiteral h1 h2 ((hs h2 h1).1 ▸ h3) (Nat.le_of_not_lt fun g => absurd ((hs h2 h1).2.2 g) (Nat.not_lt.2 h4)) (hl ▸ h5) h6
  | words h1 h2 h3 h4 => exact .words h1 h2 h3 (anyPieces_ascii hl (ha.imp (fun ha p hp c hc => ha c (textSplit_mem h3 p hp c hc)) id) h4)
  | lineComment h1 h2 h3 h4 h5 =>
    exact .lineComment h1 h2 (hc (.inl h2) h1 ▸ h3) h4
      (anyPieces_ascii hl (ha.imp (fun ha p hp c hc => ha c (textSplit_mem h4 p hp c hc)) id) h5)
  | blockComment h1 h2 h3 h4 h5 =>
    exact .blockComment h1 h2 (hc (.inr h2) h1 ▸ h3) h4
      (anyPieces_ascii hl (ha.imp (fun ha p hp c hc => ha c (textSplit_mem h4 p hp c hc)) id) h5)
  | splitLiteral h1 h2 h3 h4 h5 h6 h7 =>
    refine .splitLiteral h1 h2 ((hs h2 h1).1 ▸ h3) (Nat.le_of_not_lt fun g => absurd ((hs h2 h1).2.2 g) (Nat.not_lt.2 h4)) (hl ▸ h5) h6 (anyPieces_ascii hl (ha.imp (fun ha p hp c hc => ha c ?_) id) h7)
    rw [show _ = _ from (literalSplit_flatten h6).symm]
    exact List.mem_flatten.2 ⟨p, (List.mem_filter.1 hp).1, hc⟩
  | @wholeLiteral _ _ _ xs x h1 h2 h3 h4 h5 h6 h7 h8 h9 =>
    rcases ha with ha | rfl
    · have hx : ∀ c ∈ (_ : List Str).flatten, c.toNat < 128 ∨ c = ' ' := shownLiterals_ascii hu h7 fun p hp c hc => ha c (by
        show c ∈ _
        rw [show _ = _ from (literalSplit_flatten h6).symm]
        exact List.mem_flatten.2 ⟨p, hp, hc⟩)
      have hsame := hiddenText_same hx
      have : x = xs.flatten := by
        cases nu with
        | false => exact h8 rfl
        | true => exact hiddenText_unique (h9 rfl) hsame
      subst this
      exact .wholeLiteral h1 h2 ((hs h2 h1).1 ▸ h3) (Nat.le_of_not_lt fun g => absurd ((hs h2 h1).2.2 g) (Nat.not_lt.2 h4)) (hl ▸ h5) h6 h7 (fun _ => rfl) (fun _ => hsame)
    · exact .wholeLiteral h1 h2 ((hs h2 h1).1 ▸ h3) (Nat.le_of_not_lt fun g => absurd ((hs h2 h1).2.2 g) (Nat.not_lt.2 h4)) (hl ▸ h5) h6 h7 h8 h9

theorem withOpts_fields (call : ApiCall) (o : CommonOpts) : (pieceOpts (withOpts call o)).noCom = o.noCom ∧
    (pieceOpts (withOpts call o)).noStr = o.noStr ∧ (pieceOpts (withOpts call o)).limit = limitOf o.maxStrLength := by
  cases call <;> exact ⟨rfl, rfl, rfl⟩

theorem partIs_other {env : Env} (hu : env.ucd.Laws) {load : Str → Except PyErr BpeData} {call : ApiCall} {o o' : CommonOpts}
    {e : TokType × Str} {us : List FullTok} (hw : o.noSpaces = o'.noSpaces)
    (hc : IsCommentPiece e → Visible env.ucd e → o.noCom = o'.noCom)
    (hs : IsStringPiece e → Visible env.ucd e → o.noStr = o'.noStr ∧
      (limitOf o.maxStrLength < e.2.length ↔ limitOf o'.maxStrLength < e.2.length))
    (ha : AllAscii e.2 ∨ o.noUnicode = o'.noUnicode) (h : PartIs env load (withOpts call o) e us) :
    PartIs env load (withOpts call o') e us := by
  obtain ⟨m, ps, h1, h2, h3⟩ := h
  refine ⟨m, ps, withOpts_mode h1, ?_, ?_⟩
  · obtain ⟨f1, f2, f3⟩ := withOpts_fields call o
    obtain ⟨f1', f2', f3'⟩ := withOpts_fields call o'
    refine describedAny_other hu ?_ ?_ ?_ ?_ h2
    · rw [withOpts_literals, withOpts_literals]
    · rw [f1, f1']; exact hc
    · rw [f2, f2', f3, f3']; exact hs
    · rw [withOpts_opts, withOpts_opts]; exact ha
  · rw [withOpts_opts] at h3 ⊢
    rw [← hw]
    exact h3

theorem partIs_constant {env : Env} {load : Str → Except PyErr BpeData} {call : ApiCall} {e : TokType × Str} {us : List FullTok}
    (h : PartIs env load call e us) {call' : ApiCall} (hm : ∀ m, ModeOf env load call m → ModeOf env load call' m) {p : Piece} {l : List Str}
    (hd : DescribedAny env.ucd (optsOf call').noUnicode (pieceOpts call') e [p]) (hf : p.form = .constant ∨ p.form = .quotes)
    (hp : ∀ m, Spelled env.ucd m p l) : PartIs env load call' e [⟨p.ty, l, p.recorded⟩] := by
  obtain ⟨m, -, h1, -⟩ := h
  refine ⟨m, [p], hm m h1, hd, .cons (.inr ?_) (.same ?_ (hp m)) .nil⟩
  · rcases hf with hf | hf <;> rw [hf] <;> nofun
  · rcases hf with hf | hf <;> rw [hf] <;> nofun

/-! ## White space -/

theorem recorded_white {p : Piece} (hp : Sound p) {u : Ucd} {m : Mode} {l : List Str} (h : SpelledAny u m p l) :
    (FullTok.mk p.ty l p.recorded).white = true ↔ p.form = .space := by
  obtain ⟨ty, s, f⟩ := p
  unfold FullTok.white
  rw [decide_eq_true_iff]
  constructor
  · intro g
    have hr : Piece.recorded ⟨ty, s, f⟩ = ["\n".toList] ∨ Piece.recorded ⟨ty, s, f⟩ = ["\t".toList] := g.imp And.right And.right
    cases f with
    | space => rfl
    | fixed =>
      have := hp.fixed rfl
      rcases hr with hr | hr
      · exact absurd (List.head_eq_of_cons_eq hr) this.1
      · exact absurd (List.head_eq_of_cons_eq hr) this.2
    | quotes =>
      rcases hr with hr | hr
      · exact absurd (show ["\"".toList] = ["\n".toList] from hr) (by decide)
      · exact absurd (show ["\"".toList] = ["\t".toList] from hr) (by decide)
    | _ => rcases hr with hr | hr <;> cases hr
  · rintro rfl
    cases h with
    | same _ h =>
      cases h
      rcases hp.space rfl with hs | hs
      · simp only at hs; subst hs; exact .inl ⟨rfl, rfl⟩
      · simp only at hs; subst hs; exact .inr ⟨rfl, rfl⟩

theorem spelledAnyAll_white {u : Ucd} {m : Mode} {ps : List Piece} {us : List FullTok} (hs : ∀ p ∈ ps, Sound p)
    (h : SpelledAnyAll u m false ps us) : SpelledAnyAll u m true ps (us.filter fun x => !x.white) := by
  induction h with
  | nil => exact .nil
  | skip h1 _ _ _ => cases h1
  | @cons p l ps us h1 h2 _ ih =>
    have ih := ih fun p hp => hs p (by simp [hp])
    have hw := recorded_white (hs p (by simp)) h2
    by_cases hf : p.form = .space
    · rw [List.filter_cons, hw.2 hf]
      exact .skip rfl hf ih
    · have : (FullTok.mk p.ty l p.recorded).white = false := by
        cases hx : (FullTok.mk p.ty l p.recorded).white with
        | false => rfl
        | true => exact absurd (hw.1 hx) hf
      rw [List.filter_cons, this]
      exact .cons (.inr hf) h2 ih

theorem partIs_white {env : Env} (hu : env.ucd.Laws) {load : Str → Except PyErr BpeData} {call : ApiCall} {o : CommonOpts}
    {e : TokType × Str} {us : List FullTok} (h : PartIs env load (withOpts call { o with noSpaces := false }) e us) :
    PartIs env load (withOpts call { o with noSpaces := true }) e (us.filter fun x => !x.white) := by
  obtain ⟨m, ps, h1, h2, h3⟩ := h
  refine ⟨m, ps, withOpts_mode h1, ?_, ?_⟩
  · refine describedAny_other hu ?_ ?_ ?_ ?_ h2
    · rw [withOpts_literals, withOpts_literals]
    · intro _ _; show (optsOf _).noCom = (optsOf _).noCom; rw [withOpts_opts, withOpts_opts]
    · intro _ _
      exact ⟨by show (optsOf _).noStr = (optsOf _).noStr; rw [withOpts_opts, withOpts_opts],
        by rw [(withOpts_fields call _).2.2, (withOpts_fields call _).2.2]⟩
    · rw [withOpts_opts, withOpts_opts]; exact .inr rfl
  · rw [withOpts_opts] at h3 ⊢
    exact spelledAnyAll_white (describedAny_sound hu h2) h3

end Verif.Props
