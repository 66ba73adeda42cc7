import Verif.Spec.AnyText
import Verif.Proofs.Case
import Verif.Proofs.Reference
import Verif.Props.Case
/-!
# Parsed tokens and pieces, for any characters
-/
namespace Verif.Props
open Verif Spec

/-! ## Writing pieces down -/

theorem spelledAny_within {u : Ucd} {m : Mode} {p : Piece} {l : List Str} (ty : Ty) (h : SpelledAny u m p l) :
    SpelledAny u m (p.within ty) l := by
  cases h
  case same h1 h2 => exact .same h1 (spelled_within ty h2)
  case wordWhole h => exact .wordWhole h
  case wordBasic h => exact .wordBasic h
  case wordBpe h1 h2 => exact .wordBpe h1 h2

theorem spelledAnyAll_append {u : Ucd} {m : Mode} {b : Bool} {ps qs : List Piece} {us vs : List FullTok}
    (h1 : SpelledAnyAll u m b ps us) (h2 : SpelledAnyAll u m b qs vs) : SpelledAnyAll u m b (ps ++ qs) (us ++ vs) := by
  induction h1 with
  | nil => exact h2
  | skip hb hf _ ih => exact .skip hb hf ih
  | cons hb hs _ ih => exact .cons hb hs ih

theorem spelledAnyAll_within {u : Ucd} {m : Mode} {b : Bool} {ps : List Piece} {us : List FullTok} (ty : Ty)
    (h : SpelledAnyAll u m b ps us) : SpelledAnyAll u m b (ps.map (Piece.within ty)) (retype ty us) := by
  induction h with
  | nil => exact .nil
  | skip hb hf _ ih => exact .skip hb hf ih
  | cons hb hs _ ih => exact .cons hb (spelledAny_within ty hs) ih

theorem spelledAnyAll_one {u : Ucd} {m : Mode} {b : Bool} {p : Piece} {l : List Str} (hf : p.form ≠ .space)
    (h : SpelledAny u m p l) : SpelledAnyAll u m b [p] [⟨p.ty, l, p.recorded⟩] := .cons (.inr hf) h .nil

/-- Without words the two descriptions are the same. -/
theorem spelledAnyAll_of {u : Ucd} {m : Mode} {b : Bool} {ps : List Piece} {us : List FullTok} (hp : ∀ p ∈ ps, p.form ≠ .word)
    (h : SpelledAll u m b ps us) : SpelledAnyAll u m b ps us := by
  induction h with
  | nil => exact .nil
  | skip hb hf _ ih => exact .skip hb hf (ih fun p hq => hp p (by simp [hq]))
  | cons hb hs _ ih => exact .cons hb (.same (hp _ (by simp)) hs) (ih fun p hq => hp p (by simp [hq]))

/-! ## Pieces of words -/

/-- A subtoken with the small letters and the mark of its piece. -/
theorem partToSubtok_lowered {u : Ucd} (hu : u.Laws) {p : Str} (hp : p ≠ []) (h_ : p ≠ ['_']) : ∃ c cap,
    partToSubtok u p = .ok (.word c cap) ∧ withPreservedCase u c cap = recased u p ∧
      ∀ l, withCapPrefixes cap l = (loweredPiece u p).1 ++ l ∧ c = (loweredPiece u p).2 := by
  cases p with
  | nil => exact absurd rfl hp
  | cons c r =>
    unfold partToSubtok
    rw [if_pos h_, wordFrom_eq hu, recased_cons]
    unfold loweredPiece
    by_cases hl : u.isLower (c :: r) = true
    · have h1 := not_upper_of_lower hl
      rw [if_pos hl, if_neg (show ¬ u.isUpper (c :: r) = true by rw [h1]; simp),
        if_neg (show ¬ (u.isLower (c :: r) = false ∧ u.isUpper [c] = true) by simp [hl])]
      refine ⟨_, _, rfl, rfl, fun l => ?_⟩
      simp only [h1, hl, Bool.false_eq_true, if_false]
      exact ⟨rfl, rfl⟩
    · rw [if_neg hl]
      by_cases hup : u.isUpper (c :: r) = true
      · rw [if_pos hup, if_pos hup]
        refine ⟨_, _, rfl, rfl, fun l => ?_⟩
        simp only [hup, if_true]
        first | exact ⟨rfl, rfl⟩ | exact ⟨rfl, trivial⟩
      · rw [if_neg hup, if_neg hup]
        by_cases h1 : u.isUpper [c] = true
        · have h2 : u.isLower (c :: r) = false ∧ u.isUpper [c] = true := ⟨by simpa using hl, h1⟩
          rw [if_pos h1, if_pos h2]
          refine ⟨_, _, rfl, rfl, fun l => ?_⟩
          simp only [hup, if_pos h2, if_false, Bool.false_eq_true]
          first | exact ⟨rfl, rfl⟩ | exact ⟨rfl, trivial⟩
        · have h2 : ¬ (u.isLower (c :: r) = false ∧ u.isUpper [c] = true) := fun e => h1 e.2
          rw [if_neg h1, if_neg h2]
          refine ⟨_, _, rfl, rfl, fun l => ?_⟩
          simp only [hup, if_neg h2, if_false, Bool.false_eq_true]
          first | exact ⟨rfl, rfl⟩ | exact ⟨rfl, trivial⟩

theorem mapM_cons_ok {α β : Type} {f : α → Except PyErr β} {a : α} {r : List α} {bs : List β} (h : (a :: r).mapM f = .ok bs) :
    ∃ b cs, bs = b :: cs ∧ f a = .ok b ∧ r.mapM f = .ok cs := by
  rw [List.mapM_cons] at h
  cases hf : f a with
  | error e => rw [hf] at h; cases h
  | ok b =>
    cases hr : r.mapM f with
    | error e => rw [hf, hr] at h; cases h
    | ok cs =>
      rw [hf, hr] at h
      cases h
      exact ⟨b, cs, rfl, rfl, rfl⟩

/-- Basic splitting of the pieces of a word. -/
theorem subtoksRepr_any {u : Ucd} (hu : u.Laws) {rc : ReprConfig} {f : Str → List Str} {nc : Bool} (hr : WordRc rc f nc)
    {ps : List Str} (hp : ∀ p ∈ ps, p ≠ []) {ws : List Subtok} (h : ps.mapM (partToSubtok u) = .ok ws) (acc : List Str) :
    subtoksRepr u rc acc ws = .ok (acc ++ ps.flatMap (markAny u f nc)) := by
  induction ps generalizing acc ws with
  | nil => cases h; simp [subtoksRepr]
  | cons p r ih =>
    obtain ⟨w, vs, rfl, h1, h2⟩ := mapM_cons_ok h
    have hw : w.repr u rc = .ok (markAny u f nc p) := by
      unfold markAny
      by_cases h_ : p = ['_']
      · rw [if_pos h_]
        subst h_
        unfold partToSubtok at h1
        rw [if_neg (by simp)] at h1
        cases h1
        rw [Subtok.repr, if_neg hr.underscore]
      · rw [if_neg h_]
        obtain ⟨c, cap, e1, e2, e3⟩ := partToSubtok_lowered hu (hp p (by simp)) h_
        rw [e1] at h1
        cases h1
        rw [Subtok.repr, if_pos hr.word, hr.lower]
        cases nc with
        | true =>
          simp only [if_true, hr.splitWord, bind, Except.bind]
          rw [(e3 _).1, (e3 []).2]
        | false =>
          simp only [Bool.false_eq_true, if_false, hr.splitWord]
          rw [e2]
    simp only [subtoksRepr, hw, bind, Except.bind]
    rw [ih (fun p hq => hp p (by simp [hq])) h2]
    simp

theorem splitStr_any {u : Ucd} (hu : u.Laws) {s : Str} {ps : List Str} {ws : List Subtok} (h1 : IdentSplit u s ps)
    (h2 : ps.mapM (partToSubtok u) = .ok ws) : splitStr u ws = (ps.map (recased u)).flatten := by
  obtain ⟨vs, h3, h4⟩ := mapM_recased hu (identSplit_ne_nil h1)
  rw [h2] at h3
  cases h3
  rw [splitStr, h4, concat_eq_flatten]

theorem recased_ne_nil {u : Ucd} (hu : u.Laws) {p : Str} (h : p ≠ []) : recased u p ≠ [] := by
  cases p with
  | nil => exact absurd rfl h
  | cons c r =>
    rw [recased_cons]
    split
    · exact hu.toUpper_ne_nil _ (hu.toLower_ne_nil _ (by simp))
    split
    · exact hu.capitalize_ne_nil _ (by simp [hu.toLower_ne_nil [c] (by simp)])
    · simp

theorem wordFrom_str {u : Ucd} (hu : u.Laws) {s : Str} (h : s ≠ []) : ∃ w, wordFrom u s = .ok w ∧ w.str u = recased u s := by
  by_cases h_ : s = ['_']
  · subst h_
    rw [wordFrom_eq hu]
    have hup : u.isUpper ['_'] = false := by simp [Ucd.isUpper, hu.upper_ascii '_' (by decide), asciiUpper]
    refine ⟨_, rfl, ?_⟩
    rw [recased_cons]
    simp only [hup, Bool.false_eq_true, if_false, and_false]
    split <;> rfl
  · obtain ⟨w, h1, h2⟩ := partToSubtok_recased hu h
    unfold partToSubtok at h1
    rw [if_pos h_] at h1
    exact ⟨w, h1, h2⟩

/-! ## Tokens -/

/-- The parsed token of a piece that is not a comment or a string literal. -/
inductive AnySimp (u : Ucd) (nu : Bool) (o : PieceOpts) : Tok → Piece → Prop
  | simp {t p} : Simp u t p → p.form ≠ .word → AnySimp u nu o t p
  | word {s ps ws} : IdentSplit u s ps → ps.mapM (partToSubtok u) = .ok ws → AnySimp u nu o (.split ws) ⟨.splitContainer, s, .word⟩
  | foreign {s ps ws} : IdentSplit u s ps → ps.mapM (partToSubtok u) = .ok ws → nu = false →
      AnySimp u nu o (.nonEng ws) ⟨.splitContainer, s, .word⟩
  | hidden {ws} : nu = true → o.literals ≠ .bpe → AnySimp u nu o (.nonEng ws) ⟨.nonEng, "<non-en>".toList, .constant⟩
  | replaced {ws x} : nu = true → o.literals = .bpe → Replaced "÷".toList (splitStr u ws) x → splitStr u ws ≠ [] →
      AnySimp u nu o (.nonEng ws) ⟨.splitContainer, recased u x, .literal⟩

inductive AnySimps (u : Ucd) (nu : Bool) (o : PieceOpts) : List Tok → List Piece → Prop
  | nil : AnySimps u nu o [] []
  | cons {t p ts ps} : AnySimp u nu o t p → AnySimps u nu o ts ps → AnySimps u nu o (t :: ts) (p :: ps)

inductive AnyLits (u : Ucd) (nu : Bool) (o : PieceOpts) : List Tok → List Piece → Prop
  | nil : AnyLits u nu o [] []
  | cons {t p ts ps} : AnySimp u nu o t p → AnyLits u nu o ts ps → AnyLits u nu o (t :: ts) (p :: ps)
  | space {n ts ps} : AnyLits u nu o ts ps → AnyLits u nu o (.spaceInString n :: ts) ps

/-- A configuration for representations that fits a mode and options, for words of any characters. -/
structure AnyRc (u : Ucd) (rc : ReprConfig) (m : Mode) (noSpaces noUnicode : Bool) (o : PieceOpts) : Prop where
  base : ModeRc u rc m noSpaces noUnicode o
  anyWord : ∀ s ps ws, IdentSplit u s ps → ps.mapM (partToSubtok u) = .ok ws →
    ∃ l, SpelledAny u m ⟨.splitContainer, s, .word⟩ l ∧ splitUnits u rc ws = .ok [⟨.splitContainer, l, []⟩]
  container : o.literals = .bpe → Ty.splitContainer ∈ rc.types

theorem spelled_ty {u : Ucd} {m : Mode} {t1 t2 : Ty} {s : Str} {l : List Str} (h : Spelled u m ⟨t1, s, .literal⟩ l) :
    Spelled u m ⟨t2, s, .literal⟩ l := spelled_within t2 h

theorem anySimp_units {u : Ucd} (hu : u.Laws) {rc : ReprConfig} {m : Mode} {b nu : Bool} {o : PieceOpts} (hr : AnyRc u rc m b nu o)
    {t : Tok} {p : Piece} (h : AnySimp u nu o t p) : ∃ us, SpelledAnyAll u m b [p] us ∧ Tok.units u rc t = .ok us := by
  cases h with
  | simp h1 h2 =>
    obtain ⟨us, h3, h4⟩ := simp_units hr.base h1
    exact ⟨us, spelledAnyAll_of (by simpa using h2) h3, h4⟩
  | word h1 h2 =>
    obtain ⟨l, h3, h4⟩ := hr.anyWord _ _ _ h1 h2
    exact ⟨_, spelledAnyAll_one (by simp) h3, h4⟩
  | foreign h1 h2 h3 =>
    obtain ⟨l, h4, h5⟩ := hr.anyWord _ _ _ h1 h2
    refine ⟨_, spelledAnyAll_one (by simp) h4, ?_⟩
    rw [Tok.units, nonEngUnits, if_neg (by rw [hr.base.nonEng, h3]; simp)]
    exact h5
  | hidden h1 h2 =>
    refine ⟨_, spelledAnyAll_one (by simp) (.same (by simp) .constant), ?_⟩
    rw [Tok.units, nonEngUnits, if_pos (hr.base.nonEng.mpr h1), if_neg (by rw [hr.base.bpe]; exact h2)]
    rfl
  | @replaced ws x h1 h2 h3 h4 =>
    obtain ⟨l, h5, h6, -⟩ := hr.base.literal (by rw [h2]; simp) (recased u x)
    refine ⟨_, spelledAnyAll_one (by simp) (.same (by simp) (spelled_ty h5)), ?_⟩
    obtain ⟨y, h7, h8⟩ := replaceNonAscii_ok _ h4
    obtain ⟨z, h9, h10⟩ := C46_replaces_runs (splitStr u ws) '÷'
    have : y = x := by
      rw [show Ph.nonAsciiSeq = ['÷'] from rfl, h9] at h7
      cases h7
      exact C46_spec_deterministic _ _ _ _ h10 h3
    subst this
    obtain ⟨w, h11, h12⟩ := wordFrom_str hu h8
    rw [Tok.units, nonEngUnits, if_pos (hr.base.nonEng.mpr h1), if_pos (hr.base.bpe.mpr h2), h7]
    simp only [bind, Except.bind, h11]
    rw [splitUnits, if_pos (hr.container h2), if_pos (hr.base.bpe.mpr h2)]
    have : splitStr u [w] = recased u y := by rw [splitStr, concat_eq_flatten]; simp [h12]
    simp only [this, h6 h2, bind, Except.bind]
    rfl

theorem anySimp_not_space {u : Ucd} {nu : Bool} {o : PieceOpts} {t : Tok} {p : Piece} (h : AnySimp u nu o t p) :
    ∀ n, t ≠ .spaceInString n := by
  cases h with
  | simp h _ => exact simp_not_space h
  | _ => simp

theorem anySimps_units {u : Ucd} (hu : u.Laws) {rc : ReprConfig} {m : Mode} {b nu : Bool} {o : PieceOpts} (hr : AnyRc u rc m b nu o)
    {ts : List Tok} {ps : List Piece} (h : AnySimps u nu o ts ps) :
    ∃ us, SpelledAnyAll u m b ps us ∧ unitsList u rc false ts = .ok us := by
  induction h with
  | nil => exact ⟨[], .nil, rfl⟩
  | cons h1 _ ih =>
    obtain ⟨us, h2, h3⟩ := anySimp_units hu hr h1
    obtain ⟨vs, h4, h5⟩ := ih
    refine ⟨us ++ vs, spelledAnyAll_append h2 h4, ?_⟩
    rw [unitsList_cons _ _ _ _ _ (anySimp_not_space h1), h3, h5]
    rfl

theorem anyLits_units {u : Ucd} (hu : u.Laws) {rc : ReprConfig} {m : Mode} {b nu : Bool} {o : PieceOpts} (hr : AnyRc u rc m b nu o)
    {ts : List Tok} {ps : List Piece} (h : AnyLits u nu o ts ps) :
    ∃ us, SpelledAnyAll u m b ps us ∧ unitsList u rc true ts = .ok us := by
  induction h with
  | nil => exact ⟨[], .nil, rfl⟩
  | cons h1 _ ih =>
    obtain ⟨us, h2, h3⟩ := anySimp_units hu hr h1
    obtain ⟨vs, h4, h5⟩ := ih
    refine ⟨us ++ vs, spelledAnyAll_append h2 h4, ?_⟩
    rw [unitsList_cons _ _ _ _ _ (anySimp_not_space h1), h3, h5]
    rfl
  | space _ ih =>
    obtain ⟨vs, h4, h5⟩ := ih
    exact ⟨vs, h4, h5⟩

/-! ## Literals as a whole -/

theorem hiddenText_append {p x t y : Str} (h : Replaced "÷".toList p x) (hp : '\u00a0' ∉ p)
    (ht : ∀ c, t.head? = some c → c = '\u00a0') (hy : HiddenText t y) : HiddenText (p ++ t) (x ++ y) := by
  induction h with
  | nil => exact hy
  | keep h _ ih => exact .keep (.inl h) (ih fun e => hp (by simp [e]))
  | @run r w out h1 h2 h3 _ ih =>
    rw [List.append_assoc]
    refine .run h1 (fun c hc => ⟨h2 c hc, fun e => hp (by rw [← e]; simp [hc])⟩) ?_ (ih fun e => hp (by simp [e]))
    intro c hc
    cases w with
    | nil => exact .inr (ht c hc)
    | cons d w => exact .inl (h3 c hc)

theorem hiddenText_join (l : List Str) (h : ∀ p ∈ l, '\u00a0' ∉ p) :
    HiddenText (pyJoin ['\u00a0'] l) (pyJoin ['\u00a0'] (l.map (replaceLoop Ph.nonAsciiSeq false []))) := by
  have one : ∀ p : Str, Replaced "÷".toList p (replaceLoop Ph.nonAsciiSeq false [] p) := by
    intro p
    obtain ⟨z, h9, h10⟩ := C46_replaces_runs p '÷'
    cases h9
    exact h10
  induction l with
  | nil => exact .nil
  | cons p r ih =>
    have ih := ih fun q hq => h q (by simp [hq])
    cases r with
    | nil =>
      have := hiddenText_append (one p) (h p (by simp)) (t := []) (by simp) .nil
      simpa [pyJoin] using this
    | cons q r =>
      simp only [List.map_cons, pyJoin] at ih ⊢
      rw [List.append_assoc, List.append_assoc]
      exact hiddenText_append (one p) (h p (by simp)) (by simp) (.keep (.inr rfl) ih)

theorem replaceInString_any {rc : ReprConfig} {nu : Bool} (h : Ty.nonEng ∈ rc.types ↔ nu = true) {s x : Str}
    (h1 : nu = false → x = s) (h2 : nu = true → ∃ y, HiddenText s y ∧ y = x ∧
      y = pyJoin ['\u00a0'] ((pySplit '\u00a0' s).map (replaceLoop Ph.nonAsciiSeq false []))) : replaceInString rc s = .ok x := by
  unfold replaceInString
  cases nu with
  | false => rw [if_neg (by rw [h]; simp), h1 rfl]
  | true =>
    obtain ⟨y, -, rfl, hy⟩ := h2 rfl
    rw [if_pos (h.mpr rfl), mapM_replace_ok, hy]
    rfl

/-- The description of what becomes of a literal leaves no choice. -/
theorem hiddenText_unique {s x y : Str} (h1 : HiddenText s x) (h2 : HiddenText s y) : x = y := by
  induction h1 generalizing y with
  | nil =>
    generalize hw : ([] : Str) = w at h2
    cases h2 with
    | nil => rfl
    | keep _ _ => cases hw
    | run hne _ _ _ => simp at hw; exact absurd hw.1 hne
  | @keep c w out hc h ih =>
    generalize hw : c :: w = v at h2
    cases h2 with
    | nil => cases hw
    | keep _ hb => cases hw; rw [ih hb]
    | @run r v out hne hr _ _ =>
      cases r with
      | nil => exact absurd rfl hne
      | cons d r =>
        cases hw
        have := hr c (by simp)
        rcases hc with hc | hc
        · omega
        · exact absurd hc this.2
  | @run r w out hne hr hw' h ih =>
    generalize hw : r ++ w = v at h2
    cases h2 with
    | nil => simp at hw; exact absurd hw.1 hne
    | @keep c v out hc hb =>
      cases r with
      | nil => exact absurd rfl hne
      | cons d r =>
        cases hw
        have := hr c (by simp)
        rcases hc with hc | hc
        · omega
        · exact absurd hc this.2
    | @run r' w' out' hne' hr' hw'' hb =>
      have : ∀ (r r' w w' : Str), (∀ c ∈ r, 128 ≤ c.toNat ∧ c ≠ '\u00a0') → (∀ c ∈ r', 128 ≤ c.toNat ∧ c ≠ '\u00a0') →
          (∀ c, w.head? = some c → c.toNat < 128 ∨ c = '\u00a0') → (∀ c, w'.head? = some c → c.toNat < 128 ∨ c = '\u00a0') →
          r ++ w = r' ++ w' → w = w' := by
        intro r
        induction r with
        | nil =>
          intro r' w w' _ g2 g3 _ e
          cases r' with
          | nil => exact e
          | cons d r' =>
            simp only [List.nil_append] at e
            have := g3 d (by rw [e]; rfl)
            have := g2 d (by simp)
            rcases g3 d (by rw [e]; rfl) with g | g
            · omega
            · exact absurd g this.2
        | cons d r ihr =>
          intro r' w w' g1 g2 g3 g4 e
          cases r' with
          | nil =>
            simp only [List.nil_append] at e
            have := g1 d (by simp)
            rcases g4 d (by rw [← e]; rfl) with g | g
            · omega
            · exact absurd g this.2
          | cons d' r' =>
            simp only [List.cons_append, List.cons.injEq] at e
            exact ihr r' w w' (fun c hc => g1 c (by simp [hc])) (fun c hc => g2 c (by simp [hc])) g3 g4 e.2
      obtain rfl := this _ _ _ _ hr hr' hw' hw'' hw
      rw [ih hb]

theorem hiddenText_split (s : Str) :
    HiddenText s (pyJoin ['\u00a0'] ((pySplit '\u00a0' s).map (replaceLoop Ph.nonAsciiSeq false []))) := by
  have := hiddenText_join (pySplit '\u00a0' s) fun p hp => pySplit_noSep_mem hp
  rwa [pyJoin_pySplit] at this

/-- What becomes of the text of a literal. -/
theorem replaceInString_hidden {rc : ReprConfig} {nu : Bool} (h : Ty.nonEng ∈ rc.types ↔ nu = true) {s x : Str}
    (h1 : nu = false → x = s) (h2 : nu = true → HiddenText s x) : replaceInString rc s = .ok x :=
  replaceInString_any h h1 fun e => ⟨x, h2 e, rfl, hiddenText_unique (h2 e) (hiddenText_split s)⟩

/-! ## All tokens -/

/-- The pieces of any parsed token. -/
inductive AnyParsed (u : Ucd) (nu : Bool) (o : PieceOpts) : Tok → List Piece → Prop
  | simple {t p} : AnySimp u nu o t p → AnyParsed u nu o t [p]
  | line {ts ps} : o.noCom = false → AnySimps u nu o ts ps → AnyParsed u nu o (.oneLineComment ts)
      (ps.map (Piece.within .oneLineComment) ++ [⟨.oneLineComment, "<EOL>".toList, .constant⟩])
  | block {ts ps} : o.noCom = false → AnySimps u nu o ts ps → ps ≠ [] → AnyParsed u nu o (.multilineComment ts)
      (ps.map (Piece.within .multilineComment))
  | hiddenLine {ts} : o.noCom = true → AnyParsed u nu o (.oneLineComment ts) [⟨.oneLineComment, "<comment>".toList, .constant⟩]
  | hiddenBlock {ts} : o.noCom = true → AnyParsed u nu o (.multilineComment ts) [⟨.multilineComment, "<comment>".toList, .constant⟩]
  | hiddenString {ts n} : o.noStr = true → AnyParsed u nu o (.stringLiteral ts n) [⟨.stringLiteral, "<str-literal>".toList, .constant⟩]
  | long {ts n} : o.noStr = false → o.limit < n → AnyParsed u nu o (.stringLiteral ts n)
      [⟨.stringLiteral, "\"\"".toList, if o.literals = .full then .constant else .quotes⟩]
  | split {ts n ps} : o.noStr = false → n ≤ o.limit → o.literals = .split → AnyLits u nu o ts ps → ps ≠ [] →
      AnyParsed u nu o (.stringLiteral ts n) (ps.map (Piece.within .stringLiteral))
  | whole {ts n x} : o.noStr = false → n ≤ o.limit → o.literals ≠ .split → (nu = false → x = strList u ts) →
      (nu = true → HiddenText (strList u ts) x) → AnyParsed u nu o (.stringLiteral ts n) [⟨.stringLiteral, x, .literal⟩]

theorem anyParsed_units {u : Ucd} (hu : u.Laws) {rc : ReprConfig} {m : Mode} {b nu : Bool} {o : PieceOpts} (hr : AnyRc u rc m b nu o)
    {t : Tok} {ps : List Piece} (h : AnyParsed u nu o t ps) :
    ∃ us, SpelledAnyAll u m b ps us ∧ Tok.units u rc t = .ok us := by
  cases h with
  | simple h => exact anySimp_units hu hr h
  | line hc hs =>
    obtain ⟨us, h1, h2⟩ := anySimps_units hu hr hs
    refine ⟨_, spelledAnyAll_append (spelledAnyAll_within _ h1) (spelledAnyAll_one (by simp) (.same (by simp) .constant)), ?_⟩
    rw [Tok.units, if_neg (by rw [hr.base.oneLine, hc]; decide), h2]
    rfl
  | block hc hs =>
    obtain ⟨us, h1, h2⟩ := anySimps_units hu hr hs
    refine ⟨_, spelledAnyAll_within _ h1, ?_⟩
    rw [Tok.units, if_neg (by rw [hr.base.multiLine, hc]; decide), h2]
    rfl
  | hiddenLine hc =>
    obtain ⟨us, h3, h4⟩ := parsed_units hr.base (.hiddenLine hc)
    exact ⟨us, spelledAnyAll_of (by simp) h3, h4⟩
  | hiddenBlock hc =>
    obtain ⟨us, h3, h4⟩ := parsed_units hr.base (.hiddenBlock hc)
    exact ⟨us, spelledAnyAll_of (by simp) h3, h4⟩
  | hiddenString hc =>
    obtain ⟨us, h3, h4⟩ := parsed_units hr.base (.hiddenString hc)
    exact ⟨us, spelledAnyAll_of (by simp) h3, h4⟩
  | long hn hl =>
    obtain ⟨us, h3, h4⟩ := parsed_units hr.base (.long hn hl)
    exact ⟨us, spelledAnyAll_of (by simp; split <;> simp) h3, h4⟩
  | split hn hl hs hli =>
    obtain ⟨us, h1, h2⟩ := anyLits_units hu hr hli
    refine ⟨_, spelledAnyAll_within _ h1, ?_⟩
    have hff : rc.fullStrings = false := by
      rw [← Bool.not_eq_true, hr.base.full, hs]; decide
    have hbb : rc.bpe = false := by
      rw [← Bool.not_eq_true, hr.base.bpe, hs]; decide
    rw [Tok.units, if_neg (by rw [hr.base.string, hn]; decide), hr.base.max hn]
    simp only [if_neg (Nat.not_lt.mpr hl), hff, hbb, Bool.false_eq_true, if_false, h2]
    rfl
  | @whole ts n x hn hl hs hx1 hx2 =>
    obtain ⟨l, h1, h2, h3⟩ := hr.base.literal hs x
    refine ⟨_, spelledAnyAll_one (by simp) (.same (by simp) h1), ?_⟩
    rw [Tok.units, if_neg (by rw [hr.base.string, hn]; decide), hr.base.max hn]
    simp only [if_neg (Nat.not_lt.mpr hl)]
    rw [replaceInString_hidden hr.base.nonEng hx1 hx2]
    cases hlit : o.literals with
    | split => exact absurd hlit hs
    | full =>
      have hbb : rc.bpe = false := by
        rw [← Bool.not_eq_true, hr.base.bpe, hlit]; decide
      simp only [hbb, hr.base.full.mpr hlit, Bool.false_eq_true, if_false, if_true, bind, Except.bind, h3 hlit]
      rfl
    | bpe =>
      simp only [hr.base.bpe.mpr hlit, if_true, bind, Except.bind, h2 hlit]
      rfl

/-- Token by token. -/
inductive AnyParsedAll (u : Ucd) (nu : Bool) (o : PieceOpts) : List Tok → List Piece → Prop
  | nil : AnyParsedAll u nu o [] []
  | cons {t ts ps qs} : AnyParsed u nu o t ps → AnyParsedAll u nu o ts qs → AnyParsedAll u nu o (t :: ts) (ps ++ qs)

theorem anyParsed_not_space {u : Ucd} {nu : Bool} {o : PieceOpts} {t : Tok} {ps : List Piece} (h : AnyParsed u nu o t ps) :
    ∀ n, t ≠ .spaceInString n := by
  intro n e
  subst e
  cases h
  rename_i h
  exact anySimp_not_space h n rfl

theorem anyParsedAll_units {u : Ucd} (hu : u.Laws) {rc : ReprConfig} {m : Mode} {b nu : Bool} {o : PieceOpts}
    (hr : AnyRc u rc m b nu o) {ts : List Tok} {ps : List Piece} (h : AnyParsedAll u nu o ts ps) :
    ∃ us, SpelledAnyAll u m b ps us ∧ unitsList u rc false ts = .ok us := by
  induction h with
  | nil => exact ⟨[], .nil, rfl⟩
  | cons h1 _ ih =>
    obtain ⟨us, h2, h3⟩ := anyParsed_units hu hr h1
    obtain ⟨vs, h4, h5⟩ := ih
    refine ⟨us ++ vs, spelledAnyAll_append h2 h4, ?_⟩
    rw [unitsList_cons _ _ _ _ _ (anyParsed_not_space h1), h3, h5]
    rfl

theorem anyParsedAll_append {u : Ucd} {nu : Bool} {o : PieceOpts} {ts us : List Tok} {ps qs : List Piece}
    (h1 : AnyParsedAll u nu o ts ps) (h2 : AnyParsedAll u nu o us qs) : AnyParsedAll u nu o (ts ++ us) (ps ++ qs) := by
  induction h1 with
  | nil => exact h2
  | cons h _ ih => rw [List.append_assoc]; exact .cons h ih

theorem anySimps_all {u : Ucd} {nu : Bool} {o : PieceOpts} {ts : List Tok} {ps : List Piece} (h : AnySimps u nu o ts ps) :
    AnyParsedAll u nu o ts ps := by
  induction h with
  | nil => exact .nil
  | cons h _ ih => exact .cons (.simple h) ih

theorem anyParsed_last {u : Ucd} {nu : Bool} {o : PieceOpts} {t : Tok} {ps : List Piece} (h : AnyParsed u nu o t ps) :
    ∃ qs p, ps = qs ++ [p] ∧ (p.ty = .newLine ↔ t = .newLine) ∧ (t = .newLine → qs = []) := by
  have one : ∀ p : Piece, (p.ty = .newLine ↔ t = .newLine) → ∃ qs p', [p] = qs ++ [p'] ∧ (p'.ty = .newLine ↔ t = .newLine) ∧
      (t = .newLine → qs = []) := fun p hp => ⟨[], p, rfl, hp, fun _ => rfl⟩
  have within : ∀ (ty : Ty) (qs : List Piece), qs ≠ [] → ty ≠ .newLine → t ≠ .newLine → ∃ rs p',
      qs.map (Piece.within ty) = rs ++ [p'] ∧ (p'.ty = .newLine ↔ t = .newLine) ∧ (t = .newLine → rs = []) := by
    intro ty qs hq hty ht
    refine ⟨(qs.map (Piece.within ty)).dropLast, (qs.getLast hq).within ty, ?_, ?_, fun e => absurd e ht⟩
    · rw [← List.map_dropLast, ← List.map_singleton, ← List.map_append, List.dropLast_concat_getLast]
    · constructor
      · intro e; exact absurd e hty
      · intro e; exact absurd e ht
  cases h with
  | simple h =>
    cases h with
    | simp h _ => cases h <;> exact one _ (by simp)
    | _ => exact one _ (by simp)
  | line => exact ⟨_, _, rfl, by simp, by simp⟩
  | block _ _ hne => exact within _ _ hne (by simp) (by simp)
  | split _ _ _ _ hne => exact within _ _ hne (by simp) (by simp)
  | _ => exact one _ (by simp)

theorem anyParsedAll_snoc {u : Ucd} {nu : Bool} {o : PieceOpts} {ts : List Tok} {ps : List Piece} {t : Tok}
    (h : AnyParsedAll u nu o (ts ++ [t]) ps) : ∃ qs rs, ps = qs ++ rs ∧ AnyParsedAll u nu o ts qs ∧ AnyParsed u nu o t rs := by
  induction ts generalizing ps with
  | nil =>
    cases h with
    | @cons _ _ rs _ h1 h2 =>
      cases h2
      exact ⟨[], rs, by simp, .nil, h1⟩
  | cons a r ih =>
    cases h with
    | @cons _ _ as bs h1 h2 =>
      obtain ⟨qs, rs, rfl, h3, h4⟩ := ih h2
      exact ⟨as ++ qs, rs, by simp, .cons h1 h3, h4⟩

theorem anyParsedAll_finish {u : Ucd} {nu : Bool} {o : PieceOpts} {ts : List Tok} {ps : List Piece} (eof : Bool)
    (h : AnyParsedAll u nu o ts ps) : AnyParsedAll u nu o (finishParsed ts eof) (finishPieces eof ps) := by
  have cut : AnyParsedAll u nu o (removeTrailingNewline ts)
      (if (ps.getLast?.map (·.ty)) = some .newLine then ps.dropLast else ps) := by
    rcases List.eq_nil_or_concat ts with rfl | ⟨ts, t, rfl⟩
    · cases h
      exact .nil
    · rw [List.concat_eq_append] at h ⊢
      obtain ⟨qs, rs, rfl, h1, h2⟩ := anyParsedAll_snoc h
      obtain ⟨as, p, rfl, h3, h4⟩ := anyParsed_last h2
      have hl : ((qs ++ (as ++ [p])).getLast?.map (·.ty)) = some p.ty := by
        rw [← List.append_assoc, List.getLast?_concat]; rfl
      have hrt : removeTrailingNewline (ts ++ [t]) = if t.isNewLine then ts else ts ++ [t] := by
        unfold removeTrailingNewline
        rw [List.getLast?_concat]
        simp only [List.dropLast_concat]
      rw [hl, hrt]
      by_cases ht : t = .newLine
      · subst ht
        rw [if_pos (show Tok.newLine.isNewLine = true from rfl), if_pos (by rw [h3.mpr rfl]), h4 rfl, List.nil_append, List.dropLast_concat]
        exact h1
      · have hn : t.isNewLine = false := by
          cases t <;> first | rfl | exact absurd rfl ht
        rw [hn, if_neg (by decide), if_neg (by intro e; exact ht (h3.mp (Option.some.inj e)))]
        exact h
  unfold finishParsed finishPieces
  cases eof with
  | false => simpa using cut
  | true => exact anyParsedAll_append cut (.cons (.simple (.simp .special (by simp))) .nil)

/-! ## Parsing -/

theorem isNonEng_iff (p : Str) : isNonEng p = true ↔ ¬ AllAscii p := by
  simp [isNonEng, AllAscii, isAscii]

theorem flatten_recased_ne {u : Ucd} (hu : u.Laws) {s : Str} {ps : List Str} (h1 : IdentSplit u s ps) (hs : s ≠ []) (hsp : ' ' ∉ s) :
    (ps.map (recased u)).flatten ≠ [] := by
  have hf := identSplit_flatten h1 hsp
  cases ps with
  | nil => exact absurd hf.symm hs
  | cons p r =>
    intro e
    have : recased u p = [] := by
      simp only [List.map_cons, List.flatten_cons, List.append_eq_nil_iff] at e
      exact e.1
    exact recased_ne_nil hu (identSplit_ne_nil h1 p (by simp)) this

theorem toParsedToken_anySimp {u : Ucd} (hu : u.Laws) (nu : Bool) (o : PieceOpts) {p : Str}
    (h : (p ≠ [] ∧ ∀ c ∈ p, u.reWord c = true) ∨ ∃ c, p = [c] ∧ c ≠ ' ' ∧ u.reWord c = false) :
    ∃ t q, toParsedToken u p = .ok t ∧ AnyPiece u nu o p q ∧ AnySimp u nu o t q := by
  have plain : ¬ IsIdentifier u p → ' ' ∉ p → ((∀ c ∈ p, isAscii c = true) ∨ ∃ c, p = [c] ∧ u.reWord c = false) →
      ∃ t q, toParsedToken u p = .ok t ∧ AnyPiece u nu o p q ∧ AnySimp u nu o t q := by
    intro hi hs hp
    obtain ⟨t, h1, -, h2⟩ := toParsedToken_simp hu hs hp
    refine ⟨t, _, h1, .plain fun e => absurd e hi, .simp h2 ?_⟩
    unfold codePiece
    split
    · simp
    split
    · simp
    split
    · simp
    split
    · exact absurd ⟨‹p ≠ [] ∧ _›.1, ‹p ≠ [] ∧ _›.2, ‹¬ IsNumber p›⟩ hi
    · simp
  rcases h with ⟨hne, hall⟩ | ⟨c, rfl, hc, hw⟩
  · have hs := no_space_word hu hall
    by_cases hn : IsNumber p
    · refine plain (fun e => e.2.2 hn) hs (.inl (isNumber_ascii hn).2)
    · have hid : IsIdentifier u p := ⟨hne, hall, hn⟩
      have e1 : p ≠ ['\n'] := by
        rintro rfl
        have := hall '\n' (by simp)
        rw [hu.reWord_ascii _ (by decide)] at this
        exact absurd this (by decide)
      have e2 : p ≠ ['\t'] := by
        rintro rfl
        have := hall '\t' (by simp)
        rw [hu.reWord_ascii _ (by decide)] at this
        exact absurd this (by decide)
      have e3 : isNumber p = false := by
        rw [← Bool.not_eq_true, isNumber_iff]; exact hn
      have e4 : isWordText u p = true := by
        rw [isWordText, Bool.and_eq_true]
        exact ⟨by simpa using hne, List.all_eq_true.mpr hall⟩
      have hps := (identSplit_iff hu p _).mpr rfl
      obtain ⟨ws, h1, h2⟩ := mapM_recased hu (identSplit_ne_nil hps)
      have ht : toParsedToken u p = .ok (if isNonEng p then .nonEng ws else .split ws) := by
        unfold toParsedToken
        rw [if_neg e1, if_neg e2, e3, if_neg (by simp), if_pos e4, splitIdentifier, h1]
        rfl
      have hcp : codePiece u p = ⟨.splitContainer, p, .word⟩ := by
        unfold codePiece
        rw [if_neg (show p ≠ "\n".toList from e1), if_neg, if_neg hn, if_pos ⟨hne, hall⟩]
        rintro (e | e)
        · exact e2 e
        · subst e; exact hs (by decide)
      by_cases ha : AllAscii p
      · have hne' : isNonEng p = false := by
          rw [← Bool.not_eq_true, isNonEng_iff]; exact fun e => e ha
        rw [hne'] at ht
        refine ⟨_, _, ht, .plain fun _ _ => ha, ?_⟩
        rw [hcp]
        exact .word hps h1
      · rw [(isNonEng_iff p).mpr ha] at ht
        cases nu with
        | false =>
          refine ⟨_, _, ht, .plain fun _ e => (by cases e), ?_⟩
          rw [hcp]
          exact .foreign hps h1 rfl
        | true =>
          by_cases hb : o.literals = .bpe
          · have hstr := splitStr_any hu hps h1
            obtain ⟨x, -, hx⟩ := C46_replaces_runs ((identParts u p).map (recased u)).flatten '÷'
            refine ⟨_, _, ht, .replaced hid rfl ha hb hps hx, .replaced rfl hb ?_ ?_⟩
            · rw [hstr]; exact hx
            · rw [hstr]; exact flatten_recased_ne hu hps hne hs
          · exact ⟨_, _, ht, .hidden hid rfl ha hb, .hidden rfl hb⟩
  · refine plain (fun e => ?_) (by simpa using fun e => hc e.symm) (.inr ⟨c, rfl, hw⟩)
    have := e.2.1 c (by simp)
    rw [hw] at this
    cases this

theorem words_anySimps {u : Ucd} (hu : u.Laws) (nu : Bool) (o : PieceOpts) {s : Str} {ps : List Str} (h : TextSplit u s ps) :
    ∃ ts qs, ps.mapM (wordPiece u) = .ok ts ∧ AnyPieces u nu o ps qs ∧ AnySimps u nu o ts qs := by
  have piece : ∀ {p : Str} {ps : List Str},
      ((p ≠ [] ∧ ∀ c ∈ p, u.reWord c = true) ∨ ∃ c, p = [c] ∧ c ≠ ' ' ∧ u.reWord c = false) →
      (∃ ts qs, ps.mapM (wordPiece u) = .ok ts ∧ AnyPieces u nu o ps qs ∧ AnySimps u nu o ts qs) →
      ∃ ts qs, (p :: ps).mapM (wordPiece u) = .ok ts ∧ AnyPieces u nu o (p :: ps) qs ∧ AnySimps u nu o ts qs := by
    rintro p ps hp ⟨ts, qs, h3, h4, h5⟩
    obtain ⟨t, q, h1, h2, h6⟩ := toParsedToken_anySimp hu nu o hp
    have hne : p ≠ [' ', ' ', ' ', ' '] := by
      rintro rfl
      rcases hp with h | ⟨c, e, _⟩
      · exact no_space_word hu h.2 (by simp)
      · simp at e
    exact ⟨t :: ts, q :: qs, by rw [List.mapM_cons, wordPiece, if_neg hne, h1, h3]; rfl, .cons h2 h4, .cons h6 h5⟩
  induction h with
  | nil => exact ⟨[], [], rfl, .nil, .nil⟩
  | @word w r ps hw hall _ _ ih => exact piece (.inl ⟨hw, hall⟩) ih
  | @char c r ps h1 h2 _ ih => exact piece (.inr ⟨c, rfl, h1, h2⟩) ih
  | fourSpaces _ ih =>
    obtain ⟨ts, qs, h3, h4, h5⟩ := ih
    have : codePiece u [' ', ' ', ' ', ' '] = ⟨.tab, ['\t'], .space⟩ := by
      unfold codePiece
      rw [if_neg (by decide), if_pos (.inr rfl)]
      rfl
    refine ⟨.tab :: ts, _, by rw [List.mapM_cons, wordPiece, if_pos rfl, h3]; rfl, .cons (.plain ?_) h4, ?_⟩
    · intro e
      exact absurd (no_space_word hu e.2.1) (by simp)
    · rw [this]
      exact .cons (.simp .tab (by simp)) h5
  | space _ _ ih => exact ih

theorem literal_anyLits {u : Ucd} (hu : u.Laws) (nu : Bool) (o : PieceOpts) {s : Str} {ps : List Str} (h : LiteralSplit u s ps) :
    ∃ ts qs, ps.mapM (stringPiece u) = .ok ts ∧ AnyPieces u nu o (ps.filter fun p => !p.contains ' ') qs ∧ AnyLits u nu o ts qs := by
  have piece : ∀ {p : Str} {ps : List Str},
      ((p ≠ [] ∧ ∀ c ∈ p, u.reWord c = true) ∨ ∃ c, p = [c] ∧ c ≠ ' ' ∧ u.reWord c = false) →
      (∃ ts qs, ps.mapM (stringPiece u) = .ok ts ∧ AnyPieces u nu o (ps.filter fun p => !p.contains ' ') qs ∧
        AnyLits u nu o ts qs) →
      ∃ ts qs, (p :: ps).mapM (stringPiece u) = .ok ts ∧ AnyPieces u nu o ((p :: ps).filter fun p => !p.contains ' ') qs ∧
        AnyLits u nu o ts qs := by
    rintro p ps hp ⟨ts, qs, h3, h4, h5⟩
    obtain ⟨t, q, h1, h2, h6⟩ := toParsedToken_anySimp hu nu o hp
    have hs : ' ' ∉ p := by
      rcases hp with h | ⟨c, rfl, hc, _⟩
      · exact no_space_word hu h.2
      · simpa using fun e => hc e.symm
    have hne : p ≠ [] := by
      rcases hp with h | ⟨c, rfl, _⟩
      · exact h.1
      · simp
    have hsp : isSpaces p = false := by
      rw [isSpaces, Bool.and_eq_false_iff]
      right
      cases p with
      | nil => exact absurd rfl hne
      | cons c r => simp at hs; simp [Ne.symm hs.1]
    have : stringPiece u p = .ok t := by rw [stringPiece, hsp]; exact h1
    refine ⟨t :: ts, q :: qs, by rw [List.mapM_cons, this, h3]; rfl, ?_, .cons h6 h5⟩
    rw [List.filter_cons_of_pos (by simpa using hs)]
    exact .cons h2 h4
  induction h with
  | nil => exact ⟨[], [], rfl, .nil, .nil⟩
  | @word w r ps hw hall _ _ ih => exact piece (.inl ⟨hw, hall⟩) ih
  | @char c r ps h1 h2 _ ih => exact piece (.inr ⟨c, rfl, h1, h2⟩) ih
  | @spaces n r ps _ _ ih =>
    obtain ⟨ts, qs, h3, h4, h5⟩ := ih
    refine ⟨.spaceInString (n + 1) :: ts, qs, ?_, ?_, .space h5⟩
    · have : isSpaces (List.replicate (n + 1) ' ') = true := by simp [isSpaces]
      rw [List.mapM_cons, stringPiece, this, h3]
      simp [bind, Except.bind, pure, Except.pure]
    · rw [List.filter_cons_of_neg (by simp)]
      exact h4

theorem anyPieces_ne {u : Ucd} {nu : Bool} {o : PieceOpts} {ps : List Str} {qs : List Piece} (h : AnyPieces u nu o ps qs)
    (hp : ps ≠ []) : qs ≠ [] := by
  cases h with
  | nil => exact absurd rfl hp
  | cons => simp

/-- Parsing one text of the lexer. -/
theorem convert_anyPieces {u : Ucd} (hu : u.Laws) (nu : Bool) (o : PieceOpts) (ty : TokType) (v : Str) :
    ∃ ts ps, convert u ty v = .ok ts ∧ DescribedAny u nu o (ty, v) ps ∧ AnyParsedAll u nu o ts ps := by
  have tabs : ∀ n, AnySimps u nu o (List.replicate n .tab) (List.replicate n ⟨.tab, ['\t'], .space⟩) := by
    intro n
    induction n with
    | zero => exact .nil
    | succ n ih => exact .cons (.simp .tab (by simp)) ih
  by_cases h1 : v = ['\n']
  · subst h1
    exact ⟨_, _, convert_newline u ty, .same (.inl (by simpa using hu.space_ascii '\n' (by decide))) (.newline ty),
      anySimps_all (.cons (.simp .newLine (by simp)) .nil)⟩
  by_cases h2 : v = ['\t']
  · subst h2
    exact ⟨_, _, convert_tab u ty, .same (.inl (by simpa using hu.space_ascii '\t' (by decide))) (.tab ty),
      anySimps_all (.cons (.simp .tab (by simp)) .nil)⟩
  cases hb : u.isBlank v with
  | true =>
    have hbl := (isBlank_iff u v).mp hb
    exact ⟨_, _, convert_blank u ty v hb h1 h2, .same (.inl hbl) (.blank hbl h1 h2), anySimps_all (tabs _)⟩
  | false =>
    have hnb := (not_blank_iff u v).mp hb
    have hne : v ≠ [] := by rintro rfl; obtain ⟨c, hc, -⟩ := hnb; cases hc
    rw [convert_kind u ty v hb h1 h2]
    obtain ⟨ps, hps⟩ := textSplit_total u v.length v (Nat.le_refl _)
    obtain ⟨ts, qs, h3, h4, h5⟩ := words_anySimps hu nu o hps
    have hsw : splitIntoWords u v = .ok ts := by rw [splitIntoWords, (textSplit_iff hu v ps).mp hps, h3]
    cases hk : kindOf ty with
    | operator =>
      exact ⟨_, _, rfl, .same (.inr (.inl hk)) (.operator hnb hk), anySimps_all (.cons (.simp (operator_simp u v) (by simp)) .nil)⟩
    | number =>
      refine ⟨_, _, rfl, .same (.inr (.inr (.inl hk))) (.number hnb hk), anySimps_all (.cons (.simp (number_simp hu hne) ?_) .nil)⟩
      unfold numberPiece
      repeat' split
      all_goals simp
    | keyword =>
      exact ⟨_, _, rfl, .same (.inr (.inr (.inr (.inl hk)))) (.keyword hnb hk), anySimps_all (.cons (.simp .keyWord (by simp)) .nil)⟩
    | words => exact ⟨ts, _, hsw, .words hnb hk hps h4, anySimps_all h5⟩
    | lineComment =>
      have e : tokensOf u v .lineComment = .ok [.oneLineComment ts] := by simp [tokensOf, hsw, Except.map]
      cases hc : o.noCom with
      | true =>
        exact ⟨_, _, e, .same (.inr (.inr (.inr (.inr (.inl ⟨.inl hk, hc⟩))))) (.hiddenLine hnb hk hc), .cons (.hiddenLine hc) .nil⟩
      | false =>
        refine ⟨_, _, e, .lineComment hnb hk hc hps h4, ?_⟩
        have := AnyParsedAll.cons (AnyParsed.line hc h5) .nil
        rwa [List.append_nil] at this
    | blockComment =>
      have e : tokensOf u v .blockComment = .ok [.multilineComment ts] := by simp [tokensOf, hsw, Except.map]
      cases hc : o.noCom with
      | true =>
        exact ⟨_, _, e, .same (.inr (.inr (.inr (.inr (.inl ⟨.inr hk, hc⟩))))) (.hiddenBlock hnb hk hc), .cons (.hiddenBlock hc) .nil⟩
      | false =>
        refine ⟨_, _, e, .blockComment hnb hk hc hps h4, ?_⟩
        have := AnyParsedAll.cons (AnyParsed.block hc h5 (anyPieces_ne h4 (textSplit_ne hu hps hnb))) .nil
        rwa [List.append_nil] at this
    | string =>
      obtain ⟨rs, hrs⟩ := literalSplit_total u v.length v (Nat.le_refl _)
      obtain ⟨us, ls, g1, g2, g3⟩ := literal_anyLits hu nu o hrs
      obtain ⟨us', g4, g5⟩ := stringPiece_any hu hrs
      obtain rfl : us = us' := by rw [g1] at g4; cases g4; rfl
      have hss : splitString u v = .ok us := by rw [splitString, (literalSplit_iff hu v rs).mp hrs, g1]
      have e : tokensOf u v .string = .ok [.stringLiteral us v.length] := by simp [tokensOf, hss, Except.map]
      have ht : ∀ h, NoWords u o (ty, v) := fun h => .inr (.inr (.inr (.inr (.inr ⟨hk, h⟩))))
      cases hs : o.noStr with
      | true => exact ⟨_, _, e, .same (ht (.inl hs)) (.hiddenString hnb hk hs), .cons (.hiddenString hs) .nil⟩
      | false =>
        by_cases hl : o.limit < v.length
        · exact ⟨_, _, e, .same (ht (.inr hl)) (.long hnb hk hs hl), .cons (.long hs hl) .nil⟩
        · have hl := Nat.not_lt.mp hl
          by_cases hli : o.literals = .split
          · refine ⟨_, _, e, .splitLiteral hnb hk hs hl hli hrs g2, ?_⟩
            have := AnyParsedAll.cons (AnyParsed.split hs hl hli g3 (anyPieces_ne g2 (literalSplit_ne hu hrs hnb))) .nil
            rwa [List.append_nil] at this
          · have hstr : strList u us = (us.map (Tok.str u)).flatten := by rw [strList_eq]
            obtain ⟨x, hx1, hx2⟩ : ∃ x, (nu = false → x = strList u us) ∧ (nu = true → HiddenText (strList u us) x) := by
              cases nu with
              | false => exact ⟨_, fun _ => rfl, by simp⟩
              | true => exact ⟨_, by simp, fun _ => hiddenText_split _⟩
            refine ⟨_, _, e, .wholeLiteral (x := x) hnb hk hs hl hli hrs g5 (by rw [← hstr]; exact hx1) (by rw [← hstr]; exact hx2), ?_⟩
            exact .cons (.whole hs hl hli hx1 hx2) .nil

theorem convertText_anyPieces {u : Ucd} (hu : u.Laws) (nu : Bool) (o : PieceOpts) (l : List (TokType × Str)) :
    ∃ ts ps, convertText u l = .ok ts ∧ DescribedAnyAll u nu o l ps ∧ AnyParsedAll u nu o ts ps := by
  induction l with
  | nil => exact ⟨[], [], rfl, .nil, .nil⟩
  | cons e r ih =>
    obtain ⟨ty, v⟩ := e
    obtain ⟨ts, ps, h1, h2, h3⟩ := convert_anyPieces hu nu o ty v
    obtain ⟨us, qs, h4, h5, h6⟩ := ih
    refine ⟨ts ++ us, ps ++ qs, ?_, .cons h2 h5, anyParsedAll_append h3 h6⟩
    simp only [convertText, bind, Except.bind, h1, h4]

end Verif.Props
