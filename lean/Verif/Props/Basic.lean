import Verif.Props.Parse
/-!
# Basic splitting (C22, C49)
-/
namespace Verif.Props
open Verif Spec

/-- A representation configuration of basic splitting without ronin and stemming. -/
structure BasicRc (rc : ReprConfig) (nc : Bool) : Prop where
  container : Ty.splitContainer ∈ rc.types
  word : Ty.word ∈ rc.types
  underscore : Ty.underscore ∉ rc.types
  bpe : rc.bpe = false
  lower : rc.lowercase = nc
  splitWord : ∀ s, rc.splitWord s = .ok [s]

theorem basicRc {env : Env} {o : CommonOpts} {sn nc : Bool} {v : Str} {bd : Option BpeData} {rc : ReprConfig}
    (h : RcOk env (configOf (.basic o sn false false nc) v) bd rc) : BasicRc rc nc where
  container := by rw [h.types, typesToBeRepr_mem]; left; cases sn <;> simp [configOf, splitCode]
  word := by rw [h.types, typesToBeRepr_mem]; left; cases sn <;> simp [configOf, splitCode]
  underscore := by rw [h.types, typesToBeRepr_mem]; simp
  bpe := by rw [h.bpe]; cases sn <;> simp [configOf, splitCode, PrepConfig.isBpe]
  lower := by rw [h.lowercase]; cases nc <;> simp [configOf, noCaseOf]
  splitWord := by
    intro s
    have := h.word
    unfold ReprConfig.splitWord
    cases sn <;> simp [configOf, splitCode, PrepConfig.wordSplitter] at this <;> rw [← this]

theorem all_of_forall {p : Char → Bool} {l : Str} (h : ∀ c ∈ l, p c = true) : l.all p = true := List.all_eq_true.mpr h

theorem markPiece_other {nc : Bool} {p : Str} (hp : p ≠ []) (h : ∀ c ∈ p, asciiUpper c = false) : markPiece nc p = [p] := by
  cases p with
  | nil => exact absurd rfl hp
  | cons c r => cases nc <;> simp [markPiece, h c (by simp)]

theorem AsciiPiece.repr {u : Ucd} (hu : u.Laws) {rc : ReprConfig} {nc : Bool} (hr : BasicRc rc nc) {p : Str} {w : Subtok}
    (h : AsciiPiece p w) : w.repr u rc = .ok (markPiece nc p) := by
  have str := h.str hu
  cases h with
  | underscore =>
    rw [Subtok.repr, if_neg hr.underscore, markPiece_other (by simp) (by decide)]
  | lower hne hall =>
    rw [markPiece_other hne fun c hc => asciiLower_not_upper (hall c hc), Subtok.repr, if_pos hr.word, hr.lower]
    cases nc <;> simp [hr.splitWord, bind, Except.bind, withCapPrefixes, withPreservedCase]
  | other hne _ hall =>
    rw [markPiece_other hne fun c hc => (hall c hc).2.1, Subtok.repr, if_pos hr.word, hr.lower]
    cases nc <;> simp [hr.splitWord, bind, Except.bind, withCapPrefixes, withPreservedCase]
  | capitals hne hall =>
    rw [Subtok.str] at str
    rw [Subtok.repr, if_pos hr.word, hr.lower]
    cases nc with
    | false => simp [hr.splitWord, str, markPiece]
    | true =>
      have h1 := all_of_forall hall
      simp only [markPiece, h1, if_true, hr.splitWord, bind, Except.bind, withCapPrefixes]
      rfl
  | @capitalised c l hc hne hall =>
    rw [Subtok.str] at str
    rw [Subtok.repr, if_pos hr.word, hr.lower]
    cases nc with
    | false => simp [hr.splitWord, str, markPiece]
    | true =>
      have h1 : (c :: l).all asciiUpper = false := by
        cases l with
        | nil => exact absurd rfl hne
        | cons d t => simp [asciiLower_not_upper (hall d (by simp))]
      have h2 : ((c :: l).take 1).all asciiUpper = true := by simp [hc]
      have h3 : (c :: l).map asciiToLower = asciiToLower c :: l := by
        rw [List.map_cons, map_toLower_id fun c hc => asciiLower_not_upper (hall c hc)]
      simp only [markPiece, h1, h2, h3, if_true, hr.splitWord, bind, Except.bind, withCapPrefixes]
      rfl

theorem Pieces.repr {u : Ucd} (hu : u.Laws) {rc : ReprConfig} {nc : Bool} (hr : BasicRc rc nc) {ps : List Str}
    {ws : List Subtok} (h : Pieces ps ws) (acc : List Str) :
    subtoksRepr u rc acc ws = .ok (acc ++ ps.flatMap (markPiece nc)) := by
  induction h generalizing acc with
  | nil => simp [subtoksRepr]
  | cons hp _ ih =>
    simp only [subtoksRepr, AsciiPiece.repr hu hr hp, bind, Except.bind]
    rw [ih]
    simp

theorem markPiece_cases (nc : Bool) (p : Str) : markPiece nc p = [p] ∨
    (nc = true ∧ p.all asciiUpper = true ∧ markPiece nc p = ["<CAPS>".toList, p.map asciiToLower]) ∨
    (nc = true ∧ (p.take 1).all asciiUpper = true ∧ markPiece nc p = ["<Cap>".toList, p.map asciiToLower]) := by
  unfold markPiece
  repeat' split
  all_goals simp_all

theorem markPiece_ne (nc : Bool) (p : Str) : markPiece nc p ≠ [] := by
  rcases markPiece_cases nc p with h | ⟨-, -, h⟩ | ⟨-, -, h⟩ <;> rw [h] <;> simp

/-- Pieces of identifiers contain no `<`. -/
theorem wrap_marks (nc : Bool) (ps : List Str) (hm : ∀ p ∈ ps, '<' ∉ p) :
    wrapInWordBoundaries (ps.flatMap (markPiece nc)) = markWord nc ps := by
  have hc : ∀ p ∈ ps, p ≠ "<Cap>".toList ∧ p ≠ "<CAPS>".toList := by
    intro p hp
    constructor <;> (rintro rfl; exact hm _ hp (by decide))
  match ps, hc with
  | [], _ => rfl
  | [p], _ =>
    rw [List.flatMap_singleton]
    show _ = markPiece nc p
    rcases markPiece_cases nc p with h | ⟨-, -, h⟩ | ⟨-, -, h⟩ <;> rw [h]
    · rfl
    · unfold wrapInWordBoundaries; rw [if_pos]; simp [Ph.capitals]
    · unfold wrapInWordBoundaries; rw [if_pos]; simp [Ph.capital]
  | p :: q :: r, hc =>
    show _ = ["<w>".toList] ++ (p :: q :: r).flatMap (markPiece nc) ++ ["</w>".toList]
    unfold wrapInWordBoundaries
    rw [if_neg]
    · rfl
    · simp only [List.flatMap_cons]
      have hq := List.length_pos_iff.mpr (markPiece_ne nc q)
      rcases markPiece_cases nc p with h | ⟨-, -, h⟩ | ⟨-, -, h⟩ <;> rw [h]
      · have := hc p (by simp)
        simp [Ph.capital, Ph.capitals]
        refine ⟨fun h => absurd h (List.length_pos_iff.mp hq), fun _ => ?_⟩
        exact ⟨this.2, this.1⟩
      · simp only [List.length_append, List.length_cons, List.length_nil, Bool.or_eq_true, Bool.and_eq_true, decide_eq_true_eq]
        omega
      · simp only [List.length_append, List.length_cons, List.length_nil, Bool.or_eq_true, Bool.and_eq_true, decide_eq_true_eq]
        omega

/-! ## Reading the output -/

/-- The capital of the first letter is restored, if it was one and the rest was in lower case. -/
theorem decode_markPiece {p : Str} {w : Subtok} (h : AsciiPiece p w) (nc : Bool) (hm : '<' ∉ p) (t : List Str) :
    decodeFrom id (markPiece nc p ++ t) = p ++ decodeFrom id t := by
  have plain : ∀ (q : Str) (f : Str → Str), '<' ∉ q → decodeFrom f (q :: t) = f q ++ decodeFrom id t := by
    intro q f hq
    rw [decodeFrom, if_neg, if_neg, if_neg]
    · rintro rfl; exact hq (by decide)
    · rintro rfl; exact hq (by decide)
    · rintro (rfl | rfl) <;> exact hq (by decide)
  have hlow : '<' ∉ p.map asciiToLower := by
    intro hx
    obtain ⟨c, h1, h2⟩ := List.mem_map.mp hx
    by_cases hu : asciiUpper c = true
    · have := asciiToLower_lower hu
      rw [h2] at this
      exact absurd this (by decide)
    · rw [asciiToLower_id (by simpa using hu)] at h2
      subst h2
      exact hm h1
  have caps : ∀ r, decodeFrom id ("<CAPS>".toList :: r) = decodeFrom (fun s => s.map asciiToUpper) r := by
    intro r; rw [decodeFrom, if_neg (by decide), if_neg (by decide), if_pos rfl]
  have cap : ∀ r, decodeFrom id ("<Cap>".toList :: r) = decodeFrom capFirst r := by
    intro r; rw [decodeFrom, if_neg (by decide), if_pos rfl]
  cases nc with
  | false => exact plain p id hm
  | true =>
    cases h with
    | underscore => exact plain _ id hm
    | lower hne hall =>
      rw [markPiece_other hne fun c hc => asciiLower_not_upper (hall c hc)]
      exact plain _ id hm
    | other hne _ hall =>
      rw [markPiece_other hne fun c hc => (hall c hc).2.1]
      exact plain _ id hm
    | capitals hne hall =>
      have h1 := all_of_forall hall
      simp only [markPiece, h1, if_true, List.cons_append, List.nil_append]
      rw [caps, plain _ _ hlow, map_toUpper_toLower hall]
    | @capitalised c l hc hne hall =>
      have h1 : (c :: l).all asciiUpper = false := by
        cases l with
        | nil => exact absurd rfl hne
        | cons d t => simp [asciiLower_not_upper (hall d (by simp))]
      have h2 : ((c :: l).take 1).all asciiUpper = true := by simp [hc]
      simp only [markPiece, h1, h2, if_true, Bool.false_eq_true, if_false, List.cons_append, List.nil_append]
      rw [cap, plain _ _ hlow, List.map_cons, capFirst, asciiToUpper_toLower hc,
        map_toLower_id fun c hc => asciiLower_not_upper (hall c hc)]
      rfl

theorem decode_pieces {ps : List Str} {ws : List Subtok} (h : Pieces ps ws) (nc : Bool) (hm : ∀ p ∈ ps, '<' ∉ p)
    (t : List Str) : decodeFrom id (ps.flatMap (markPiece nc) ++ t) = ps.flatten ++ decodeFrom id t := by
  induction h with
  | nil => rfl
  | cons hp _ ih =>
    rw [List.flatMap_cons, List.append_assoc, decode_markPiece hp nc (hm _ (by simp)), ih fun p hp => hm p (by simp [hp])]
    simp

theorem decode_markWord {ps : List Str} {ws : List Subtok} (h : Pieces ps ws) (nc : Bool) (hm : ∀ p ∈ ps, '<' ∉ p) :
    decodeWord (markWord nc ps) = ps.flatten := by
  have wrapped : decodeWord (["<w>".toList] ++ ps.flatMap (markPiece nc) ++ ["</w>".toList]) = ps.flatten := by
    unfold decodeWord
    rw [List.append_assoc, List.singleton_append, decodeFrom, if_pos (.inl rfl), decode_pieces h nc hm]
    simp [decodeFrom]
  match ps, wrapped, h with
  | [], w, _ => exact w
  | [p], _, h =>
    have := decode_pieces h nc hm []
    simpa [decodeFrom, markWord, decodeWord] using this
  | p :: q :: r, w, _ => exact w

theorem joinPieces_markWord {ps : List Str} (hm : ∀ p ∈ ps, '<' ∉ p) : joinPieces (markWord false ps) = ps.flatten := by
  have hc : ∀ p ∈ ps, p ≠ "<w>".toList ∧ p ≠ "</w>".toList := by
    intro p hp
    constructor <;> (rintro rfl; exact hm _ hp (by decide))
  have hf : ps.filter (fun t => t ≠ "<w>".toList && t ≠ "</w>".toList) = ps := by
    rw [List.filter_eq_self]
    intro p hp
    have := hc p hp
    simp only [Bool.and_eq_true, decide_eq_true_eq]
    exact this
  have hfm : ∀ l : List Str, l.flatMap (markPiece false) = l := by
    intro l; induction l with
    | nil => rfl
    | cons a r ih => rw [List.flatMap_cons, ih]; rfl
  have e : ∀ l : List Str, joinPieces (["<w>".toList] ++ l ++ ["</w>".toList]) =
      (l.filter fun t => t ≠ "<w>".toList && t ≠ "</w>".toList).flatten := by
    intro l
    unfold joinPieces
    rw [List.filter_append, List.filter_append]
    have e1 : (["<w>".toList] : List Str).filter (fun t => t ≠ "<w>".toList && t ≠ "</w>".toList) = [] := by decide
    have e2 : (["</w>".toList] : List Str).filter (fun t => t ≠ "<w>".toList && t ≠ "</w>".toList) = [] := by decide
    rw [e1, e2]
    simp
  have wrapped : joinPieces (["<w>".toList] ++ ps.flatMap (markPiece false) ++ ["</w>".toList]) = ps.flatten := by
    rw [e, hfm, hf]
  match ps, wrapped, hf with
  | [], w, _ => exact w
  | [p], _, hf => exact congrArg List.flatten hf
  | p :: q :: r, w, _ => exact w

/-- An identifier: not empty, and made of ASCII letters, digits and underscores. -/
def Identifier (s : Str) : Prop := s ≠ [] ∧ ∀ c ∈ s, asciiUpper c = true ∨ asciiLower c = true ∨ asciiDigit c = true ∨ c = '_'

theorem Identifier.facts {u : Ucd} (hu : u.Laws) {s : Str} (h : Identifier s) :
    (∀ c ∈ s, isAscii c = true ∧ u.reWord c = true ∧ c ≠ ' ' ∧ c ≠ '<') := by
  intro c hc
  have ha : isAscii c = true := by
    rcases h.2 c hc with h | h | h | rfl
    · exact asciiUpper_isAscii h
    · exact asciiLower_isAscii h
    · exact asciiDigit_isAscii h
    · rfl
  refine ⟨ha, ?_, ?_, ?_⟩
  · rw [hu.reWord_ascii c ha]
    rcases h.2 c hc with h | h | h | rfl
    · simp [h]
    · simp [h]
    · simp [h]
    · simp
  · rintro rfl; rcases h.2 _ hc with h | h | h | h <;> exact absurd h (by decide)
  · rintro rfl; rcases h.2 _ hc with h | h | h | h <;> exact absurd h (by decide)

/-- An identifier is one word; it is a number or a list of pieces. -/
theorem splitIntoWords_identifier {u : Ucd} (hu : u.Laws) {s : Str} (h : Identifier s) (hn : ¬ IsNumber s) :
    ∃ ps ws, IdentSplit u s ps ∧ Pieces ps ws ∧ splitIntoWords u s = .ok [.split ws] := by
  have hf := h.facts hu
  have hts : TextSplit u s [s] := by
    have := TextSplit.word (u := u) (w := s) (r := []) (ps := []) h.1 (fun c hc => (hf c hc).2.1) (by simp [NotStarting]) .nil
    rwa [List.append_nil] at this
  obtain ⟨ps, ws, h1, h2, h3, _⟩ := splitIdentifier_ascii hu (fun c hc => (hf c hc).1) fun hs => (hf _ hs).2.2.1 rfl
  refine ⟨ps, ws, h1, h2, ?_⟩
  have hw : wordPiece u s = .ok (.split ws) := by
    unfold wordPiece toParsedToken
    rw [if_neg (by rintro rfl; exact (hf ' ' (by simp)).2.2.1 rfl), if_neg, if_neg, if_neg, if_pos, h3]
    · simp only [isWordText, Bool.and_eq_true]
      exact ⟨by simpa using h.1, all_of_forall fun c hc => (hf c hc).2.1⟩
    · rw [isNumber_iff]; exact hn
    · rintro rfl; rcases h.2 '\t' (by simp) with h | h | h | h <;> exact absurd h (by decide)
    · rintro rfl; rcases h.2 '\n' (by simp) with h | h | h | h <;> exact absurd h (by decide)
  rw [splitIntoWords, (textSplit_iff hu s [s]).mp hts, List.mapM_cons, hw]
  rfl

theorem Identifier.not_blank {u : Ucd} (hu : u.Laws) {s : Str} (h : Identifier s) :
    u.isBlank s = false ∧ s ≠ ['\n'] ∧ s ≠ ['\t'] := by
  have ne : ∀ c, ¬ (asciiUpper c = true ∨ asciiLower c = true ∨ asciiDigit c = true ∨ c = '_') → s ≠ [c] := by
    rintro c hc rfl; exact hc (h.2 c (by simp))
  refine ⟨?_, ne _ (by decide), ne _ (by decide)⟩
  obtain ⟨hne, hall⟩ := h
  cases s with
  | nil => exact absurd rfl hne
  | cons c r =>
    have ha := (Identifier.facts hu ⟨hne, hall⟩ c (by simp)).1
    have : u.space c = false := by
      rw [hu.space_ascii c ha]
      have hc := hall c (by simp)
      simp only [asciiUpper, asciiLower, asciiDigit, Bool.and_eq_true, decide_eq_true_eq] at hc
      simp only [Bool.or_eq_false_iff, decide_eq_false_iff_not, Bool.and_eq_false_iff]
      rcases hc with hc | hc | hc | rfl
      · exact ⟨⟨by rintro rfl; simp at hc, by omega⟩, by omega⟩
      · exact ⟨⟨by rintro rfl; simp at hc, by omega⟩, by omega⟩
      · exact ⟨⟨by rintro rfl; simp at hc, by omega⟩, by omega⟩
      · decide
    simp [Ucd.isBlank, this]

/-- **C22** What basic splitting makes of an identifier: the pieces of the identifier, between `<w>` and `</w>` if there are
several, and with marks for capitals if letters are to be lower-cased. -/
theorem C22_output (env : Env) (hu : env.ucd.Laws) (load : Str → Except PyErr BpeData) (o : CommonOpts) (sn nc : Bool)
    (s : Str) (hs : Identifier s) (hn : ¬ IsNumber s) (ty : TokType) (hk : kindOf ty = .words) :
    ∃ ps md, IdentSplit env.ucd s ps ∧
      textApi env load (.basic o sn false false nc) [(ty, s)] false = .ok (markWord nc ps, md) := by
  obtain ⟨v, hv, hvp⟩ := createStrValue_ok o.noStr o.maxStrLength
  have hc := (textConfig_eq (.basic o sn false false nc) hv hvp).1
  have hcv := configOf_valid (.basic o sn false false nc) hvp
  obtain ⟨ps, ws, h1, h2, h3⟩ := splitIntoWords_identifier hu hs hn
  obtain ⟨rc, hok, hr⟩ := toRepr_eq (env := env) hcv [.split ws] none
  have hb := basicRc hok
  have hm : ∀ p ∈ ps, '<' ∉ p := by
    intro p hp hx
    have hf := Identifier.facts hu hs
    have : '<' ∈ s := by
      rw [← identSplit_flatten h1 fun hsp => (hf _ hsp).2.2.1 rfl]
      exact List.mem_flatten.mpr ⟨p, hp, hx⟩
    exact (hf _ this).2.2.2 rfl
  have hunits : unitsList env.ucd rc false [.split ws] = .ok [⟨.splitContainer, markWord nc ps, []⟩] := by
    have : splitUnits env.ucd rc ws = .ok [⟨.splitContainer, markWord nc ps, []⟩] := by
      unfold splitUnits
      rw [if_pos hb.container, hb.bpe]
      simp only [Bool.false_eq_true, if_false, bind, Except.bind]
      rw [Pieces.repr hu hb h2]
      simp only [List.nil_append]
      rw [wrap_marks nc ps hm]
    simp only [unitsList, Tok.units, this, bind, Except.bind, List.append_nil]
  obtain ⟨hb1, hb2, hb3⟩ := Identifier.not_blank hu hs
  have hconv : convertText env.ucd [(ty, s)] = .ok [.split ws] := by
    rw [C25_single, convert_kind _ _ _ hb1 hb2 hb3, hk]
    exact h3
  have hnb : (configOf (.basic o sn false false nc) v).isBpe = false := by
    cases sn <;> simp [configOf, splitCode, PrepConfig.isBpe]
  refine ⟨ps, (flatForm [⟨.splitContainer, markWord nc ps, []⟩]).2, h1, ?_⟩
  unfold textApi
  rw [hc]
  simp only [bind, Except.bind]
  unfold preprocessText
  rw [hconv]
  simp only [bind, Except.bind, hnb, Bool.false_eq_true, if_false]
  have : finishParsed [Tok.split ws] false = [Tok.split ws] := rfl
  rw [this, hr, hunits]
  simp [Except.map, hnb]

/-- **C22** The output of basic splitting determines the identifier: with `no_case` the marks say where the capitals were,
without it the pieces only have to be joined. -/
theorem C22_reversible (env : Env) (hu : env.ucd.Laws) (load : Str → Except PyErr BpeData) (o : CommonOpts) (sn nc : Bool)
    (s : Str) (hs : Identifier s) (hn : ¬ IsNumber s) (ty : TokType) (hk : kindOf ty = .words) :
    ∃ out md, textApi env load (.basic o sn false false nc) [(ty, s)] false = .ok (out, md) ∧
      decodeWord out = s ∧ (nc = false → joinPieces out = s) := by
  obtain ⟨ps, md, h1, h2⟩ := C22_output env hu load o sn nc s hs hn ty hk
  have hf := Identifier.facts hu hs
  have hfl : ps.flatten = s := identSplit_flatten h1 fun hsp => (hf _ hsp).2.2.1 rfl
  have hm : ∀ p ∈ ps, '<' ∉ p := by
    intro p hp hx
    have : '<' ∈ s := by rw [← hfl]; exact List.mem_flatten.mpr ⟨p, hp, hx⟩
    exact (hf _ this).2.2.2 rfl
  obtain ⟨ws, hws⟩ := identSplit_pieces hu h1 fun c hc => (hf c hc).1
  refine ⟨_, md, h2, ?_, ?_⟩
  · rw [decode_markWord hws nc hm, hfl]
  · rintro rfl
    rw [joinPieces_markWord hm, hfl]

/-- **C22** Different identifiers have different outputs. -/
theorem C22_injective (env : Env) (hu : env.ucd.Laws) (load : Str → Except PyErr BpeData) (o : CommonOpts) (sn nc : Bool)
    (s t : Str) (hs : Identifier s) (hns : ¬ IsNumber s) (ht : Identifier t) (hnt : ¬ IsNumber t) (ty : TokType)
    (hk : kindOf ty = .words) (h : textApi env load (.basic o sn false false nc) [(ty, s)] false =
      textApi env load (.basic o sn false false nc) [(ty, t)] false) : s = t := by
  obtain ⟨a, ma, h1, h2, -⟩ := C22_reversible env hu load o sn nc s hs hns ty hk
  obtain ⟨b, mb, h3, h4, -⟩ := C22_reversible env hu load o sn nc t ht hnt ty hk
  rw [h1, h3] at h
  cases h
  rw [← h2, h4]

example : Identifier "myXMLParser_2".toList ∧ ¬ IsNumber "myXMLParser_2".toList ∧ kindOf ["Name", "Function"] = .words := by
  refine ⟨⟨by decide, by decide +kernel⟩, ?_, by decide⟩
  rw [← isNumber_iff]; decide +kernel

example : (textApi demoEnv (fun _ => .error .keyError) (.basic {} false false false true) [(["Name"], "myXMLParser_2".toList)]
    false).toOption.map (·.1) = some (["<w>", "my", "<CAPS>", "xml", "<Cap>", "parser", "_", "2", "</w>"].map String.toList) := by
  decide +kernel

/-- **C22** A number is left whole, unless numbers are to be split; then its characters are put between `<w>` and `</w>` if
there are several. -/
theorem C22_numbers (env : Env) (hu : env.ucd.Laws) (load : Str → Except PyErr BpeData) (o : CommonOpts) (sn nc : Bool)
    (s : Str) (hs : IsNumber s) (h1 : s ≠ "1".toList) (h0 : s ≠ "0".toList) (ty : TokType) (hk : kindOf ty = .number) :
    ∃ md, textApi env load (.basic o sn false false nc) [(ty, s)] false = .ok (markNumber sn (s.map asciiToLower), md) := by
  obtain ⟨v, hv, hvp⟩ := createStrValue_ok o.noStr o.maxStrLength
  have hc := (textConfig_eq (.basic o sn false false nc) hv hvp).1
  have hcv := configOf_valid (.basic o sn false false nc) hvp
  have hasc := (isNumber_ascii hs).2
  have hne := (isNumber_ascii hs).1
  have hblank : env.ucd.isBlank s = false ∧ s ≠ ['\n'] ∧ s ≠ ['\t'] := by
    refine ⟨?_, ?_, ?_⟩
    · cases s with
      | nil => exact absurd rfl hne
      | cons c r =>
        have hch := (isNumber_chars hs).2 c (by simp)
        have : env.ucd.space c = false := by
          rw [hu.space_ascii c (hasc c (by simp))]
          simp only [numChar, Bool.and_eq_true, decide_eq_true_eq] at hch
          simp only [Bool.or_eq_false_iff, decide_eq_false_iff_not, Bool.and_eq_false_iff]
          exact ⟨⟨by rintro rfl; simp at hch, by omega⟩, by omega⟩
        simp [Ucd.isBlank, this]
    · rintro rfl; rw [← isNumber_iff] at hs; exact absurd hs (by decide)
    · rintro rfl; rw [← isNumber_iff] at hs; exact absurd hs (by decide)
  have hconv : convertText env.ucd [(ty, s)] = .ok [.number (s.map asciiToLower)] := by
    rw [C25_single, convert_kind _ _ _ hblank.1 hblank.2.1 hblank.2.2, hk]
    simp only [tokensOf, numberToken]
    rw [if_neg h0, if_neg h1, hu.toLower_ascii _ (all_of_forall hasc)]
  obtain ⟨rc, hok, hr⟩ := toRepr_eq (env := env) hcv [.number (s.map asciiToLower)] none
  have hunits : numberUnits rc .number (s.map asciiToLower) = .ok [⟨.number, markNumber sn (s.map asciiToLower), []⟩] := by
    unfold markNumber
    unfold numberUnits
    have hnum := hok.number
    have hb := (basicRc hok).bpe
    have hty : Ty.number ∈ rc.types ↔ sn = true := by
      rw [hok.types, typesToBeRepr_mem]
      cases sn <;> simp [configOf, splitCode]
    cases sn with
    | false =>
      rw [if_neg (by rw [hty]; simp)]
      simp
    | true =>
      rw [if_pos (hty.mpr rfl)]
      have hsp : rc.numberSplitter = fun s => .ok (s.map fun ch => [ch]) := by
        simp [configOf, splitCode, PrepConfig.numberSplitter] at hnum
        exact hnum.symm
      rw [hsp, hb]
      simp only [bind, Except.bind]
      by_cases hl : 1 < (s.map asciiToLower).length
      · simp [Ph.wordStart, Ph.wordEnd] at hl ⊢
        simp [hl]
      · have : s.length = 1 := by
          have := List.length_pos_iff.mpr hne
          simp at hl; omega
        obtain ⟨c, rfl⟩ := List.length_eq_one_iff.mp this
        simp
  have hnb : (configOf (.basic o sn false false nc) v).isBpe = false := by
    cases sn <;> simp [configOf, splitCode, PrepConfig.isBpe]
  refine ⟨(flatForm [⟨.number, markNumber sn (s.map asciiToLower), []⟩]).2, ?_⟩
  · unfold textApi
    rw [hc]
    simp only [bind, Except.bind]
    unfold preprocessText
    rw [hconv]
    simp only [bind, Except.bind, hnb, Bool.false_eq_true, if_false]
    have : finishParsed [Tok.number (s.map asciiToLower)] false = [Tok.number (s.map asciiToLower)] := rfl
    have hul : unitsList env.ucd rc false [Tok.number (s.map asciiToLower)] = numberUnits rc .number (s.map asciiToLower) := by
      rw [hunits]
      simp only [unitsList, Tok.units, hunits, bind, Except.bind, List.append_nil]
    rw [this, hr, hul, hunits]
    simp [Except.map, hnb]

example : IsNumber "0xFF".toList ∧ kindOf ["Literal", "Number", "Hex"] = .number := by
  rw [← isNumber_iff]; decide +kernel

/-! ## C49: ronin and stemming -/

/-- A representation configuration that splits words with `f`. -/
structure WordRc (rc : ReprConfig) (f : Str → List Str) (nc : Bool) : Prop where
  container : Ty.splitContainer ∈ rc.types
  word : Ty.word ∈ rc.types
  underscore : Ty.underscore ∉ rc.types
  bpe : rc.bpe = false
  lower : rc.lowercase = nc
  splitWord : ∀ s, rc.splitWord s = .ok (f s)

theorem stem_eq (env : Env) (w : Str) : w ≠ [] → stem env w = likeCase env.ucd w (env.porter w) := by
  intro h
  cases w with
  | nil => exact absurd rfl h
  | cons c r => rfl

/-- The function that splits words with ronin and then stems the parts. -/
def roninStem (env : Env) (st : Bool) (s : Str) : List Str :=
  if st then (env.ronin s).map fun w => if w = [] then w else likeCase env.ucd w (env.porter w) else env.ronin s

theorem wordRc {env : Env} {o : CommonOpts} {sn ro st nc : Bool} (hrs : ro = true ∨ st = true) {v : Str} {bd : Option BpeData}
    {rc : ReprConfig} (h : RcOk env (configOf (.basic o sn ro st nc) v) bd rc) : WordRc rc (roninStem env st) nc where
  container := by rw [h.types, typesToBeRepr_mem]; left; cases sn <;> cases ro <;> cases st <;> simp [configOf, splitCode]
  word := by rw [h.types, typesToBeRepr_mem]; left; cases sn <;> cases ro <;> cases st <;> simp [configOf, splitCode]
  underscore := by rw [h.types, typesToBeRepr_mem]; simp
  bpe := by rw [h.bpe]; cases sn <;> cases ro <;> cases st <;> simp [configOf, splitCode, PrepConfig.isBpe]
  lower := by rw [h.lowercase]; cases nc <;> simp [configOf, noCaseOf]
  splitWord := by
    intro s
    have hw := h.word
    have hst : ∀ l : List Str, l.map (stem env) = l.map fun w => if w = [] then w else likeCase env.ucd w (env.porter w) := by
      intro l
      refine List.map_congr_left fun w _ => ?_
      split
      · rename_i e; subst e; rfl
      · rename_i e; exact stem_eq env w e
    unfold ReprConfig.splitWord
    cases st with
    | true => cases sn <;> cases ro <;> simp [configOf, splitCode, PrepConfig.wordSplitter] at hw <;> rw [← hw] <;>
        simp [roninStem, hst]
    | false =>
      have hro : ro = true := by simpa using hrs
      subst hro
      cases sn <;> simp [configOf, splitCode, PrepConfig.wordSplitter] at hw <;> rw [← hw] <;> simp [roninStem]

theorem AsciiPiece.reprWith {u : Ucd} (hu : u.Laws) {rc : ReprConfig} {f : Str → List Str} {nc : Bool} (hr : WordRc rc f nc)
    {p : Str} {w : Subtok} (h : AsciiPiece p w) : w.repr u rc = .ok (markPieceWith f nc p) := by
  have str := h.str hu
  have plain : ∀ {q : Str}, q ≠ [] → q ≠ ['_'] → (∀ c ∈ q, asciiUpper c = false) → markPieceWith f nc q = f q := by
    intro q hq hq' hall
    cases q with
    | nil => exact absurd rfl hq
    | cons c r =>
      unfold markPieceWith
      rw [if_neg hq']
      cases nc <;> simp [hall c (by simp)]
  cases h with
  | underscore => rw [Subtok.repr, if_neg hr.underscore]; rfl
  | lower hne hall =>
    rw [plain hne (by rintro rfl; exact absurd (hall '_' (by simp)) (by decide)) fun c hc => asciiLower_not_upper (hall c hc),
      Subtok.repr, if_pos hr.word, hr.lower]
    cases nc <;> simp [hr.splitWord, bind, Except.bind, withCapPrefixes, withPreservedCase]
  | other hne hne' hall =>
    rw [plain hne hne' fun c hc => (hall c hc).2.1, Subtok.repr, if_pos hr.word, hr.lower]
    cases nc <;> simp [hr.splitWord, bind, Except.bind, withCapPrefixes, withPreservedCase]
  | capitals hne hall =>
    rw [Subtok.str] at str
    have hu' : p ≠ ['_'] := by rintro rfl; exact absurd (hall '_' (by simp)) (by decide)
    rw [Subtok.repr, if_pos hr.word, hr.lower]
    cases nc with
    | false => simp [hr.splitWord, str, markPieceWith, hu']
    | true =>
      have h1 := all_of_forall hall
      simp only [markPieceWith, hu', h1, if_true, if_false, hr.splitWord, bind, Except.bind, withCapPrefixes]
      rfl
  | @capitalised c l hc hne hall =>
    rw [Subtok.str] at str
    have hu' : c :: l ≠ ['_'] := by
      intro e
      simp only [List.cons.injEq] at e
      exact hne e.2
    rw [Subtok.repr, if_pos hr.word, hr.lower]
    cases nc with
    | false => simp only [hr.splitWord, str, markPieceWith, if_neg hu', Bool.false_eq_true, if_false]
    | true =>
      have h1 : (c :: l).all asciiUpper = false := by
        cases l with
        | nil => exact absurd rfl hne
        | cons d t => simp [asciiLower_not_upper (hall d (by simp))]
      have h2 : ((c :: l).take 1).all asciiUpper = true := by simp [hc]
      have h3 : (c :: l).map asciiToLower = asciiToLower c :: l := by
        rw [List.map_cons, map_toLower_id fun c hc => asciiLower_not_upper (hall c hc)]
      simp only [markPieceWith, if_neg hu', h1, h2, h3, if_true, hr.splitWord, bind, Except.bind, withCapPrefixes,
        Bool.false_eq_true, if_false]
      rfl

theorem Pieces.reprWith {u : Ucd} (hu : u.Laws) {rc : ReprConfig} {f : Str → List Str} {nc : Bool} (hr : WordRc rc f nc)
    {ps : List Str} {ws : List Subtok} (h : Pieces ps ws) (acc : List Str) :
    subtoksRepr u rc acc ws = .ok (acc ++ ps.flatMap (markPieceWith f nc)) := by
  induction h generalizing acc with
  | nil => simp [subtoksRepr]
  | cons hp _ ih =>
    simp only [subtoksRepr, AsciiPiece.reprWith hu hr hp, bind, Except.bind]
    rw [ih]
    simp

theorem wrap_eq (l : List Str) : wrapInWordBoundaries l = wrapWord l := by
  match l with
  | [] => rfl
  | [x] => rfl
  | [m, x] =>
    show _ = if m = "<Cap>".toList ∨ m = "<CAPS>".toList then [m, x] else ["<w>".toList, m, x, "</w>".toList]
    unfold wrapInWordBoundaries
    by_cases h : m = "<Cap>".toList ∨ m = "<CAPS>".toList
    · rw [if_pos h, if_pos]
      simp only [List.length_cons, List.length_nil, List.head?_cons, List.mem_cons, List.not_mem_nil, or_false,
        Bool.or_eq_true, Bool.and_eq_true, decide_eq_true_eq]
      exact .inr ⟨trivial, h.symm⟩
    · rw [if_neg h, if_neg]
      · rfl
      · simp only [List.length_cons, List.length_nil, List.head?_cons, List.mem_cons, List.not_mem_nil, or_false,
          Bool.or_eq_true, Bool.and_eq_true, decide_eq_true_eq]
        rintro (h' | ⟨-, h'⟩)
        · exact absurd h' (by decide)
        · exact h h'.symm
  | a :: b :: c :: r =>
    unfold wrapInWordBoundaries
    rw [if_neg (by simp)]
    rfl

/-- **C49** With ronin splitting, every word of an identifier is split by ronin; with stemming the parts are stemmed after
that, and every stem gets the capitals of the part it comes from.  Ronin and the stemmer are arbitrary functions here. -/
theorem C49_ronin_stem (env : Env) (hu : env.ucd.Laws) (load : Str → Except PyErr BpeData) (o : CommonOpts)
    (sn ro st nc : Bool) (hrs : ro = true ∨ st = true)
    (s : Str) (hs : Identifier s) (hn : ¬ IsNumber s) (ty : TokType) (hk : kindOf ty = .words) :
    ∃ ps md, IdentSplit env.ucd s ps ∧ textApi env load (.basic o sn ro st nc) [(ty, s)] false =
      .ok (wrapWord (ps.flatMap (markPieceWith (roninStem env st) nc)), md) := by
  obtain ⟨v, hv, hvp⟩ := createStrValue_ok o.noStr o.maxStrLength
  have hc := (textConfig_eq (.basic o sn ro st nc) hv hvp).1
  have hcv := configOf_valid (.basic o sn ro st nc) hvp
  obtain ⟨ps, ws, h1, h2, h3⟩ := splitIntoWords_identifier hu hs hn
  obtain ⟨rc, hok, hr⟩ := toRepr_eq (env := env) hcv [.split ws] none
  have hb := wordRc hrs hok
  have hunits : unitsList env.ucd rc false [.split ws] =
      .ok [⟨.splitContainer, wrapWord (ps.flatMap (markPieceWith (roninStem env st) nc)), []⟩] := by
    have : splitUnits env.ucd rc ws =
        .ok [⟨.splitContainer, wrapWord (ps.flatMap (markPieceWith (roninStem env st) nc)), []⟩] := by
      unfold splitUnits
      rw [if_pos hb.container, hb.bpe]
      simp only [Bool.false_eq_true, if_false, bind, Except.bind]
      rw [Pieces.reprWith hu hb h2]
      simp only [List.nil_append]
      rw [wrap_eq]
    simp only [unitsList, Tok.units, this, bind, Except.bind, List.append_nil]
  obtain ⟨hb1, hb2, hb3⟩ := Identifier.not_blank hu hs
  have hconv : convertText env.ucd [(ty, s)] = .ok [.split ws] := by
    rw [C25_single, convert_kind _ _ _ hb1 hb2 hb3, hk]
    exact h3
  have hnb : (configOf (.basic o sn ro st nc) v).isBpe = false := by
    cases sn <;> cases ro <;> cases st <;> simp [configOf, splitCode, PrepConfig.isBpe]
  refine ⟨ps, (flatForm [⟨.splitContainer, wrapWord (ps.flatMap (markPieceWith (roninStem env st) nc)), []⟩]).2, h1, ?_⟩
  unfold textApi
  rw [hc]
  simp only [bind, Except.bind]
  unfold preprocessText
  rw [hconv]
  simp only [bind, Except.bind, hnb, Bool.false_eq_true, if_false]
  have : finishParsed [Tok.split ws] false = [Tok.split ws] := rfl
  rw [this, hr, hunits]
  simp [Except.map, hnb]

/-- A stemmer that drops a final `s`. -/
def demoStemEnv : Env := ⟨asciiUcd, fun s => if s = "strings".toList then ["str".toList, "ings".toList] else [s],
  fun s => (if s.getLast? = some 's' ∨ s.getLast? = some 'S' then s.dropLast else s).map asciiToLower⟩

example : (textApi demoStemEnv (fun _ => .error .keyError) (.basic {} false false true false)
    [(["Name"], "stringsOfBUGS".toList)] false).toOption.map (·.1) =
      some (["<w>", "str", "ing", "Of", "BUG", "</w>"].map String.toList) := by
  decide +kernel

/-- **C49** For ASCII words with a lower-case stem: the stem of a word in capitals is in capitals, the stem of a word that
starts with a capital starts with a capital, other stems are left as they are. -/
theorem C49_stem_case (env : Env) (hu : env.ucd.Laws) (w : Str) (hw : w ≠ []) (ha : ∀ c ∈ w, isAscii c = true)
    (hp : ∀ c ∈ env.porter w, isAscii c = true) :
    ((∀ c ∈ w, asciiUpper c = true) → stem env w = (env.porter w).map asciiToUpper) ∧
    ((∀ c r, w = c :: r → asciiUpper c = true ∧ (∃ d ∈ r, asciiLower d = true)) → (∀ c ∈ env.porter w, asciiUpper c = false) →
      stem env w = capFirst (env.porter w)) ∧
    ((∀ c r, w = c :: r → asciiLower c = true) → stem env w = env.porter w) := by
  rw [stem_eq env w hw]
  unfold likeCase
  have hap := all_of_forall hp
  cases w with
  | nil => exact absurd rfl hw
  | cons c r =>
    have hc1 : ∀ x ∈ [c], isAscii x = true := by simpa using ha c (by simp)
    simp only [List.take_succ_cons, List.take_zero, isUpper_ascii hu ha, isUpper_ascii hu hc1]
    refine ⟨fun h => ?_, fun h hlow => ?_, fun h => ?_⟩
    · rw [if_pos, hu.toUpper_ascii _ hap]
      simp only [Bool.and_eq_true, List.all_eq_true, List.any_eq_true]
      exact ⟨fun x hx => by simp [asciiUpper_not_lower (h x hx)], c, by simp, h c (by simp)⟩
    · obtain ⟨h1, d, hd, hdl⟩ := h c r rfl
      rw [if_neg, if_pos, hu.capitalize_ascii _ hap]
      · cases hq : env.porter (c :: r) with
        | nil => rfl
        | cons x t =>
          rw [hq] at hlow
          simp only [capFirst]
          rw [map_toLower_id fun y hy => hlow y (by simp [hy])]
      · simp [h1, asciiUpper_not_lower h1]
      · simp only [Bool.and_eq_true, List.all_eq_true, not_and]
        intro hall
        have := hall d (by simp [hd])
        rw [hdl] at this
        exact absurd this (by decide)
    · have h1 := h c r rfl
      rw [if_neg, if_neg]
      · simp [h1]
      · simp [h1]

end Verif.Props
