import Verif.Proofs.Source
import Verif.Proofs.FileSelect
import Verif.Props.Preprocess
/-!
# From the bytes of a source file to the bytes of its result (C66)
-/
namespace Verif.Props.Source
open Verif Verif.Spec Verif.Source

/-! ## The text of a file -/

/-- **C66** Files are decoded as UTF-8: nothing else is accepted as UTF-8, and everything that is UTF-8 is. -/
theorem C66_utf8 (b : Bytes) (s : Str) : decodeUtf8 b = some s ↔ b = utf8 s := by rw [utf8_eq, decode_iff]

theorem univNl_plain (s : Str) : PlainNewlines s (univNl s) := by
  fun_induction univNl s with
  | case1 => exact .nil
  | case2 r ih => exact .crlf ih
  | case3 r hr ih =>
    refine .cr ?_ ih
    intro e
    cases r with
    | nil => cases e
    | cons c l =>
      have : c = '\n' := by simpa using e
      exact hr l (by rw [this])
  | case4 c r h1 h2 ih => exact .char h2 ih

theorem plain_functional {s t : Str} (h : PlainNewlines s t) : t = univNl s := by
  induction h with
  | nil => rfl
  | crlf _ ih => rw [univNl, ih]
  | @cr s t hs _ ih =>
    rw [ih]
    cases s with
    | nil => rfl
    | cons c l =>
      rw [univNl]
      intro r e
      injection e with e1 e2
      exact hs (by simp [e1])
  | @char c s t hc _ ih =>
    rw [ih, univNl]
    · intro r e1 e2; exact hc e1
    · exact hc

/-- **C66** The text that is parsed is the text of the file, whatever the bytes are: line breaks are plain, and the one at the end is
left out.  (`TextOf` is a function by this.) -/
theorem C66_text (b : Bytes) (t : Str) : TextOf b t ↔ parsedText b = t := by
  have hp : ∀ s, pyJoin ['\n'] (readFileContents s) = unend (univNl s) := fun s => join_lines (univNl s)
  constructor
  · rintro ⟨s, s', h, hs, rfl⟩
    rw [plain_functional hs]
    unfold parsedText readContents
    rcases h with h | ⟨h, rfl⟩
    · rw [(C66_utf8 b s).mpr h]
      exact hp s
    · cases hd : decodeUtf8 b with
      | some x => exact absurd ((C66_utf8 b x).mp hd) (h x)
      | none => exact hp _
  · rintro rfl
    unfold parsedText readContents
    cases hd : decodeUtf8 b with
    | some x => exact ⟨x, _, .inl ((C66_utf8 b x).mp hd), univNl_plain x, hp x⟩
    | none =>
      refine ⟨decodeLatin1 b, _, .inr ⟨fun t e => ?_, rfl⟩, univNl_plain _, hp _⟩
      rw [(C66_utf8 b t).mpr e] at hd
      cases hd

/-- **C66** There is never a carriage return in the text that is parsed. -/
theorem C66_no_cr (b : Bytes) : '\r' ∉ parsedText b := by
  obtain ⟨s, s', _, hs, h⟩ := (C66_text b _).mpr rfl
  rw [h, plain_functional hs]
  exact fun e => univNl_no_cr _ (unend_mem e)

/-- **C66** A text with plain line breaks, stored as UTF-8, is parsed as it is, without the line break at its end. -/
theorem C66_plain (s : Str) (h : '\r' ∉ s) : parsedText (utf8 s) = unend s := by
  refine (C66_text _ _).mp ⟨s, s, .inl rfl, ?_, rfl⟩
  have := univNl_plain s
  rwa [univNl_id h] at this

/-- **C66** Files with different texts (with plain line breaks, and with none at the end) are parsed as different texts. -/
theorem C66_different (s t : Str) (hs : '\r' ∉ s) (ht : '\r' ∉ t) (hs' : s.getLast? ≠ some '\n') (ht' : t.getLast? ≠ some '\n')
    (h : parsedText (utf8 s) = parsedText (utf8 t)) : s = t := by
  rw [C66_plain s hs, C66_plain t ht] at h
  simpa [unend, hs', ht'] using h

-- "é\r\n\rx\n" in UTF-8, and a byte that is not UTF-8
example : parsedText [0xC3, 0xA9, 13, 10, 13, 120, 10] = ['é', '\n', '\n', 'x'] := by decide
example : parsedText [0xE9, 13, 120, 10, 10] = ['é', '\n', 'x', '\n'] := by decide

/-- **C66 is violated**: one byte that is not UTF-8 changes the characters of the whole file (`é` is read as `Ã©`), also where it is UTF-8;
and the file with the line break at its end is parsed as the one without it. -/
theorem C66_mixed_violated : parsedText (utf8 ['é', 'x']) = ['é', 'x'] ∧ parsedText (utf8 ['é', 'x'] ++ [0xFF]) = ['Ã', '©', 'x', 'ÿ'] ∧
    parsedText (utf8 ['é', '\n']) = parsedText (utf8 ['é']) := by
  rw [utf8_eq, utf8_eq, utf8_eq]
  decide

/-! ## The extension -/

theorem lastPart_append (dir base : Bytes) (hd : dir = [] ∨ dir.getLast? = some 47) (hb : 47 ∉ base) : lastPart (dir ++ base) = base := by
  unfold lastPart
  rw [List.reverse_append, List.takeWhile_append_of_pos]
  · have : List.takeWhile (fun x => decide (x ≠ 47)) dir.reverse = [] := by
      rcases hd with rfl | hd
      · rfl
      · rw [← List.head?_reverse] at hd
        cases hr : dir.reverse with
        | nil => rfl
        | cons x l =>
          rw [hr] at hd
          have : x = 47 := by simpa using hd
          simp [this]
    rw [this, List.append_nil, List.reverse_reverse]
  · intro x hx
    simp only [decide_eq_true_eq]
    intro e
    exact hb (by rw [← e]; simpa using hx)

theorem lastPart_split (p : Bytes) : 47 ∉ lastPart p ∧ ∃ dir, p = dir ++ lastPart p ∧ (dir = [] ∨ dir.getLast? = some 47) := by
  constructor
  · intro h
    unfold lastPart at h
    rw [List.mem_reverse] at h
    have : ∀ l : Bytes, (47 : UInt8) ∉ l.takeWhile (fun x => decide (x ≠ 47)) := by
      intro l
      induction l with
      | nil => simp
      | cons c r ih =>
        rw [List.takeWhile_cons]
        split
        · rename_i hc
          intro hm
          rcases List.mem_cons.mp hm with e | e
          · subst e; simp at hc
          · exact ih e
        · simp
    exact this _ h
  · refine ⟨(p.reverse.dropWhile (fun x => decide (x ≠ 47))).reverse, ?_, ?_⟩
    · unfold lastPart
      rw [← List.reverse_append, List.takeWhile_append_dropWhile, List.reverse_reverse]
    · cases hd : p.reverse.dropWhile (fun x => decide (x ≠ 47)) with
      | nil => exact .inl rfl
      | cons c r =>
        refine .inr ?_
        have := List.head?_dropWhile_not (fun x => decide (x ≠ 47)) p.reverse
        rw [hd] at this
        simp at this
        simp [this]

theorem splitext_of {p e : Bytes} (h : HasExtension p e) : splitext p = 46 :: e := by
  obtain ⟨dir, stem, rfl, hd, hs, ⟨x, hx, hx'⟩, he, he'⟩ := h
  unfold splitext
  rw [List.append_assoc, lastPart_append dir (stem ++ 46 :: e) hd (by simp [hs, he'])]
  have hrev : (stem ++ 46 :: e).reverse = e.reverse ++ 46 :: stem.reverse := by simp
  have hp : ∀ y ∈ e.reverse, decide (y ≠ 46) = true := by
    intro y hy
    simp only [decide_eq_true_eq]
    intro h; subst h; exact he (by simpa using hy)
  rw [hrev, List.takeWhile_append_of_pos hp, List.dropWhile_append_of_pos hp]
  simp only [List.takeWhile_cons, List.dropWhile_cons, ne_eq, not_true_eq_false, decide_false, Bool.false_eq_true, if_false]
  rw [if_pos]
  · simp
  · simp only [List.any_eq_true, List.mem_reverse]
    exact ⟨x, hx, by simpa using hx'⟩

theorem splitext_none {p : Bytes} (h : ∀ e, ¬ HasExtension p e) : splitext p = [] := by
  obtain ⟨h1, dir, h2, h3⟩ := lastPart_split p
  unfold splitext
  cases hd : (lastPart p).reverse.dropWhile (fun x => decide (x ≠ 46)) with
  | nil => rfl
  | cons dot pre =>
    simp only
    split
    · rename_i hany
      exfalso
      have hdot := List.head?_dropWhile_not (fun x => decide (x ≠ 46)) (lastPart p).reverse
      rw [hd] at hdot
      simp at hdot
      subst hdot
      have hsplit : lastPart p = pre.reverse ++ 46 :: ((lastPart p).reverse.takeWhile (fun x => decide (x ≠ 46))).reverse := by
        have := List.takeWhile_append_dropWhile (p := fun x => decide (x ≠ 46)) (l := (lastPart p).reverse)
        rw [hd] at this
        have := congrArg List.reverse this
        simpa using this.symm
      obtain ⟨x, hx, hx'⟩ := List.any_eq_true.mp hany
      refine h ((lastPart p).reverse.takeWhile (fun x => decide (x ≠ 46))).reverse ⟨dir, pre.reverse, ?_, h3, ?_, ⟨x, by simpa using hx, by simpa using hx'⟩, ?_, ?_⟩
      · rw [List.append_assoc]
        exact h2.trans (congrArg (dir ++ ·) hsplit)
      · intro e; exact h1 (by rw [hsplit]; exact List.mem_append_left _ e)
      · intro e
        rw [List.mem_reverse] at e
        have : ∀ l : Bytes, (46 : UInt8) ∉ l.takeWhile (fun x => decide (x ≠ 46)) := by
          intro l
          induction l with
          | nil => simp
          | cons c r ih =>
            rw [List.takeWhile_cons]
            split
            · rename_i hc
              intro hm
              rcases List.mem_cons.mp hm with e | e
              · subst e; simp at hc
              · exact ih e
            · simp
        exact this _ e
      · intro e; exact h1 (by rw [hsplit]; exact List.mem_append_right _ (List.mem_cons_of_mem _ e))
    · rfl

/-- **C66** The name of the lexer is the extension of the file. -/
theorem C66_extension (p : Bytes) (x : Str) (h : HasExtension p (utf8 x)) : extensionOf p = .ok x := by
  unfold extensionOf
  rw [splitext_of h]
  have : decodeUtf8 (46 :: utf8 x) = some ('.' :: x) := by
    rw [C66_utf8, utf8_eq, utf8_eq]
    rfl
  rw [this]
  rfl

/-- **C66** Without an extension there is none, as for files whose names begin with their only dot. -/
theorem C66_no_extension (p : Bytes) (h : ∀ e, ¬ HasExtension p e) : extensionOf p = .ok [] := by
  unfold extensionOf
  rw [splitext_none h]
  rfl

/-- **C66 is violated**: a file whose extension is not UTF-8 makes the run fail, whatever is in the file. -/
theorem C66_extension_violated (p e : Bytes) (h : HasExtension p e) (he : ∀ x, e ≠ utf8 x) (u : Ucd) (L : Lexers) (b : Bytes) :
    parseFile u L p (some b) = .error .valueError := by
  have : extensionOf p = .error .valueError := by
    unfold extensionOf
    rw [splitext_of h]
    cases hd : decodeUtf8 (46 :: e) with
    | none => rfl
    | some s =>
      exfalso
      have hs := (C66_utf8 _ _).mp hd
      rw [utf8_eq] at hs
      have hd' := hd
      rw [decodeUtf8.eq_def] at hd'
      simp only [show (46 : UInt8).toNat = 46 from rfl, show (46 : Nat) < 128 from by decide, if_true] at hd'
      cases hr : decodeUtf8 e with
      | none => rw [hr] at hd'; cases hd'
      | some y => exact he y ((C66_utf8 e y).mp hr)
  simp only [parseFile, this, bind, Except.bind]

-- `src/a.b.py`, `src/.bashrc`, `x.j<0xFF>`
example : extensionOf (utf8 "src/a.b.py".toList) = .ok "py".toList := by rw [utf8_eq]; decide +kernel
example : extensionOf (utf8 "src.x/.bashrc".toList) = .ok [] := by rw [utf8_eq]; decide +kernel
example : HasExtension [120, 46, 106, 255] [106, 255] := ⟨[], [120], rfl, .inl rfl, by decide, ⟨120, by decide, by decide⟩, by decide, by decide⟩
example : extensionOf [120, 46, 106, 255] = .error .valueError := by decide

/-! ## The result of a file and of its text -/

theorem toRepr_newline (env : Env) {c : PrepConfig} (hv : c.Valid) (bd : Option BpeData) :
    ∃ m, toRepr env c [.newLine] bd = .ok
      (if c.tabsNewlines = ['0'] then [] else [['\n'] ++ (if c.isBpe then Ph.compoundWordEnd else [])], m) := by
  obtain ⟨rc, hrc, hok⟩ := reprConfig_ok env hv bd
  have hty : Ty.newLine ∈ rc.types ↔ c.tabsNewlines = ['0'] := by
    rw [hok.types]
    unfold PrepConfig.typesToBeRepr
    by_cases h : c.tabsNewlines = ['0']
    · simp [h]
    · simp only [h, if_false, List.append_nil, iff_false, List.mem_append, not_or]
      refine ⟨⟨⟨⟨?_, ?_⟩, ?_⟩, ?_⟩, ?_⟩ <;> split <;> simp
  unfold toRepr
  rw [hrc]
  by_cases h : c.tabsNewlines = ['0'] <;> by_cases hb : c.isBpe = true
  all_goals
    simp [toReprList, toreprFrom, Tok.torepr, whitespaceRepr, hty, h, hb, fullWord, Meta.update, Meta.empty, bind, Except.bind,
      insertWordEnds]

theorem toRepr_eof (env : Env) {c : PrepConfig} (hv : c.Valid) (bd : Option BpeData) :
    ∃ m, toRepr env c [.specialToken Ph.ect] bd = .ok ([Ph.ect ++ (if c.isBpe then Ph.compoundWordEnd else [])], m) := by
  obtain ⟨rc, hrc, hok⟩ := reprConfig_ok env hv bd
  have hty : Ty.specialToken ∉ rc.types := by
    rw [hok.types]
    unfold PrepConfig.typesToBeRepr
    simp only [List.mem_append, not_or]
    refine ⟨⟨⟨⟨⟨?_, ?_⟩, ?_⟩, ?_⟩, ?_⟩, ?_⟩ <;> split <;> simp
  unfold toRepr
  rw [hrc]
  by_cases hb : c.isBpe = true
  all_goals
    simp [toReprList, toreprFrom, Tok.torepr, nonProcRepr, hty, hb, fullWord, Meta.update, Meta.empty, bind, Except.bind,
      insertWordEnds]

theorem toRepr_nobpe (env : Env) {c : PrepConfig} (h : c.isBpe = false) (ts : List Tok) (bd : Option BpeData) :
    toRepr env c ts bd = toRepr env c ts none := by
  unfold toRepr PrepConfig.reprConfig
  simp [h]

/-- The codes that are used for a file are those that are loaded for a text. -/
def SameCodes (c : PrepConfig) (load : Str → Except PyErr BpeData) (id : Option Str) (bd : Option BpeData) : Prop :=
  c.isBpe = true → ∃ i b, id = some i ∧ i ≠ [] ∧ load i = .ok b ∧ bd = some b

/-- The extension of a path; none is the empty one. -/
def ExtensionIs (path : Bytes) (x : Str) : Prop := HasExtension path (utf8 x) ∨ (∀ e, ¬ HasExtension path e) ∧ x = []

theorem extension_is {path : Bytes} {x : Str} (h : ExtensionIs path x) : extensionOf path = .ok x := by
  rcases h with h | ⟨h, rfl⟩
  · exact C66_extension path x h
  · exact C66_no_extension path h

/-- The line that is written for the tokens. -/
def lineOf (toks : List Str) : Bytes := utf8 (toLiteral (pyJoin [' '] toks) ++ ['\n'])

theorem preprocess_codes {env : Env} {c : PrepConfig} {load : Str → Except PyErr BpeData} {id : Option Str} {bd : Option BpeData}
    (h : SameCodes c load id bd) (lexed : List (TokType × Str)) (eof : Bool) :
    preprocessText env load lexed c id eof = (convertText env.ucd lexed) >>= fun ts => toRepr env c (finishParsed ts eof) bd := by
  unfold preprocessText
  cases hc : convertText env.ucd lexed with
  | error e => rfl
  | ok ts =>
    simp only [bind, Except.bind]
    by_cases hb : c.isBpe = true
    · obtain ⟨i, b, rfl, hi, hl, rfl⟩ := h hb
      rw [if_pos hb]
      cases i with
      | nil => exact absurd rfl hi
      | cons ch r => simp only [hl]
    · rw [if_neg hb]
      exact (toRepr_nobpe env (by simpa using hb) _ bd).symm

theorem fileResult_eq {env : Env} {L : Lexers} {c : PrepConfig} {bd : Option BpeData} {path b : Bytes} {x : Str}
    (hx : ExtensionIs path x) : fileResult env L c bd path (some b) =
      (convertText env.ucd (lexText L (parsedText b) (some x))) >>= fun ts =>
        (toRepr env c (ts ++ [.specialToken Ph.ect]) bd).map fun r => some (lineOf r.1) := by
  unfold fileResult parseFile
  simp only [extension_is hx, bind, Except.bind]
  cases convertText env.ucd (lexText L (parsedText b) (some x)) with
  | error e => rfl
  | ok ts =>
    simp only [reprFile, bind, Except.bind]
    cases toRepr env c (ts ++ [.specialToken Ph.ect]) bd with
    | error e => rfl
    | ok r => simp only [Except.map, lineOf, utf8_eq]; rfl

theorem ends_in {ts : List Tok} {k : Tok} (h : ts.getLast? = some k) : ∃ pre, ts = pre ++ [k] := by
  rw [List.getLast?_eq_some_iff] at h
  exact h

/-- **C66 (partial)** The result of a file is what the text functions give for its text and its extension with the end-of-file token,
written as a line; and one fails exactly if the other one does.  Missing: if the parsed text ends with a line break and line breaks are
shown, there is a difference (`C66_newline_violated`). -/
theorem C66_same_partial (env : Env) (L : Lexers) (c : PrepConfig) (hv : c.Valid) (load : Str → Except PyErr BpeData) (id : Option Str)
    (bd : Option BpeData) (path b : Bytes) (x t : Str) (hx : ExtensionIs path x) (ht : TextOf b t) (hbd : SameCodes c load id bd)
    (hn : c.tabsNewlines = ['0'] ∨ ∀ ts, convertText env.ucd (lexText L t (some x)) = .ok ts → ts.getLast? ≠ some .newLine) :
    fileResult env L c bd path (some b) = (textResult env load L c id t (some x) true).map fun r => some (lineOf r.1) := by
  have ht := (C66_text b t).mp ht
  subst ht
  rw [fileResult_eq hx]
  unfold textResult
  rw [preprocess_codes hbd]
  cases hc : convertText env.ucd (lexText L (parsedText b) (some x)) with
  | error e => rfl
  | ok ts =>
    simp only [bind, Except.bind, finishParsed, if_true]
    by_cases hl : ts.getLast? = some .newLine
    · have h0 : c.tabsNewlines = ['0'] := by
        rcases hn with h | h
        · exact h
        · exact absurd hl (h ts hc)
      obtain ⟨pre, rfl⟩ := ends_in hl
      have hr : removeTrailingNewline (pre ++ [.newLine]) = pre := by simp [removeTrailingNewline, Tok.isNewLine]
      rw [hr]
      obtain ⟨m1, e1⟩ := toRepr_newline env hv bd
      obtain ⟨m2, e2⟩ := toRepr_eof env hv bd
      rw [if_pos h0] at e1
      cases hp : toRepr env c pre bd with
      | error e =>
        have f1 := (C16_failure env c hv pre [.newLine] bd e).mpr (.inl hp)
        have f2 := (C16_failure env c hv (pre ++ [Tok.newLine]) [.specialToken Ph.ect] bd e).mpr (.inl f1)
        rw [f2, (C16_failure env c hv pre [.specialToken Ph.ect] bd e).mpr (.inl hp)]
      | ok r =>
        obtain ⟨r, m⟩ := r
        obtain ⟨m3, e3, -⟩ := C16_compositional env c hv _ _ bd _ _ _ _ hp e1
        obtain ⟨m4, e4, -⟩ := C16_compositional env c hv _ _ bd _ _ _ _ e3 e2
        obtain ⟨m5, e5, -⟩ := C16_compositional env c hv _ _ bd _ _ _ _ hp e2
        rw [e4, e5]
        simp [Except.map]
    · have hr : removeTrailingNewline ts = ts := by
        unfold removeTrailingNewline
        cases hg : ts.getLast? with
        | none => rfl
        | some k =>
          rw [hg] at hl
          have : k.isNewLine = false := by
            cases k <;> first | rfl | exact absurd rfl hl
          simp [this]
      rw [hr]

/-- The end-of-file token and a line break as they are shown. -/
def eofShown (c : PrepConfig) : Str := "<EOF>".toList ++ if c.isBpe then "</t>".toList else []
def newlineShown (c : PrepConfig) : Str := '\n' :: if c.isBpe then "</t>".toList else []

/-- **C66 is violated**: if the parsed text ends with a line break (Pygments adds one to every text) and line breaks are shown, the result
of a file has one more token than the text functions give for its text, a line break before the end-of-file token. -/
theorem C66_newline_violated (env : Env) (L : Lexers) (c : PrepConfig) (hv : c.Valid) (load : Str → Except PyErr BpeData)
    (id : Option Str) (bd : Option BpeData) (path b : Bytes) (x t : Str) (hx : ExtensionIs path x) (ht : TextOf b t)
    (hbd : SameCodes c load id bd) (hs : c.tabsNewlines ≠ ['0']) (ts : List Tok)
    (hp : convertText env.ucd (lexText L t (some x)) = .ok ts) (hl : ts.getLast? = some .newLine) (toks : List Str) (m : Meta)
    (hr : textResult env load L c id t (some x) true = .ok (toks, m)) :
    ∃ pre, toks = pre ++ [eofShown c] ∧
      fileResult env L c bd path (some b) = .ok (some (lineOf (pre ++ [newlineShown c, eofShown c]))) := by
  have ht := (C66_text b t).mp ht
  subst ht
  rw [fileResult_eq hx]
  unfold textResult at hr
  rw [preprocess_codes hbd, hp] at hr
  rw [hp]
  simp only [bind, Except.bind, finishParsed, if_true] at hr ⊢
  obtain ⟨pre, rfl⟩ := ends_in hl
  rw [show removeTrailingNewline (pre ++ [.newLine]) = pre by simp [removeTrailingNewline, Tok.isNewLine]] at hr
  obtain ⟨m1, e1⟩ := toRepr_newline env hv bd
  obtain ⟨m2, e2⟩ := toRepr_eof env hv bd
  rw [if_neg hs] at e1
  cases hq : toRepr env c pre bd with
  | error e =>
    rw [(C16_failure env c hv pre [.specialToken Ph.ect] bd e).mpr (.inl hq)] at hr
    cases hr
  | ok r =>
    obtain ⟨r, m'⟩ := r
    obtain ⟨m3, e3, -⟩ := C16_compositional env c hv _ _ bd _ _ _ _ hq e1
    obtain ⟨m4, e4, -⟩ := C16_compositional env c hv _ _ bd _ _ _ _ e3 e2
    obtain ⟨m5, e5, -⟩ := C16_compositional env c hv _ _ bd _ _ _ _ hq e2
    rw [e5] at hr
    have := (Prod.mk.inj (Except.ok.inj hr)).1
    refine ⟨r, by rw [← this]; rfl, ?_⟩
    rw [e4, List.append_assoc]
    rfl

/-- **C66** The end-of-file token is all that asking for it adds to the result of a text. -/
theorem C66_eof (env : Env) (L : Lexers) (c : PrepConfig) (hv : c.Valid) (load : Str → Except PyErr BpeData) (id : Option Str)
    (bd : Option BpeData) (hbd : SameCodes c load id bd) (t : Str) (ext : Option Str) (toks : List Str) :
    (∃ m, textResult env load L c id t ext true = .ok (toks, m)) ↔
      ∃ pre m, textResult env load L c id t ext false = .ok (pre, m) ∧ toks = pre ++ [eofShown c] := by
  unfold textResult
  rw [preprocess_codes hbd, preprocess_codes hbd]
  cases convertText env.ucd (lexText L t ext) with
  | error e => simp [bind, Except.bind]
  | ok ts =>
    simp only [bind, Except.bind, finishParsed, if_true, Bool.false_eq_true, if_false]
    obtain ⟨m2, e2⟩ := toRepr_eof env hv bd
    cases hq : toRepr env c (removeTrailingNewline ts) bd with
    | error e =>
      rw [(C16_failure env c hv _ [.specialToken Ph.ect] bd e).mpr (.inl hq)]
      simp
    | ok r =>
      obtain ⟨r, m'⟩ := r
      obtain ⟨m5, e5, -⟩ := C16_compositional env c hv _ _ bd _ _ _ _ hq e2
      rw [e5]
      constructor
      · rintro ⟨m, h⟩
        exact ⟨r, m', rfl, by rw [← (Prod.mk.inj (Except.ok.inj h)).1]; rfl⟩
      · rintro ⟨pre, m, h, rfl⟩
        rw [← (Prod.mk.inj (Except.ok.inj h)).1]
        exact ⟨m5, rfl⟩

/-- **C66** A text without an extension, and a file without one, is lexed as Java; if Pygments has no lexer for the extension, its guess is
used. -/
theorem C66_lexer (L : Lexers) (t : Str) :
    (∀ l, L.byName ['j', 'a', 'v', 'a'] = some l → lexText L t none = l t ∧ lexText L t (some []) = l t) ∧
    (L.byName ['j', 'a', 'v', 'a'] = none → lexText L t none = L.guess t t ∧ lexText L t (some []) = L.guess t t) ∧
    (∀ x l, x ≠ [] → L.byName x = some l → lexText L t (some x) = l t) ∧
    ∀ x, x ≠ [] → L.byName x = none → lexText L t (some x) = L.guess t t := by
  have hj : "java".toList = ['j', 'a', 'v', 'a'] := by decide
  refine ⟨fun l h => ⟨?_, ?_⟩, fun h => ⟨?_, ?_⟩, fun x l hx h => ?_, fun x hx h => ?_⟩
  · unfold lexText; simp only [hj, h]
  · unfold lexText; simp only [hj, h]
  · unfold lexText; simp only [hj, h]
  · unfold lexText; simp only [hj, h]
  · unfold lexText
    cases x with
    | nil => exact absurd rfl hx
    | cons c r => simp only [h]
  · unfold lexText
    cases x with
    | nil => exact absurd rfl hx
    | cons c r => simp only [h]

/-- **C66** Nothing is written for a file that has vanished, and nothing fails. -/
theorem C66_missing (env : Env) (L : Lexers) (c : PrepConfig) (bd : Option BpeData) (path : Bytes) :
    fileResult env L c bd path none = .ok none := rfl

/-- **C66** Results are written in ASCII, as one line. -/
theorem C66_ascii (env : Env) (L : Lexers) (c : PrepConfig) (bd : Option BpeData) (path : Bytes) (f : Option Bytes) (r : Bytes)
    (h : fileResult env L c bd path f = .ok (some r)) : ∃ body : Bytes, r = body ++ [10] ∧ ∀ x ∈ body, 32 ≤ x.toNat ∧ x.toNat < 127 := by
  unfold fileResult at h
  cases hp : parseFile env.ucd L path f with
  | error e => rw [hp] at h; cases h
  | ok o =>
    rw [hp] at h
    cases o with
    | none => cases h
    | some ts =>
      simp only [reprFile, bind, Except.bind] at h
      cases ht : toRepr env c (ts ++ [.specialToken Ph.ect]) bd with
      | error e => rw [ht] at h; cases h
      | ok q =>
        rw [ht] at h
        have h : encodeUtf8 (prepText q.1) = r := Option.some.inj (Except.ok.inj h)
        refine ⟨encodeUtf8 (toLiteral (pyJoin [' '] q.1)), ?_, ?_⟩
        · rw [← h, prepText]
          simp [encodeUtf8, List.flatMap_append]
          rfl
        · intro x hx
          simp only [encodeUtf8, List.mem_flatMap] at hx
          obtain ⟨ch, hc, hx⟩ := hx
          have hr := toLiteral_printable _ ch hc
          have : String.utf8EncodeChar ch = [UInt8.ofNat ch.toNat] := by
            unfold String.utf8EncodeChar
            have : ch.val.toNat ≤ 127 := by have := hr.2; simp only [Char.toNat] at this; omega
            simp only [if_pos this]
            rfl
          rw [this, List.mem_singleton] at hx
          subst hx
          rw [u8 _ (by omega)]
          exact hr

/-- **C66** The words that are counted for the vocabulary are the tokens of the result, escaped. -/
theorem C66_words (toks : List Str) (hne : toks ≠ []) (hs : ∀ t ∈ toks, ' ' ∉ t) : resultWords (lineOf toks) = toks.map toLiteral := by
  unfold resultWords readContents
  rw [show decodeUtf8 (lineOf toks) = some (prepText toks) from (C66_utf8 _ (prepText toks)).mpr rfl]
  simp only [readFileContents, prepText_lines, List.map_singleton, List.flatMap_singleton]
  exact prepText_words toks hne hs

/-! ## A file of a dataset -/

/-- A lexer by the name `py`, which gives the whole text as a name and a line break; others give only the name. -/
def demoLexers : Lexers :=
  ⟨fun n => if n = "py".toList then some fun t => [(["Name"], t), (["Text"], ['\n'])] else none, fun _ t => [(["Name"], t)]⟩

def shownConfig : PrepConfig := ⟨['u'], ['c'], ['1'], ['0'], ['s'], ['u']⟩

-- the lexer is found by the extension, or guessed
example : (fileResult demoEnv demoLexers shownConfig none (utf8 "d/a.py".toList) (some (utf8 "ab\r\n".toList))) =
    .ok (some (utf8 "ab \\n <EOF>\n".toList)) := by
  simp only [utf8_eq]; decide +kernel
example : (fileResult demoEnv demoLexers shownConfig none (utf8 "d/a".toList) (some (utf8 "ab\r\n".toList))) =
    .ok (some (utf8 "ab <EOF>\n".toList)) := by
  simp only [utf8_eq]; decide +kernel
-- the hypotheses of `C66_newline_violated`
example : (textResult demoEnv (fun _ => .error .valueError) demoLexers shownConfig none "ab".toList (some "py".toList) true).map (·.1) =
    .ok ["ab".toList, "<EOF>".toList] := by decide +kernel
example : (convertText demoEnv.ucd (lexText demoLexers "ab".toList (some "py".toList))).map (fun l => l.getLast?.map Tok.isNewLine) =
    .ok (some true) := by
  decide +kernel

end Verif.Props.Source
