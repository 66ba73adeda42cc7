import Verif.Model.Print
import Verif.Spec.Print
import Verif.Proofs.Escapes
import Verif.Proofs.Literal
import Verif.Props.Cli
/-!
# C70: what the commands print can be read back
-/
namespace Verif.Props
open Verif Verif.Spec

theorem number_hexN {w n : Nat} (h : n < 16 ^ w) : Esc.Number 16 (hexN w n) n ∧ (hexN w n).length = w := by
  have h1 := takeHex_hexN w n 0 [] h
  obtain ⟨ds, m, h2, h3, h4, h5⟩ := (Escapes.takeHex_iff w 0 _ [] _).mp h1
  simp at h3 h5
  subst h3 h5
  exact ⟨h4, h2⟩

theorem char_lt (c : Char) : c.toNat < 16 ^ 8 := by
  have := c.val.toBitVec.isLt
  simpa using this

theorem char_valid (c : Char) : c.toNat.isValidChar := c.valid

/-- A character as it is printed is read as this character. -/
theorem text_reprChar {p : Char → Bool} {q c : Char} (hq : q ∈ ['\'', '"']) {s t r : Str} (h : Lit.Text q s t r) :
    Lit.Text q (reprChar p q c ++ s) (c :: t) r := by
  have esc : ∀ (e : Char) (k : Nat), (e, k) ∈ Esc.charEscapes → c = Char.ofNat k → Lit.Text q ('\\' :: e :: s) (c :: t) r := by
    intro e k he hc
    subst hc
    exact Lit.Text.escape (e := [e]) (d := [Char.ofNat k]) (.char s he) h
  have hex : ∀ (e : Char) (k : Nat), (e, k) ∈ [('x', 2), ('u', 4), ('U', 8)] → c.toNat < 16 ^ k →
      Lit.Text q ('\\' :: e :: hexN k c.toNat ++ s) (c :: t) r := by
    intro e k he hk
    have := Lit.Text.escape (q := q) (e := e :: hexN k c.toNat) (s := s) (d := [Char.ofNat c.toNat]) (t := t) (r := r)
      (.hex s he (number_hexN hk).2 (number_hexN hk).1 (char_valid c)) h
    simpa [Char.ofNat_toNat] using this
  have hqb : q ≠ '\\' := by rcases List.mem_cons.mp hq with rfl | hq <;> simp_all
  unfold reprChar
  simp only
  split
  · next hc =>
    rcases hc with rfl | rfl
    · simp only [List.mem_cons, List.not_mem_nil, or_false] at hq
      rcases hq with rfl | rfl
      · exact esc _ 39 (by decide) rfl
      · exact esc _ 34 (by decide) rfl
    · exact esc _ 92 (by decide) rfl
  · next h1 =>
    have h1q : c ≠ q := fun hh => h1 (.inl hh)
    have h1b : c ≠ '\\' := fun hh => h1 (.inr hh)
    split
    · next hc => subst hc; exact esc _ 9 (by decide) rfl
    split
    · next hc => subst hc; exact esc _ 10 (by decide) rfl
    next hnl =>
    split
    · next hc => subst hc; exact esc _ 13 (by decide) rfl
    split
    · next hc => exact hex 'x' 2 (by decide) (by omega)
    split
    · exact .plain h1b h1q hnl h
    split
    · exact .plain h1b h1q hnl h
    split
    · exact hex 'x' 2 (by decide) (by omega)
    split
    · exact hex 'u' 4 (by decide) (by omega)
    · exact hex 'U' 8 (by decide) (char_lt c)

theorem text_repr {p : Char → Bool} {q : Char} (hq : q ∈ ['\'', '"']) (t r : Str) :
    Lit.Text q (t.flatMap (reprChar p q) ++ q :: r) t r := by
  induction t with
  | nil => exact .close r
  | cons c t ih =>
    rw [List.flatMap_cons, List.append_assoc]
    exact text_reprChar hq ih

theorem strQuote_mem (s : Str) : strQuote s ∈ ['\'', '"'] := by unfold strQuote; split <;> simp

theorem items_repr (p : Char → Bool) (t : Str) (ts : List Str) :
    Lit.Items (pyJoin ", ".toList ((t :: ts).map (strRepr p)) ++ [']']) (t :: ts) := by
  induction ts generalizing t with
  | nil =>
    have := Lit.Items.last (strQuote_mem t) (text_repr (p := p) (strQuote_mem t) t [']'])
    simpa [pyJoin, strRepr] using this
  | cons t' ts ih =>
    have := Lit.Items.more (strQuote_mem t) (text_repr (p := p) (strQuote_mem t) t _) (ih t')
    simpa [pyJoin, strRepr] using this

/-- **C70** Python reads a list of tokens that was printed as this list, whatever characters the tokens contain. -/
theorem C70_reads (p : Char → Bool) (ts : List Str) : Lit.IsList (listRepr p ts) ts := by
  cases ts with
  | nil => exact .inl ⟨rfl, rfl⟩
  | cons t ts => exact .inr ⟨_, rfl, items_repr p t ts⟩

theorem text_unique {q : Char} (hq : q ≠ '\\') {s t t' r r' : Str} (h : Lit.Text q s t r) (h' : Lit.Text q s t' r') : t = t' ∧ r = r' := by
  induction h generalizing t' r' with
  | close r =>
    generalize hs : q :: r = s at h'
    cases h' with
    | close => cases hs; exact ⟨rfl, rfl⟩
    | plain _ h2 => cases hs; exact absurd rfl h2
    | escape => cases hs; exact absurd rfl hq
  | @plain c s t r h1 h2 h3 _ ih =>
    generalize hs : c :: s = s2 at h'
    cases h' with
    | close => cases hs; exact absurd rfl h2
    | plain _ _ _ h4 =>
      cases hs
      obtain ⟨rfl, rfl⟩ := ih h4
      exact ⟨rfl, rfl⟩
    | escape => cases hs; exact absurd rfl h1
  | @escape e s d t r h1 _ ih =>
    generalize hs : '\\' :: e ++ s = s2 at h'
    cases h' with
    | close => cases hs; exact absurd rfl hq
    | plain h2 => cases hs; exact absurd rfl h2
    | @escape e' s' d' t'' _ h2 h4 =>
      have h5 : e ++ s = e' ++ s' := by simpa using hs
      have g1 := (Escapes.decodeEscape_iff (e ++ s) s d).mpr ⟨e, rfl, h1⟩
      have g2 := (Escapes.decodeEscape_iff (e ++ s) s' d').mpr ⟨e', h5, h2⟩
      rw [g1] at g2
      cases g2
      obtain ⟨rfl, rfl⟩ := ih h4
      exact ⟨rfl, rfl⟩

theorem items_unique {s : Str} {ts ts' : List Str} (h : Lit.Items s ts) (h' : Lit.Items s ts') : ts = ts' := by
  have hb : ∀ {q : Char}, q ∈ ['\'', '"'] → q ≠ '\\' := by
    intro q hq; simp only [List.mem_cons, List.not_mem_nil, or_false] at hq; rcases hq with rfl | rfl <;> decide
  induction h generalizing ts' with
  | last hq h1 =>
    cases h' with
    | last _ h2 => rw [(text_unique (hb hq) h1 h2).1]
    | more _ h2 => have := (text_unique (hb hq) h1 h2).2; simp at this
  | more hq h1 _ ih =>
    cases h' with
    | last _ h2 => have := (text_unique (hb hq) h1 h2).2; simp at this
    | more _ h2 h3 =>
      have := text_unique (hb hq) h1 h2
      simp at this
      obtain ⟨rfl, rfl⟩ := this
      rw [ih h3]

/-- **C70** There is only one way to read a list. -/
theorem C70_one_reading {s : Str} {ts ts' : List Str} (h : Lit.IsList s ts) (h' : Lit.IsList s ts') : ts = ts' := by
  have key : ∀ {s' : Str} {ts : List Str}, Lit.Items s' ts → '[' :: s' ≠ "[]".toList := by
    intro s' ts h hs
    have : s' = [']'] := by simpa using hs
    subst this
    generalize hx : [']'] = x at h
    cases h with
    | last hq => cases hx; simp at hq
    | more hq => cases hx; simp at hq
  rcases h with ⟨rfl, rfl⟩ | ⟨s1, rfl, h1⟩
  · rcases h' with ⟨_, rfl⟩ | ⟨s2, h2, h3⟩
    · rfl
    · exact absurd h2.symm (key h3)
  · rcases h' with ⟨h2, rfl⟩ | ⟨s2, h2, h3⟩
    · exact absurd h2 (key h1)
    · cases h2
      exact items_unique h1 h3

/-- **C70** Different lists of tokens are never printed in the same way. -/
theorem C70_injective (p : Char → Bool) {ts ts' : List Str} (h : listRepr p ts = listRepr p ts') : ts = ts' :=
  C70_one_reading (C70_reads p ts) (h ▸ C70_reads p ts')

/-- Characters that may be sent to a terminal. -/
def Shown (p : Char → Bool) (c : Char) : Prop := (32 ≤ c.toNat ∧ c.toNat < 127) ∨ (127 < c.toNat ∧ p c = true)

theorem shown_reprChar (p : Char → Bool) {q : Char} (hq : q ∈ ['\'', '"']) (c : Char) : ∀ d ∈ reprChar p q c, Shown p d := by
  have hex : ∀ (e : Char) w n, Shown p e → ∀ d ∈ '\\' :: e :: hexN w n, Shown p d := by
    intro e w n he d hd
    simp only [List.mem_cons] at hd
    rcases hd with rfl | rfl | hd
    · exact .inl (by decide)
    · exact he
    · exact .inl (hexN_printable w n d hd)
  have two : ∀ (e : Char), Shown p e → ∀ d ∈ ['\\', e], Shown p d := by
    intro e he d hd
    simp only [List.mem_cons, List.not_mem_nil, or_false] at hd
    rcases hd with rfl | rfl
    · exact .inl (by decide)
    · exact he
  unfold reprChar
  simp only
  split
  · next hc =>
    refine two c ?_
    rcases hc with rfl | rfl
    · simp only [List.mem_cons, List.not_mem_nil, or_false] at hq
      rcases hq with rfl | rfl <;> exact .inl (by decide)
    · exact .inl (by decide)
  split
  · exact two _ (.inl (by decide))
  split
  · exact two _ (.inl (by decide))
  split
  · exact two _ (.inl (by decide))
  split
  · exact hex _ _ _ (.inl (by decide))
  next hlow =>
  split
  · next h127 =>
    intro d hd
    simp at hd
    subst hd
    exact .inl ⟨by omega, h127⟩
  split
  · next hp =>
    intro d hd
    simp at hd
    subst hd
    exact .inr ⟨by omega, hp⟩
  split
  · exact hex _ _ _ (.inl (by decide))
  split
  · exact hex _ _ _ (.inl (by decide))
  · exact hex _ _ _ (.inl (by decide))

theorem shown_strRepr (p : Char → Bool) (s : Str) : ∀ d ∈ strRepr p s, Shown p d := by
  have hq : Shown p (strQuote s) := by unfold strQuote; split <;> exact .inl (by decide)
  intro d hd
  unfold strRepr at hd
  simp only [List.mem_cons, List.mem_append, List.not_mem_nil, or_false] at hd
  rcases hd with rfl | hd | rfl
  · exact hq
  · obtain ⟨c, _, hc⟩ := List.mem_flatMap.mp hd
    exact shown_reprChar p (strQuote_mem s) c d hc
  · exact hq

/-- **C70** What is printed is one line of printable characters. -/
theorem C70_one_line (p : Char → Bool) (ts : List Str) : ∀ d ∈ listRepr p ts, Shown p d := by
  have hj : ∀ ls : List Str, (∀ l ∈ ls, ∀ d ∈ l, Shown p d) → ∀ d ∈ pyJoin ", ".toList ls, Shown p d := by
    intro ls
    induction ls with
    | nil => intro _ d hd; simp [pyJoin] at hd
    | cons l r ih =>
      intro h d hd
      cases r with
      | nil => simp [pyJoin] at hd; exact h l (by simp) d hd
      | cons l' r =>
        simp only [pyJoin, List.mem_append] at hd
        rcases hd with (hd | hd) | hd
        · exact h l (by simp) d hd
        · have : ∀ d ∈ ", ".toList, Shown p d := by
            intro d hd
            simp at hd
            rcases hd with rfl | rfl <;> exact .inl (by decide)
          exact this d hd
        · exact ih (fun l hl => h l (by simp [hl])) d hd
  intro d hd
  unfold listRepr at hd
  simp only [List.mem_cons, List.mem_append, List.not_mem_nil, or_false] at hd
  rcases hd with rfl | hd | rfl
  · exact .inl (by decide)
  · refine hj _ ?_ d hd
    intro l hl
    obtain ⟨t, _, rfl⟩ := List.mem_map.mp hl
    exact shown_strRepr p t
  · exact .inl (by decide)

/-- **C70** Words of letters, digits and other printable ASCII characters without quotes and backslashes are printed as they are. -/
theorem C70_plain (p : Char → Bool) (s : Str) (h : ∀ c ∈ s, 32 ≤ c.toNat ∧ c.toNat < 127 ∧ c ≠ '\'' ∧ c ≠ '\\') :
    strRepr p s = '\'' :: (s ++ ['\'']) := by
  have hq : strQuote s = '\'' := by
    unfold strQuote
    rw [if_neg]
    rintro ⟨hm, _⟩
    exact (h _ hm).2.2.1 rfl
  have hf : ∀ t : Str, (∀ c ∈ t, 32 ≤ c.toNat ∧ c.toNat < 127 ∧ c ≠ '\'' ∧ c ≠ '\\') → t.flatMap (reprChar p '\'') = t := by
    intro t
    induction t with
    | nil => intro _; rfl
    | cons c t ih =>
      intro h
      obtain ⟨h1, h2, h3, h4⟩ := h c (by simp)
      have : reprChar p '\'' c = [c] := by
        unfold reprChar
        simp only
        rw [if_neg (by simp [h3, h4]), if_neg, if_neg, if_neg, if_neg (by omega), if_pos h2]
        · rintro rfl; exact absurd h1 (by decide)
        · rintro rfl; exact absurd h1 (by decide)
        · rintro rfl; exact absurd h1 (by decide)
      rw [List.flatMap_cons, this, ih (fun c hc => h c (by simp [hc]))]
      rfl
  unfold strRepr
  rw [hq, hf s h]

/-- **C70** The tokens that the function of the API returns can be read from what the command with the same text prints: one line, which
has one reading. -/
theorem C70_command (p : Char → Bool) (env : Env) (d : BpeDisk) (h : Host) (lex : Str → Option Str → List (TokType × Str)) (call : ApiCall)
    (text : Str) (hne : text ≠ []) (ext path out : Option Str) (vocab : Bool) (w : BpeCache → BpeCache) (ts : List Str) (md : Meta)
    (hr : (textApiSt env d ⟨call, lex text ext, false, true, w⟩ none).1 = .ok (ts, md)) :
    ∃ line, (handleSplitting env d h lex ⟨commandLine call, some text, path, out, ext, vocab⟩).stdout p = line ++ ['\n'] ∧
      (∀ c ∈ line, Shown p c) ∧ ∀ ts', Lit.IsList line ts' ↔ ts' = ts := by
  have := C61_text_partial env d h lex call text hne ext path out vocab w
  rw [hr] at this
  generalize handleSplitting env d h lex ⟨commandLine call, some text, path, out, ext, vocab⟩ = o at this
  cases this
  refine ⟨_, rfl, C70_one_line p ts, fun ts' => ⟨fun hh => (C70_one_reading (C70_reads p ts) hh).symm, ?_⟩⟩
  rintro rfl
  exact C70_reads p _

/-- **C70** Nothing is printed if the function of the API fails. -/
theorem C70_nothing (p : Char → Bool) (env : Env) (d : BpeDisk) (h : Host) (lex : Str → Option Str → List (TokType × Str)) (call : ApiCall)
    (text : Str) (hne : text ≠ []) (ext path out : Option Str) (vocab : Bool) (w : BpeCache → BpeCache) (e : PyErr)
    (hr : (textApiSt env d ⟨call, lex text ext, false, true, w⟩ none).1 = .error e) :
    (handleSplitting env d h lex ⟨commandLine call, some text, path, out, ext, vocab⟩).stdout p = [] := by
  have := C61_text_partial env d h lex call text hne ext path out vocab w
  rw [hr] at this
  generalize handleSplitting env d h lex ⟨commandLine call, some text, path, out, ext, vocab⟩ = o at this
  cases this <;> rfl

/-- **C70** Nothing is printed by a command with a path, whether the corpus is preprocessed or not. -/
theorem C70_corpus (p : Char → Bool) (env : Env) (d : BpeDisk) (h : Host) (lex : Str → Option Str → List (TokType × Str)) (call : ApiCall)
    (path : Str) (ext out : Option Str) (vocab : Bool) :
    (handleSplitting env d h lex ⟨commandLine call, none, some path, out, ext, vocab⟩).stdout p = [] := by
  have := C61_corpus env d h lex call path ext out vocab
  generalize handleSplitting env d h lex ⟨commandLine call, none, some path, out, ext, vocab⟩ = o at this
  generalize corpusApi env.ucd d.reg h call path ext out vocab false = r at this
  cases this <;> rfl

/-- Non-vacuity: tokens with quotes, backslashes, line breaks, and characters outside of ASCII, of which `÷` is printable. -/
example : listRepr (· = '÷') (["a", "don't", "\"", "'\"", "\\", "\n\t\r\x01\x7f", "÷", "\u00a0", "\u20ac", "😀"].map String.toList) =
    "['a', \"don't\", '\"', '\\'\"', '\\\\', '\\n\\t\\r\\x01\\x7f', '÷', '\\xa0', '\\u20ac', '\\U0001f600']".toList := by
  decide +kernel

example : listRepr (· = '÷') [] = "[]".toList := by decide

end Verif.Props
