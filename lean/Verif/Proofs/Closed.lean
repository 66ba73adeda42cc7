import Verif.Props.AnyText
import Verif.Spec.Closed
/-!
# Facts about the tokens that `bpe` and `chars` can deliver
-/
namespace Verif
open Spec Verif.Props

/-! ## Symbols -/

theorem symbolToken_cons {c : Char} (h : c ≠ '@') (r : Str) : symbolToken (c :: r) = c :: symbolToken r := by
  rw [symbolToken.eq_def]
  split <;> simp_all

theorem undoubled_cons {c : Char} (h : c ≠ '@') (r : Str) : undoubled (c :: r) = c :: undoubled r := by
  rw [undoubled.eq_def]
  split <;> simp_all

theorem doubleEsc_cons (c : Char) (v : Str) : doubleEsc (c :: v) = (if c = '@' then ['@', '@'] else [c]) ++ doubleEsc v := by
  show (if c = escChar then [escChar, escChar] else [c]) ++ doubleEsc v = _
  rfl

theorem symbolToken_double (v x : Str) : symbolToken (doubleEsc v ++ x) = v ++ symbolToken x := by
  induction v with
  | nil => rfl
  | cons c v ih =>
    rw [doubleEsc_cons]
    by_cases h : c = '@'
    · rw [if_pos h, h]
      show '@' :: symbolToken (doubleEsc v ++ x) = _
      rw [ih]
      rfl
    · rw [if_neg h]
      show symbolToken (c :: (doubleEsc v ++ x)) = _
      rw [symbolToken_cons h, ih]
      rfl

theorem undouble_eq (s : Str) : undoubleEsc s = undoubled s := by
  induction s using undoubleEsc.induct with
  | case1 => rfl
  | case2 c =>
    by_cases h : c = '@'
    · subst h; rfl
    · rw [undoubled_cons h]; rfl
  | case3 c e r hcd ih =>
    obtain ⟨rfl, rfl⟩ := hcd
    unfold undoubleEsc
    rw [if_pos ⟨rfl, rfl⟩, ih]
    rfl
  | case4 c e r hcd ih =>
    unfold undoubleEsc
    rw [if_neg hcd, ih]
    by_cases h : c = '@'
    · subst h
      have he : e ≠ '@' := fun he => hcd ⟨rfl, he⟩
      rw [undoubled.eq_def ('@' :: e :: r)]
      split
      · next h => cases h; exact absurd rfl he
      · next h => cases h; rfl
      · next h => cases h
    · rw [undoubled_cons h]

/-- Symbols within a word: nothing, a character, or what a merge makes. -/
def InnerSym (m : MergeList) (A : Char → Prop) (x : Str) : Prop :=
  ∃ v, x = doubleEsc v ∧ (v = [] ∨ (∃ c, A c ∧ v = [c]) ∨ ∃ p k, m.priority? p = some k ∧ x = p.1 ++ p.2)

/-- Symbols at the end of a word. -/
def FinalSym (m : MergeList) (x : Str) : Prop :=
  ∃ v, x = doubleEsc v ++ [escChar] ∧ (v = [] ∨ ∃ p k, m.priority? p = some k ∧ x = p.1 ++ p.2)

/-- The symbols of a word. -/
inductive Syms (m : MergeList) (A : Char → Prop) : List Str → Prop
  | one {x} : FinalSym m x → Syms m A [x]
  | cons {x r} : InnerSym m A x → Syms m A r → Syms m A (x :: r)

theorem doubleEsc_append (v w : Str) : doubleEsc (v ++ w) = doubleEsc v ++ doubleEsc w := by
  simp [doubleEsc]

theorem syms_replace {m : MergeList} {A : Char → Prop} (k : Nat) (l : List Str) (h : Syms m A l) : Syms m A (replacePrio m k l) := by
  induction l using replacePrio.induct m k with
  | case1 => exact h
  | case2 a => exact h
  | case3 a b r hp ih =>
    unfold replacePrio
    rw [if_pos hp]
    cases h with
    | cons ha hb =>
      obtain ⟨v, rfl, -⟩ := ha
      cases hb with
      | one hb =>
        obtain ⟨w, rfl, -⟩ := hb
        exact .one ⟨v ++ w, by rw [doubleEsc_append, List.append_assoc], .inr ⟨_, k, hp, rfl⟩⟩
      | cons hb hr =>
        obtain ⟨w, rfl, -⟩ := hb
        exact .cons ⟨v ++ w, by rw [doubleEsc_append], .inr (.inr ⟨_, k, hp, rfl⟩)⟩ (ih hr)
  | case4 a b r hp ih =>
    unfold replacePrio
    rw [if_neg hp]
    cases h with
    | cons ha hb => exact .cons ha (ih hb)

theorem syms_loop {m : MergeList} {A : Char → Prop} : ∀ (fuel : Nat) (l r : List Str), Syms m A l → encodeLoop m fuel l = .ok r → Syms m A r := by
  intro fuel
  induction fuel with
  | zero =>
    intro l r h e
    unfold encodeLoop at e
    simp only at e
    split at e
    · cases e; exact h
    · cases e
  | succ n ih =>
    intro l r h e
    unfold encodeLoop at e
    simp only at e
    split at e
    · cases e; exact h
    · rw [applyIndices_scan] at e
      exact ih _ _ (syms_replace _ _ h) e

theorem unitsOf_ne (w : Str) : unitsOf w ≠ [] := by simp [unitsOf]

theorem syms_units (m : MergeList) (A : Char → Prop) (w : Str) (h : ∀ c ∈ w, A c) :
    Syms m A (pySplit ' ' (pyJoin [' '] (unitsOf w))) := by
  induction w with
  | nil => exact .one ⟨[], rfl, .inl rfl⟩
  | cons c w ih =>
    have hj : pyJoin [' '] (unitsOf (c :: w)) = unitOf c ++ ' ' :: pyJoin [' '] (unitsOf w) := by
      have hn := unitsOf_ne w
      have he : unitsOf (c :: w) = unitOf c :: unitsOf w := rfl
      rw [he]
      cases hu : unitsOf w with
      | nil => exact absurd hu hn
      | cons a r => simp [pyJoin]
    have ih := ih fun c hc => h c (by simp [hc])
    rw [hj]
    by_cases hc : c = ' '
    · subst hc
      have e : unitOf ' ' ++ ' ' :: pyJoin [' '] (unitsOf w) = [] ++ ' ' :: ([] ++ ' ' :: pyJoin [' '] (unitsOf w)) := rfl
      rw [e, pySplit_append_sep (by simp), pySplit_append_sep (by simp)]
      exact .cons ⟨[], rfl, .inl rfl⟩ (.cons ⟨[], rfl, .inl rfl⟩ ih)
    · have hs : ' ' ∉ unitOf c := by
        unfold unitOf
        split
        · simp [escChar]
        · simp only [List.mem_singleton]; exact fun e => hc e.symm
      rw [pySplit_append_sep hs]
      exact .cons ⟨[c], by simp [doubleEsc, unitOf], .inr (.inl ⟨c, h c (by simp), rfl⟩)⟩ ih

theorem syms_ne {m : MergeList} {A : Char → Prop} {l : List Str} (h : Syms m A l) : l ≠ [] := by
  cases h <;> simp

theorem syms_encode {m : MergeList} {A : Char → Prop} {w : Str} {r : List Str} (h : ∀ c ∈ w, A c)
    (e : encodeWord (escape w true) m = .ok r) : Syms m A r := by
  unfold encodeWord at e
  simp only [toCharList_escape, bind, Except.bind] at e
  have h0 := syms_units m A w h
  obtain ⟨r', hr, hc⟩ := encodeLoop_ok m (pySplit ' ' (pyJoin [' '] (unitsOf w))).length _ (Nat.le_succ _)
  rw [hr] at e
  have hsp : ∀ p ∈ r', ' ' ∉ p := by
    intro p hp hx
    exact hc.forall_mem (P := (· ≠ ' ')) (fun q hq x hx e => pySplit_noSep_mem hq (by rw [← e]; exact hx)) p hp ' ' hx rfl
  have h1 := syms_loop _ _ _ h0 hr
  simp only [pySplit_pyJoin (syms_ne h1) hsp, Except.ok.injEq] at e
  subst e
  exact h1

theorem undouble_double (v : Str) : undoubleEsc (doubleEsc v) = v := by
  rw [doubleEsc_eq, undouble_units]

/-- The tokens of the symbols of a word. -/
theorem syms_unescape {m : MergeList} {A : Char → Prop} {r : List Str} (h : Syms m A r) :
    ∃ l md, unescape r = .ok (l, md) ∧ l ≠ [] ∧ markEnd l = r.map symbolToken := by
  induction h with
  | one hx =>
    obtain ⟨v, rfl, -⟩ := hx
    refine ⟨[v], [doubleEsc v], ?_, by simp, ?_⟩
    · simp [unescape, undouble_double]
    · show [v ++ "</t>".toList] = [symbolToken (doubleEsc v ++ ['@'])]
      rw [symbolToken_double]
      rfl
  | @cons x r hx hr ih =>
    obtain ⟨l, md, h1, h2, h3⟩ := ih
    obtain ⟨v, rfl, -⟩ := hx
    refine ⟨v :: l, doubleEsc v :: md, ?_, by simp, ?_⟩
    · cases r with
      | nil => exact absurd rfl (syms_ne hr)
      | cons a t =>
        obtain ⟨ys, y, hy⟩ : ∃ ys y, a :: t = ys ++ [y] :=
          ⟨_, _, (List.dropLast_concat_getLast (by simp)).symm⟩
        rw [hy] at h1 ⊢
        have e : ∀ zs : List Str, unescape (zs ++ [y]) = match y.getLast? with
            | none => .error .indexError
            | some c => if c ≠ escChar then .error .valueError else
              .ok ((zs ++ [y.dropLast]).map undoubleEsc, zs ++ [y.dropLast]) := by
          intro zs
          unfold unescape
          simp only [List.getLast?_append, List.getLast?_singleton, Option.some_or, List.dropLast_concat]
          rfl
        rw [← List.cons_append, e]
        rw [e] at h1
        cases hc : y.getLast? with
        | none => rw [hc] at h1; cases h1
        | some c =>
          simp only [hc] at h1 ⊢
          split at h1
          · cases h1
          · next hce =>
            simp only [Except.ok.injEq, Prod.mk.injEq] at h1
            rw [if_neg hce]
            simp only [List.cons_append, List.map_cons, undouble_double, Except.ok.injEq, Prod.mk.injEq]
            exact ⟨by rw [h1.1], by rw [h1.2]⟩
    · cases l with
      | nil => exact absurd rfl h2
      | cons a t =>
        show v :: markEnd (a :: t) = _
        rw [h3, List.map_cons]
        congr 1
        have := symbolToken_double v []
        simp only [List.append_nil] at this
        rw [this]
        exact (List.append_nil v).symm

theorem known_syms {d : BpeData} {A : List Char} {K : List Str} {r : List Str} (h : Syms d.merges (· ∈ A) r) :
    ∀ t ∈ r.map symbolToken, KnownToken d A K t := by
  induction h with
  | one hx =>
    intro t ht
    simp only [List.map_cons, List.map_nil, List.mem_singleton] at ht
    subst ht
    obtain ⟨v, hv, h | ⟨p, k, hp, he⟩⟩ := hx
    · subst h
      rw [hv]
      exact .ending
    · rw [he]
      exact .merge hp
  | cons hx _ ih =>
    intro t ht
    simp only [List.map_cons, List.mem_cons] at ht
    rcases ht with rfl | ht
    · obtain ⟨v, hv, h | ⟨c, hc, h⟩ | ⟨p, k, hp, he⟩⟩ := hx
      · subst h
        rw [hv]
        exact .empty
      · subst h
        have := symbolToken_double [c] []
        rw [List.append_nil] at this
        rw [hv, this]
        exact .char hc
      · rw [he]
        exact .merge hp
    · exact ih t ht

theorem stored_unescape {l : List Str} {x : List Str × List Str} (h : unescape l = .ok x) : markEnd x.1 = storedTokens l := by
  unfold unescape at h
  split at h
  · cases h
  · next y hy =>
    split at h
    · cases h
    · split at h
      · cases h
      · simp only [Except.ok.injEq] at h
        subst h
        obtain ⟨ys, rfl⟩ := List.getLast?_eq_some_iff.mp hy
        clear hy
        rw [List.dropLast_concat]
        induction ys with
        | nil => simp [markEnd, storedTokens, undouble_eq]
        | cons z zs ih =>
          cases zs with
          | nil => simp [markEnd, storedTokens, undouble_eq]
          | cons z' zs => simpa [markEnd, storedTokens, undouble_eq] using ih

/-- The tokens of a word that is split. -/
theorem known_word {d : BpeData} {A : List Char} {K : List Str} {w : Str} {l : List Str} (hw : ∀ c ∈ w, c ∈ A)
    (h : getBpeSubwords w d = .ok l) : ∀ t ∈ markEnd l, KnownToken d A K t := by
  unfold getBpeSubwords getBpeSubwordsSt at h
  cases hc : d.cache.get? (escape w true) with
  | some r =>
    simp only [hc] at h
    cases hu : unescape r with
    | error e => simp [hu, bind, Except.bind, Except.map] at h
    | ok x =>
      simp only [hu, bind, Except.bind, Except.map, Except.ok.injEq] at h
      subst h
      intro t ht
      rw [stored_unescape hu] at ht
      exact .stored hc ht
  | none =>
    simp only [hc] at h
    cases he : encodeWord (escape w true) d.merges with
    | error e => simp [he, bind, Except.bind, Except.map] at h
    | ok r =>
      have hs := syms_encode (A := (· ∈ A)) hw he
      obtain ⟨l', md, h1, -, h3⟩ := syms_unescape hs
      simp only [he, h1, bind, Except.bind, Except.map, Except.ok.injEq] at h
      subst h
      rw [h3]
      exact known_syms hs

/-- The tokens of a word that is split, if every stored word is stored as it would be split. -/
theorem known_genuine {d : BpeData} (hg : ∀ w l, d.cache.get? w = some l → encodeWord w d.merges = .ok l) {A : List Char} {K : List Str}
    {w : Str} {l : List Str} (hw : ∀ c ∈ w, c ∈ A) (h : getBpeSubwords w d = .ok l) : ∀ t ∈ markEnd l, KnownToken ⟨[], d.merges⟩ A K t := by
  refine known_word hw ?_
  unfold getBpeSubwords getBpeSubwordsSt at h ⊢
  cases hc : d.cache.get? (escape w true) with
  | some r =>
    simp only [hc] at h
    simp only [Dict.get?, hg _ _ hc]
    cases hu : unescape r with
    | error e => simp [hu, bind, Except.bind, Except.map] at h
    | ok x => simpa only [hu, bind, Except.bind, Except.map] using h
  | none =>
    simp only [hc] at h
    simp only [Dict.get?]
    cases he : encodeWord (escape w true) d.merges with
    | error e => simp [he, bind, Except.bind, Except.map] at h
    | ok r =>
      cases hu : unescape r with
      | error e => simp [he, hu, bind, Except.bind, Except.map] at h
      | ok x => simpa only [he, hu, bind, Except.bind, Except.map] using h

/-! ## The characters of the pieces of a text -/

section
variable {u : Ucd} {A : List Char} {K : List Str}

theorem small_mem (hu : u.Laws) (hA : Alphabet u A) {c : Char} (hc : c ∈ A) : asciiToLower c ∈ A := by
  by_cases h : isAscii c = true
  · have := hA.lower [c] (by simpa using hc) (asciiToLower c)
    rw [hu.toLower_ascii [c] (by simpa using h)] at this
    exact this (by simp)
  · have : asciiUpper c = false := by
      unfold asciiUpper isAscii at *
      simp at *
      omega
    unfold asciiToLower
    rw [if_neg (by rw [this]; simp)]
    exact hc

theorem recased_mem (hA : Alphabet u A) {p : Str} (hp : ∀ c ∈ p, c ∈ A) : ∀ c ∈ recased u p, c ∈ A := by
  unfold recased
  split
  · simp
  · next c r =>
    split
    · exact hA.upper _ (hA.lower _ hp)
    · split
      · apply hA.capitalize
        intro x hx
        rcases List.mem_append.mp hx with hx | hx
        · exact hA.lower [c] (by simpa using hp c (by simp)) x hx
        · exact hp x (by simp [hx])
      · exact hp

theorem ident_mem {s : Str} {ps : List Str} (h : IdentSplit u s ps) (hs : ∀ c ∈ s, c ∈ A) : ∀ p ∈ ps, ∀ c ∈ p, c ∈ A := by
  induction h with
  | nil => simp
  | underscore _ ih =>
    simp only [List.mem_cons, forall_eq_or_imp] at hs ⊢
    exact ⟨⟨hs.1, by simp⟩, ih hs.2⟩
  | digits _ _ _ _ ih | lower _ _ _ _ ih | capitals _ _ _ _ _ ih =>
    simp only [List.mem_append, List.mem_cons, forall_eq_or_imp] at hs ⊢
    exact ⟨fun c hc => hs c (.inl hc), ih fun c hc => hs c (.inr hc)⟩
  | capitalised _ _ _ _ _ ih =>
    rw [List.forall_mem_cons]
    exact ⟨fun c hc => hs c (List.mem_append_left _ hc), ih fun c hc => hs c (List.mem_append_right _ hc)⟩
  | other _ _ _ _ _ _ ih =>
    simp only [List.mem_cons, forall_eq_or_imp] at hs ⊢
    exact ⟨⟨hs.1, by simp⟩, ih hs.2⟩
  | space _ ih =>
    simp only [List.mem_cons, forall_eq_or_imp] at hs
    exact ih hs.2

theorem shown_mem (hA : Alphabet u A) {s : Str} {ps : List Str} (h : IdentSplit u s ps) (hs : ∀ c ∈ s, c ∈ A) :
    ∀ c ∈ (ps.map (recased u)).flatten, c ∈ A := by
  intro c hc
  obtain ⟨q, hq, hc⟩ := List.mem_flatten.mp hc
  obtain ⟨p, hp, rfl⟩ := List.mem_map.mp hq
  exact recased_mem hA (ident_mem h hs p hp) c hc

/-- A part of a piece of code. -/
def CodePart (u : Ucd) (p : Str) : Prop := (p ≠ [] ∧ ∀ c ∈ p, u.reWord c = true) ∨ (∃ c, p = [c]) ∨ p = "    ".toList

theorem text_mem {s : Str} {ps : List Str} (h : TextSplit u s ps) (hs : ∀ c ∈ s, c ∈ A) :
    ∀ p ∈ ps, (∀ c ∈ p, c ∈ A) ∧ CodePart u p := by
  induction h with
  | nil => simp
  | word h1 h2 _ _ ih =>
    rw [List.forall_mem_cons]
    exact ⟨⟨fun c hc => hs c (List.mem_append_left _ hc), .inl ⟨h1, h2⟩⟩, ih fun c hc => hs c (List.mem_append_right _ hc)⟩
  | char _ _ _ ih =>
    rw [List.forall_mem_cons] at hs ⊢
    exact ⟨⟨by simpa using hs.1, .inr (.inl ⟨_, rfl⟩)⟩, ih hs.2⟩
  | fourSpaces _ ih =>
    rw [List.forall_mem_cons]
    refine ⟨⟨?_, .inr (.inr rfl)⟩, ih fun c hc => hs c (by simp [hc])⟩
    intro c hc
    exact hs c (by simp at hc; simp [hc])
  | space _ _ ih =>
    rw [List.forall_mem_cons] at hs
    exact ih hs.2

theorem literal_mem {s : Str} {ps : List Str} (h : LiteralSplit u s ps) (hs : ∀ c ∈ s, c ∈ A) : ∀ p ∈ ps, ∀ c ∈ p, c ∈ A := by
  induction h with
  | nil => simp
  | word _ _ _ _ ih | spaces _ _ ih =>
    rw [List.forall_mem_cons]
    exact ⟨fun c hc => hs c (List.mem_append_left _ hc), ih fun c hc => hs c (List.mem_append_right _ hc)⟩
  | char _ _ _ ih =>
    rw [List.forall_mem_cons] at hs ⊢
    exact ⟨by simpa using hs.1, ih hs.2⟩

theorem shownPiece_mem (hu : u.Laws) (hA : Alphabet u A) {p x : Str} (h : ShownPiece u p x) (hp : ∀ c ∈ p, c ∈ A) : ∀ c ∈ x, c ∈ A := by
  cases h with
  | identifier _ _ hs => exact shown_mem hA hs hp
  | number _ =>
    intro c hc
    obtain ⟨e, he, rfl⟩ := List.mem_map.mp hc
    exact small_mem hu hA (hp e he)
  | other _ _ => exact hp

theorem shownLiterals_mem (hu : u.Laws) (hA : Alphabet u A) {ps xs : List Str} (h : ShownLiterals u ps xs) (hp : ∀ p ∈ ps, ∀ c ∈ p, c ∈ A) :
    ∀ c ∈ xs.flatten, c ∈ A := by
  induction h with
  | nil => simp
  | spaces _ ih =>
    rw [List.forall_mem_cons] at hp
    intro c hc
    rw [List.flatten_cons] at hc
    rcases List.mem_append.mp hc with hc | hc
    · rw [(List.mem_replicate.mp hc).2]; exact hA.nbsp
    · exact ih hp.2 c hc
  | piece _ hx _ ih =>
    rw [List.forall_mem_cons] at hp
    intro c hc
    rw [List.flatten_cons] at hc
    rcases List.mem_append.mp hc with hc | hc
    · exact shownPiece_mem hu hA hx hp.1 c hc
    · exact ih hp.2 c hc

theorem hiddenText_mem (hA : Alphabet u A) {x y : Str} (h : HiddenText x y) (hx : ∀ c ∈ x, c ∈ A) : ∀ c ∈ y, c ∈ A := by
  induction h with
  | nil => simp
  | keep _ _ ih =>
    rw [List.forall_mem_cons] at hx ⊢
    exact ⟨hx.1, ih hx.2⟩
  | run _ _ _ _ ih =>
    rw [List.forall_mem_cons]
    exact ⟨hA.hidden, ih fun c hc => hx c (List.mem_append_right _ hc)⟩

theorem replaced_mem (hA : Alphabet u A) {x y : Str} (h : Replaced "÷".toList x y) (hx : ∀ c ∈ x, c ∈ A) : ∀ c ∈ y, c ∈ A := by
  induction h with
  | nil => simp
  | keep _ _ ih =>
    rw [List.forall_mem_cons] at hx ⊢
    exact ⟨hx.1, ih hx.2⟩
  | run _ _ _ _ ih =>
    intro c hc
    rcases List.mem_append.mp hc with hc | hc
    · have : c = '÷' := by simpa using hc
      rw [this]; exact hA.hidden
    · exact ih (fun c hc => hx c (List.mem_append_right _ hc)) c hc

/-- Pieces written with `A` and `K`. -/
def PieceIn (A : List Char) (K : List Str) (p : Piece) : Prop :=
  match p.form with
  | .space => p.text ∈ fixedTexts
  | .fixed => p.text ∈ K ∨ p.text ∈ fixedTexts ∨ ∃ c ∈ A, p.text = [c]
  | .constant => p.text ∈ fixedTexts ∨ ∃ c ∈ A, p.text = [c]
  | .number => ∀ c ∈ p.text, c ∈ A
  | .word => ∀ c ∈ p.text, c ∈ A
  | .literal => ∀ c ∈ p.text, c ∈ A
  | .quotes => True

theorem codePiece_in (hu : u.Laws) (hA : Alphabet u A) {p : Str} (hp : ∀ c ∈ p, c ∈ A) (hc : CodePart u p) : PieceIn A K (codePiece u p) := by
  unfold codePiece
  split
  · next h => show p ∈ fixedTexts; rw [h]; decide
  · split
    · show _ ∈ fixedTexts; decide
    · next hnt =>
      split
      · show ∀ c ∈ p.map asciiToLower, c ∈ A
        intro c hc
        obtain ⟨e, he, rfl⟩ := List.mem_map.mp hc
        exact small_mem hu hA (hp e he)
      · split
        · exact hp
        · next hw =>
          rcases hc with hc | ⟨c, rfl⟩ | hc
          · exact absurd hc hw
          · exact .inr (.inr ⟨c, hp c (by simp), rfl⟩)
          · exact absurd (.inr hc) hnt

theorem anyPieces_in (hu : u.Laws) (hA : Alphabet u A) {nu : Bool} {o : PieceOpts} (ho : o.literals = .bpe) {ps : List Str} {qs : List Piece}
    (h : AnyPieces u nu o ps qs) (hp : ∀ p ∈ ps, (∀ c ∈ p, c ∈ A) ∧ CodePart u p) : ∀ q ∈ qs, PieceIn A K q := by
  induction h with
  | nil => simp
  | cons h _ ih =>
    rw [List.forall_mem_cons] at hp ⊢
    refine ⟨?_, ih hp.2⟩
    cases h with
    | plain _ => exact codePiece_in hu hA hp.1.1 hp.1.2
    | hidden _ _ _ h => exact absurd ho h
    | replaced _ _ _ _ h1 h2 => exact recased_mem hA (replaced_mem hA h2 (shown_mem hA h1 hp.1.1))

theorem pieceIn_within {ty : Ty} {p : Piece} (h : PieceIn A K p) : PieceIn A K (p.within ty) := h

theorem described_in (hA : Alphabet u A) {o : PieceOpts} (ho : o.literals = .bpe) {e : TokType × Str} {ps : List Piece}
    (hn : NoWords u o e) (h : Described u o e ps) (hc : ∀ c ∈ e.2, c ∈ A) (hk : kindOf e.1 = .operator ∨ kindOf e.1 = .keyword → e.2 ∈ K) :
    ∀ p ∈ ps, PieceIn A K p := by
  have nb : ∀ {v : Str}, (∃ c ∈ v, u.space c = false) → ¬ ∀ c ∈ v, u.space c = true := by
    rintro v ⟨c, hc, h0⟩ h1
    rw [h1 c hc] at h0
    cases h0
  have fx : ∀ {s : Str}, s ∈ fixedTexts → ∀ ty, ∀ p ∈ [(⟨ty, s, .constant⟩ : Piece)], PieceIn A K p := by
    intro s hs ty p hp
    rw [List.mem_singleton.mp hp]
    exact .inl hs
  cases h with
  | newline _ => intro p hp; rw [List.mem_singleton.mp hp]; show _ ∈ fixedTexts; decide
  | tab _ => intro p hp; rw [List.mem_singleton.mp hp]; show _ ∈ fixedTexts; decide
  | blank _ _ _ => intro p hp; rw [(List.mem_replicate.mp hp).2]; show _ ∈ fixedTexts; decide
  | operator _ h => intro p hp; rw [List.mem_singleton.mp hp]; exact .inl (hk (.inl h))
  | keyword _ h => intro p hp; rw [List.mem_singleton.mp hp]; exact .inl (hk (.inr h))
  | @number ty v _ _ =>
    intro p hp
    rw [List.mem_singleton.mp hp]
    unfold numberPiece
    split
    · next h => exact .inr ⟨'0', hc '0' (by show '0' ∈ v; rw [h]; decide), h⟩
    · split
      · next h => exact .inr ⟨'1', hc '1' (by show '1' ∈ v; rw [h]; decide), h⟩
      · exact hA.lower _ hc
  | hiddenLine _ _ _ => exact fx (by decide) _
  | hiddenBlock _ _ _ => exact fx (by decide) _
  | hiddenString _ _ _ => exact fx (by decide) _
  | long _ _ _ _ =>
    intro p hp
    rw [List.mem_singleton.mp hp, if_neg (by rw [ho]; decide)]
    trivial
  | words h0 h1 _ =>
    rcases hn with h | h | h | h | ⟨h | h, -⟩ | ⟨h, -⟩
    · exact absurd h (nb h0)
    all_goals (rw [show kindOf _ = _ from h1] at h; cases h)
  | lineComment h0 h1 h2 _ | blockComment h0 h1 h2 _ =>
    rcases hn with h | h | h | h | ⟨h | h, h'⟩ | ⟨h, -⟩
    · exact absurd h (nb h0)
    all_goals first
      | (rw [h2] at h'; cases h'; done)
      | (rw [show kindOf _ = _ from h1] at h; cases h)
  | splitLiteral _ _ _ _ h _ => rw [ho] at h; cases h
  | wholeLiteral h0 h1 h2 h3 _ _ =>
    rcases hn with h | h | h | h | ⟨h | h, h'⟩ | ⟨h, h' | h'⟩
    · exact absurd h (nb h0)
    all_goals first
      | (rw [show kindOf _ = _ from h1] at h; cases h; done)
      | (rw [h2] at h'; cases h')
      | exact absurd h3 (Nat.not_le.mpr h')

theorem describedAny_in (hu : u.Laws) (hA : Alphabet u A) {nu : Bool} {o : PieceOpts} (ho : o.literals = .bpe) {e : TokType × Str}
    {ps : List Piece} (h : DescribedAny u nu o e ps) (hc : ∀ c ∈ e.2, c ∈ A)
    (hk : kindOf e.1 = .operator ∨ kindOf e.1 = .keyword → e.2 ∈ K) : ∀ p ∈ ps, PieceIn A K p := by
  cases h with
  | same hn h => exact described_in hA ho hn h hc hk
  | words _ _ h1 h2 => exact anyPieces_in hu hA ho h2 (text_mem h1 hc)
  | lineComment _ _ _ h1 h2 =>
    intro p hp
    rcases List.mem_append.mp hp with hp | hp
    · obtain ⟨q, hq, rfl⟩ := List.mem_map.mp hp
      exact anyPieces_in (K := K) hu hA ho h2 (text_mem h1 hc) q hq
    · rw [List.mem_singleton.mp hp]
      exact .inl (by decide)
  | blockComment _ _ _ h1 h2 =>
    intro p hp
    obtain ⟨q, hq, rfl⟩ := List.mem_map.mp hp
    exact anyPieces_in (K := K) hu hA ho h2 (text_mem h1 hc) q hq
  | splitLiteral _ _ _ _ h _ _ => rw [ho] at h; cases h
  | @wholeLiteral ty v qs xs x _ _ _ _ _ h1 h2 h3 h4 =>
    intro p hp
    rw [List.mem_singleton.mp hp]
    have hx := shownLiterals_mem hu hA h2 (literal_mem h1 hc)
    show ∀ c ∈ x, c ∈ A
    cases nu with
    | false => rw [h3 rfl]; exact hx
    | true => exact hiddenText_mem hA (h4 rfl) hx

theorem describedAnyAll_in (hu : u.Laws) (hA : Alphabet u A) {nu : Bool} {o : PieceOpts} (ho : o.literals = .bpe)
    {lexed : List (TokType × Str)} {ps : List Piece} (h : DescribedAnyAll u nu o lexed ps) (hw : WrittenIn A K lexed) :
    ∀ p ∈ ps, PieceIn A K p := by
  induction h with
  | nil => simp
  | cons h _ ih =>
    intro p hp
    rcases List.mem_append.mp hp with hp | hp
    · exact describedAny_in hu hA ho h (hw _ (by simp)).1 (hw _ (by simp)).2 p hp
    · exact ih (fun e he => hw e (by simp [he])) p hp

theorem finish_in {ps : List Piece} (eof : Bool) (h : ∀ p ∈ ps, PieceIn A K p) : ∀ p ∈ finishPieces eof ps, PieceIn A K p := by
  intro p hp
  unfold finishPieces at hp
  rcases List.mem_append.mp hp with hp | hp
  · split at hp
    · exact h p (List.dropLast_subset _ hp)
    · exact h p hp
  · split at hp
    · rw [List.mem_singleton.mp hp]
      exact .inr (.inl (by decide))
    · cases hp

theorem spelled_known (hA : Alphabet u A) {d d' : BpeData}
    (hd : ∀ w l, (∀ c ∈ w, c ∈ A) → getBpeSubwords w d = .ok l → ∀ t ∈ markEnd l, KnownToken d' A K t) {p : Piece} {l : List Str}
    (h : SpelledAny u (.bpe d) p l) (hp : PieceIn A K p) : ∀ t ∈ markEnd l, KnownToken d' A K t := by
  have one : ∀ {s : Str}, (s ∈ fixedTexts ∨ ∃ c ∈ A, s = [c]) → ∀ t ∈ markEnd [s], KnownToken d' A K t := by
    intro s hs t ht
    rw [List.mem_singleton.mp ht]
    rcases hs with hs | ⟨c, hc, rfl⟩
    · exact .fixed hs
    · exact .single hc
  cases h with
  | same hf h =>
    cases h with
    | space => exact one (.inl hp)
    | fixed =>
      rcases hp with hp | hp
      · intro t ht
        rw [List.mem_singleton.mp ht]
        exact .whole hp
      · exact one hp
    | constant => exact one hp
    | quotes =>
      intro t ht
      change t ∈ ["\"".toList, "\"".toList ++ "</t>".toList] at ht
      rcases List.mem_cons.mp ht with rfl | ht
      · exact .quote
      · rw [List.mem_singleton.mp ht]
        exact .fixed (by decide)
    | numberBpe h => exact hd _ _ hp h
    | wordBpe h => exact hd _ _ hp h
    | literalBpe h => exact hd _ _ hp h
  | wordBpe h1 h2 => exact hd _ _ (shown_mem hA h1 hp) h2

theorem spelledAll_known (hA : Alphabet u A) {d d' : BpeData}
    (hd : ∀ w l, (∀ c ∈ w, c ∈ A) → getBpeSubwords w d = .ok l → ∀ t ∈ markEnd l, KnownToken d' A K t) {ns : Bool} {ps : List Piece}
    {us : List FullTok} (h : SpelledAnyAll u (.bpe d) ns ps us) (hp : ∀ p ∈ ps, PieceIn A K p) :
    ∀ x ∈ us, ∀ t ∈ markEnd x.subs, KnownToken d' A K t := by
  induction h with
  | nil => simp
  | skip _ _ _ ih => exact ih fun p h => hp p (by simp [h])
  | cons _ h _ ih =>
    rw [List.forall_mem_cons]
    exact ⟨spelled_known hA hd h (hp _ (by simp)), ih fun p h => hp p (by simp [h])⟩

end

end Verif
