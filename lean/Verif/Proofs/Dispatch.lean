import Verif.Spec.Dispatch
import Verif.Proofs.ParseText
import Verif.Model.Text
/-!
# Parsing: dispatch, totality and the shape of the result
-/
namespace Verif
open Spec

theorem isPrefixOf_cons_ne {a b : String} (h : ¬ b = a) (l r : List String) : (a :: l).isPrefixOf (b :: r) = false := by
  simp [List.isPrefixOf]
  intro e
  exact absurd e.symm h

theorem convert_kind (u : Ucd) (ty : TokType) (v : Str) (h : u.isBlank v = false) (h1 : v ≠ ['\n']) (h2 : v ≠ ['\t']) :
    convert u ty v = tokensOf u v (kindOf ty) := by
  have hn : (Matcher.newLine.matches u ty v) = false := by simpa [Matcher.matches] using h1
  have ht : (Matcher.tab.matches u ty v) = false := by simpa [Matcher.matches] using h2
  have hw : (Matcher.whitespace.matches u ty v) = false := h
  unfold convert matchers
  rw [convertWith, hn, convertWith, ht, convertWith, hw]
  simp only [Bool.false_eq_true, if_false]
  have hop : Matcher.operator.transform u v = .ok [operatorToken v] := by
    simp only [Matcher.transform, operatorToken]
    repeat' split
    all_goals first | rfl | simp_all
  have hnum : Matcher.number.transform u v = .ok [numberToken u v] := by
    simp only [Matcher.transform, numberToken, mkNumber]
    repeat' split
    all_goals first | rfl | simp_all
  have hmap : ∀ (x : Except PyErr (List Tok)) (f : List Tok → List Tok), (do let ts ← x; Except.ok (f ts)) = x.map f := by
    intro x f; cases x <;> rfl
  unfold kindOf
  split
  · simp [convertWith, Matcher.matches, hop, tokensOf]
  · simp [convertWith, Matcher.matches, TokType.isIn, hop, tokensOf, List.isPrefixOf]
  · simp [convertWith, Matcher.matches, TokType.isIn, hnum, tokensOf, List.isPrefixOf]
  · simp [convertWith, Matcher.matches, TokType.isIn, tokensOf, List.isPrefixOf, Matcher.transform, hmap]
  · simp [convertWith, Matcher.matches, TokType.isIn, tokensOf, List.isPrefixOf, Matcher.transform]
  · simp [convertWith, Matcher.matches, TokType.isIn, tokensOf, List.isPrefixOf, Matcher.transform, hmap]
  · rename_i hne
    simp [convertWith, Matcher.matches, TokType.isIn, tokensOf, List.isPrefixOf, Matcher.transform, hmap]
    rw [if_neg hne, if_neg hne]
  · rename_i x g1 g2 g3 g4 g5 g6 g7
    simp only [tokensOf]
    have e1 : Matcher.operator.matches u ty v = false := by
      simp only [Matcher.matches, TokType.isIn, Bool.or_eq_false_iff]
      refine ⟨by simpa using g1, ?_⟩
      cases ty with
      | nil => rfl
      | cons a r => rw [isPrefixOf_cons_ne]; rintro rfl; exact g2 _ rfl
    have e2 : Matcher.number.matches u ty v = false := by
      simp only [Matcher.matches, TokType.isIn]
      match ty, g3 with
      | [], _ => rfl
      | [a], _ => simp [List.isPrefixOf]
      | a :: b :: r, g3 =>
        simp only [List.isPrefixOf, Bool.and_true, Bool.and_eq_false_iff, beq_eq_false_iff_ne]
        by_cases ha : "Literal" = a
        · subst ha; right; rintro rfl; exact g3 r rfl
        · exact .inl ha
    have e3 : Matcher.string.matches u ty v = false := by
      simp only [Matcher.matches, TokType.isIn]
      match ty, g4 with
      | [], _ => rfl
      | [a], _ => simp [List.isPrefixOf]
      | a :: b :: r, g4 =>
        simp only [List.isPrefixOf, Bool.and_true, Bool.and_eq_false_iff, beq_eq_false_iff_ne]
        by_cases ha : "Literal" = a
        · subst ha; right; rintro rfl; exact g4 r rfl
        · exact .inl ha
    have e4 : Matcher.keyword.matches u ty v = false := by
      simp only [Matcher.matches, TokType.isIn]
      cases ty with
      | nil => rfl
      | cons a r => rw [isPrefixOf_cons_ne]; rintro rfl; exact g5 _ rfl
    have e5 : Matcher.oneLineComment.matches u ty v = false := by
      simpa [Matcher.matches] using g6
    have e6 : Matcher.multiLineComment.matches u ty v = false := by
      simp only [Matcher.matches, TokType.isIn, Bool.and_eq_false_iff]
      left
      cases ty with
      | nil => rfl
      | cons a r => rw [isPrefixOf_cons_ne]; rintro rfl; exact g7 _ rfl
    have hd : Matcher.default.matches u ty v = true := rfl
    simp only [convertWith, e1, e2, e3, e4, e5, e6, hd, Bool.false_eq_true, if_false, if_true, Matcher.transform]
    repeat' split
    all_goals rfl

theorem convert_newline (u : Ucd) (ty : TokType) : convert u ty ['\n'] = .ok [.newLine] := rfl

theorem convert_tab (u : Ucd) (ty : TokType) : convert u ty ['\t'] = .ok [.tab] := rfl

theorem convert_blank (u : Ucd) (ty : TokType) (v : Str) (h : u.isBlank v = true) (h1 : v ≠ ['\n']) (h2 : v ≠ ['\t']) :
    convert u ty v = .ok (List.replicate (v.length / 4) .tab) := by
  have hn : (Matcher.newLine.matches u ty v) = false := by simpa [Matcher.matches] using h1
  have ht : (Matcher.tab.matches u ty v) = false := by simpa [Matcher.matches] using h2
  have hw : (Matcher.whitespace.matches u ty v) = true := h
  unfold convert matchers
  rw [convertWith, hn, convertWith, ht, convertWith, hw]
  rfl

/-! ## Totality -/

/-- What parsing delivers for a word, an operator, and so on. -/
structure Simple (u : Ucd) (t : Tok) : Prop where
  number : NumberNonempty t
  nonEng : NonEngNonempty u t
  notComment : ¬ IsComment t
  notString : ¬ IsString t

theorem partToSubtok_str {u : Ucd} (hu : u.Laws) {p : Str} {w : Subtok} (h : partToSubtok u p = .ok w) : w.str u ≠ [] := by
  unfold partToSubtok at h
  split at h
  · cases p with
    | nil => simp [wordFrom] at h
    | cons c r =>
      rw [wordFrom_eq hu] at h
      have key : ∀ (s : Str) (cap : Cap), s ≠ [] → (Subtok.word s cap).str u ≠ [] := by
        intro s cap hs
        cases cap
        · exact hs
        · exact hs
        · exact hu.capitalize_ne_nil s hs
        · exact hu.toUpper_ne_nil s hs
      simp only [Except.ok.injEq] at h
      subst h
      repeat' split
      all_goals apply key
      · simp
      · exact hu.toLower_ne_nil _ (by simp)
      · have := hu.toLower_ne_nil [c] (by simp)
        simp [this]
      · simp
  · cases h; simp [Subtok.str]

theorem mapM_mem {α β : Type} {f : α → Except PyErr β} {l : List α} {bs : List β} (h : l.mapM f = .ok bs) :
    ∀ b ∈ bs, ∃ a ∈ l, f a = .ok b := by
  induction l generalizing bs with
  | nil => cases h; simp
  | cons a r ih =>
    rw [List.mapM_cons] at h
    cases hf : f a with
    | error e => rw [hf] at h; cases h
    | ok b =>
      cases hr : r.mapM f with
      | error e => rw [hf, hr] at h; cases h
      | ok cs =>
        rw [hf, hr] at h
        cases h
        intro x hx
        rcases List.mem_cons.mp hx with rfl | hx
        · exact ⟨a, by simp, hf⟩
        · obtain ⟨y, hy, e⟩ := ih hr x hx
          exact ⟨y, by simp [hy], e⟩

theorem mapM_length {α β : Type} {f : α → Except PyErr β} {l : List α} {bs : List β} (h : l.mapM f = .ok bs) :
    bs.length = l.length := by
  induction l generalizing bs with
  | nil => cases h; rfl
  | cons a r ih =>
    rw [List.mapM_cons] at h
    cases hf : f a with
    | error e => rw [hf] at h; cases h
    | ok b =>
      cases hr : r.mapM f with
      | error e => rw [hf, hr] at h; cases h
      | ok cs =>
        rw [hf, hr] at h
        cases h
        simp [ih hr]

theorem identSplit_ne {u : Ucd} {s : Str} {ps : List Str} (h : IdentSplit u s ps) (hc : ∃ c ∈ s, c ≠ ' ') : ps ≠ [] := by
  induction h with
  | nil => simp at hc
  | space _ ih =>
    refine ih ?_
    obtain ⟨c, h1, h2⟩ := hc
    rcases List.mem_cons.mp h1 with rfl | h1
    · exact absurd rfl h2
    · exact ⟨c, h1, h2⟩
  | underscore => simp
  | digits => simp
  | lower => simp
  | capitalised => simp
  | capitals => simp
  | other => simp

theorem splitIdentifier_simple {u : Ucd} (hu : u.Laws) (s : Str) : ∃ t, splitIdentifier u s = .ok t ∧ Simple u t := by
  have hps := (identSplit_iff hu s _).mpr rfl
  obtain ⟨subs, h⟩ := mapM_ok (f := partToSubtok u) fun p hp => partToSubtok_ok hu (identSplit_ne_nil hps p hp)
  refine ⟨if isNonEng s then .nonEng subs else .split subs, by unfold splitIdentifier; rw [h]; rfl, ?_⟩
  constructor
  · intro v hv; split at hv <;> cases hv
  · intro subs' hs
    split at hs
    · rename_i hne
      cases hs
      have hc : ∃ c ∈ s, c ≠ ' ' := by
        simp only [isNonEng, Bool.not_eq_true', List.all_eq_false] at hne
        obtain ⟨c, h1, h2⟩ := hne
        exact ⟨c, h1, by rintro rfl; exact h2 (by decide)⟩
      have hne := identSplit_ne hps hc
      have hl := mapM_length h
      cases subs with
      | nil => simp at hl; exact absurd hl.symm (by simpa using hne)
      | cons w r =>
        obtain ⟨p, _, hp⟩ := mapM_mem h w (by simp)
        rw [splitStr, concat_eq_flatten]
        simp [partToSubtok_str hu hp]
    · cases hs
  · rintro (⟨ts, h⟩ | ⟨ts, h⟩) <;> split at h <;> cases h
  · rintro ⟨ts, n, h⟩; split at h <;> cases h

theorem simple_of {u : Ucd} {t : Tok} (h1 : ∀ v, t ≠ .number v) (h2 : ∀ s, t ≠ .nonEng s) (h3 : ∀ s, t ≠ .oneLineComment s)
    (h4 : ∀ s, t ≠ .multilineComment s) (h5 : ∀ s n, t ≠ .stringLiteral s n) : Simple u t where
  number := fun v h => absurd h (h1 v)
  nonEng := fun s h => absurd h (h2 s)
  notComment := by
    rintro (⟨ts, h⟩ | ⟨ts, h⟩)
    · exact h3 ts h
    · exact h4 ts h
  notString := by rintro ⟨ts, n, h⟩; exact h5 ts n h

theorem mkNumber_simple {u : Ucd} (hu : u.Laws) {s : Str} (hs : s ≠ []) : Simple u (mkNumber u s) where
  number := by intro v h; cases h; exact hu.toLower_ne_nil s hs
  nonEng := fun s h => by cases h
  notComment := by rintro (⟨ts, h⟩ | ⟨ts, h⟩) <;> cases h
  notString := by rintro ⟨ts, n, h⟩; cases h

theorem toParsedToken_simple {u : Ucd} (hu : u.Laws) (s : Str) : ∃ t, toParsedToken u s = .ok t ∧ Simple u t := by
  unfold toParsedToken
  split
  · exact ⟨_, rfl, simple_of (by simp) (by simp) (by simp) (by simp) (by simp)⟩
  split
  · exact ⟨_, rfl, simple_of (by simp) (by simp) (by simp) (by simp) (by simp)⟩
  split
  · rename_i h
    exact ⟨_, rfl, mkNumber_simple hu (by rintro rfl; exact absurd h (by decide))⟩
  split
  · exact splitIdentifier_simple hu s
  · exact ⟨_, rfl, simple_of (by simp) (by simp) (by simp) (by simp) (by simp)⟩

theorem mapM_simple {u : Ucd} {f : Str → Except PyErr Tok} (hf : ∀ p, ∃ t, f p = .ok t ∧ Simple u t) (l : List Str) :
    ∃ ts, l.mapM f = .ok ts ∧ ∀ t ∈ ts, Simple u t := by
  obtain ⟨ts, h⟩ := mapM_ok (f := f) (l := l) fun a _ => (hf a).imp fun _ h => h.1
  refine ⟨ts, h, fun t ht => ?_⟩
  obtain ⟨a, _, ha⟩ := mapM_mem h t ht
  obtain ⟨t', h1, h2⟩ := hf a
  rw [h1] at ha
  cases ha
  exact h2

theorem splitIntoWords_simple {u : Ucd} (hu : u.Laws) (s : Str) : ∃ ts, splitIntoWords u s = .ok ts ∧ ∀ t ∈ ts, Simple u t :=
  mapM_simple (fun p => by
    unfold wordPiece
    split
    · exact ⟨_, rfl, simple_of (by simp) (by simp) (by simp) (by simp) (by simp)⟩
    · exact toParsedToken_simple hu p) _

theorem splitString_simple {u : Ucd} (hu : u.Laws) (s : Str) : ∃ ts, splitString u s = .ok ts ∧ ∀ t ∈ ts, Simple u t :=
  mapM_simple (fun p => by
    unfold stringPiece
    split
    · exact ⟨_, rfl, simple_of (by simp) (by simp) (by simp) (by simp) (by simp)⟩
    · exact toParsedToken_simple hu p) _

/-- The shape of what parsing delivers: simple tokens, or comments and string literals made of simple tokens. -/
def Parsed (u : Ucd) (t : Tok) : Prop :=
  Simple u t ∨ (∃ ts, t = .oneLineComment ts ∧ ∀ x ∈ ts, Simple u x) ∨ (∃ ts, t = .multilineComment ts ∧ ∀ x ∈ ts, Simple u x) ∨
    ∃ ts n, t = .stringLiteral ts n ∧ ∀ x ∈ ts, Simple u x

theorem convert_parsed {u : Ucd} (hu : u.Laws) (ty : TokType) (v : Str) :
    ∃ ts, convert u ty v = .ok ts ∧ ∀ t ∈ ts, Parsed u t := by
  by_cases h1 : v = ['\n']
  · subst h1
    exact ⟨_, rfl, by simp; exact .inl (simple_of (by simp) (by simp) (by simp) (by simp) (by simp))⟩
  by_cases h2 : v = ['\t']
  · subst h2
    exact ⟨_, rfl, by simp; exact .inl (simple_of (by simp) (by simp) (by simp) (by simp) (by simp))⟩
  cases hb : u.isBlank v with
  | true =>
    refine ⟨_, convert_blank u ty v hb h1 h2, fun t ht => ?_⟩
    obtain ⟨-, rfl⟩ := List.mem_replicate.mp ht
    exact .inl (simple_of (by simp) (by simp) (by simp) (by simp) (by simp))
  | false =>
    rw [convert_kind u ty v hb h1 h2]
    have hv : v ≠ [] := by rintro rfl; simp [Ucd.isBlank] at hb
    cases kindOf ty with
    | operator =>
      refine ⟨_, rfl, ?_⟩
      simp only [List.mem_singleton, forall_eq]
      left
      unfold operatorToken
      repeat' split
      all_goals exact simple_of (by simp) (by simp) (by simp) (by simp) (by simp)
    | number =>
      refine ⟨_, rfl, ?_⟩
      simp only [List.mem_singleton, forall_eq]
      left
      unfold numberToken
      split
      · exact simple_of (by simp) (by simp) (by simp) (by simp) (by simp)
      split
      · exact simple_of (by simp) (by simp) (by simp) (by simp) (by simp)
      · exact mkNumber_simple hu hv
    | keyword => exact ⟨_, rfl, by simp; exact .inl (simple_of (by simp) (by simp) (by simp) (by simp) (by simp))⟩
    | words =>
      obtain ⟨ts, h, hs⟩ := splitIntoWords_simple hu v
      exact ⟨ts, h, fun t ht => .inl (hs t ht)⟩
    | string =>
      obtain ⟨ts, h, hs⟩ := splitString_simple hu v
      refine ⟨[.stringLiteral ts v.length], by simp [tokensOf, h, Except.map], ?_⟩
      simp only [List.mem_singleton, forall_eq]
      exact .inr (.inr (.inr ⟨ts, _, rfl, hs⟩))
    | lineComment =>
      obtain ⟨ts, h, hs⟩ := splitIntoWords_simple hu v
      refine ⟨[.oneLineComment ts], by simp [tokensOf, h, Except.map], ?_⟩
      simp only [List.mem_singleton, forall_eq]
      exact .inr (.inl ⟨ts, rfl, hs⟩)
    | blockComment =>
      obtain ⟨ts, h, hs⟩ := splitIntoWords_simple hu v
      refine ⟨[.multilineComment ts], by simp [tokensOf, h, Except.map], ?_⟩
      simp only [List.mem_singleton, forall_eq]
      exact .inr (.inr (.inl ⟨ts, rfl, hs⟩))

theorem convertText_parsed {u : Ucd} (hu : u.Laws) (l : List (TokType × Str)) :
    ∃ ts, convertText u l = .ok ts ∧ ∀ t ∈ ts, Parsed u t := by
  induction l with
  | nil => exact ⟨[], rfl, by simp⟩
  | cons a r ih =>
    obtain ⟨ty, v⟩ := a
    obtain ⟨ts, h1, h2⟩ := convert_parsed hu ty v
    obtain ⟨rs, h3, h4⟩ := ih
    refine ⟨ts ++ rs, by simp [convertText, h1, h3, bind, Except.bind], ?_⟩
    intro t ht
    rcases List.mem_append.mp ht with ht | ht
    · exact h2 t ht
    · exact h4 t ht

theorem finishParsed_parsed {u : Ucd} {ts : List Tok} (h : ∀ t ∈ ts, Parsed u t) (eof : Bool) :
    ∀ t ∈ finishParsed ts eof, Parsed u t := by
  have hr : ∀ t ∈ removeTrailingNewline ts, Parsed u t := by
    intro t ht
    unfold removeTrailingNewline at ht
    split at ht
    · split at ht
      · exact h t (List.dropLast_subset _ ht)
      · exact h t ht
    · exact h t ht
  intro t ht
  unfold finishParsed at ht
  simp only at ht
  split at ht
  · rcases List.mem_append.mp ht with ht | ht
    · exact hr t ht
    · simp at ht; subst ht
      exact .inl (simple_of (by simp) (by simp) (by simp) (by simp) (by simp))
  · exact hr t ht

/-- A property of simple tokens that does not concern comments and literals holds everywhere in a simple token. -/
theorem Simple.everywhere {u : Ucd} {p : Tok → Prop} {t : Tok} (h : Simple u t) (hp : p t) : Everywhere p t := by
  cases t <;> first
    | exact hp
    | exact absurd (.inl ⟨_, rfl⟩) h.notComment
    | exact absurd (.inr ⟨_, rfl⟩) h.notComment
    | exact absurd ⟨_, _, rfl⟩ h.notString

theorem everywhereList_of {p : Tok → Prop} {ts : List Tok} (h : ∀ t ∈ ts, Everywhere p t) : EverywhereList p ts := by
  induction ts with
  | nil => trivial
  | cons t r ih => exact ⟨h t (by simp), ih fun t ht => h t (by simp [ht])⟩

theorem Parsed.everywhere {u : Ucd} {p : Tok → Prop} {t : Tok} (h : Parsed u t) (hp : ∀ x, Simple u x → p x)
    (hc : ∀ ts, (∀ x ∈ ts, Simple u x) → p (.oneLineComment ts) ∧ p (.multilineComment ts) ∧ ∀ n, p (.stringLiteral ts n)) :
    Everywhere p t := by
  have list : ∀ ts, (∀ x ∈ ts, Simple u x) → EverywhereList p ts := fun ts h =>
    everywhereList_of fun t ht => (h t ht).everywhere (hp t (h t ht))
  rcases h with h | ⟨ts, rfl, h⟩ | ⟨ts, rfl, h⟩ | ⟨ts, n, rfl, h⟩
  · exact h.everywhere (hp t h)
  · exact ⟨(hc ts h).1, list ts h⟩
  · exact ⟨(hc ts h).2.1, list ts h⟩
  · exact ⟨(hc ts h).2.2 n, list ts h⟩

theorem Parsed.numberNonempty {u : Ucd} {t : Tok} (h : Parsed u t) : Everywhere NumberNonempty t :=
  h.everywhere (fun _ h => h.number) fun ts _ =>
    ⟨fun v h => (by cases h), fun v h => (by cases h), fun n v h => (by cases h)⟩

theorem Parsed.nonEngNonempty {u : Ucd} {t : Tok} (h : Parsed u t) : Everywhere (NonEngNonempty u) t :=
  h.everywhere (fun _ h => h.nonEng) fun ts _ =>
    ⟨fun v h => (by cases h), fun v h => (by cases h), fun n v h => (by cases h)⟩

theorem Parsed.notNested {u : Ucd} {t : Tok} (h : Parsed u t) : Everywhere NotNested t := by
  refine h.everywhere (fun x h => ?_) fun ts hs => ?_
  · exact ⟨fun ts e => absurd (.inl ⟨ts, e⟩) h.notComment, fun ts e => absurd (.inr ⟨ts, e⟩) h.notComment,
      fun ts n e => absurd ⟨ts, n, e⟩ h.notString⟩
  · have hx : ∀ x ∈ ts, ¬ IsComment x ∧ ¬ IsString x := fun x hx => ⟨(hs x hx).notComment, (hs x hx).notString⟩
    refine ⟨⟨?_, ?_, ?_⟩, ⟨?_, ?_, ?_⟩, fun n => ⟨?_, ?_, ?_⟩⟩
    · intro ts' h; cases h; exact hx
    · intro ts' h; cases h
    · intro ts' n h; cases h
    · intro ts' h; cases h
    · intro ts' h; cases h; exact hx
    · intro ts' n h; cases h
    · intro ts' h; cases h
    · intro ts' h; cases h
    · intro ts' n h; cases h; exact hx

end Verif
