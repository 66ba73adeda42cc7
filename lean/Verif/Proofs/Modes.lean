import Verif.Props.Breaks
import Verif.Props.BpeEncode
import Verif.Props.Case
import Verif.Spec.Modes
/-!
# Pieces of a text in different splitting modes
-/
namespace Verif.Props
open Verif Spec

/-! ## BPE and full strings -/

/-- The piece that full strings have in place of the two quotes. -/
def plainForm (p : Piece) : Piece := { p with form := if p.form = .quotes then .constant else p.form }

theorem plainForm_of {p : Piece} (h : p.form ≠ .quotes) : plainForm p = p := by
  unfold plainForm
  rw [if_neg h]

theorem plainForm_map {ps : List Piece} (h : ∀ p ∈ ps, p.form ≠ .quotes) : ps.map plainForm = ps := by
  induction ps with
  | nil => rfl
  | cons p r ih => rw [List.map_cons, plainForm_of (h p (by simp)), ih fun q hq => h q (by simp [hq])]

theorem codePiece_noQuotes (u : Ucd) (p : Str) : (codePiece u p).form ≠ .quotes := by
  unfold codePiece
  repeat' split
  all_goals simp

/-- Without `no_unicode` pieces do not depend on what is done with literals. -/
theorem anyPieces_full {u : Ucd} {o : PieceOpts} {ps : List Str} {qs : List Piece} (h : AnyPieces u false o ps qs) (l : Literals) :
    AnyPieces u false { o with literals := l } ps qs ∧ ∀ q ∈ qs, q.form ≠ .quotes := by
  induction h with
  | nil => exact ⟨.nil, by simp⟩
  | cons h _ ih =>
    cases h with
    | plain h =>
      refine ⟨.cons (.plain h) ih.1, ?_⟩
      intro q hq
      rcases List.mem_cons.mp hq with rfl | hq
      · exact codePiece_noQuotes _ _
      · exact ih.2 q hq
    | hidden _ h => cases h
    | replaced _ h => cases h

theorem within_noQuotes {ty : Ty} {qs : List Piece} (h : ∀ q ∈ qs, q.form ≠ .quotes) :
    ∀ q ∈ qs.map (Piece.within ty), q.form ≠ .quotes := by
  intro q hq
  obtain ⟨r, hr, rfl⟩ := List.mem_map.mp hq
  exact h r hr

theorem numberPiece_noQuotes (u : Ucd) (v : Str) : (numberPiece u v).form ≠ .quotes := by
  unfold numberPiece
  repeat' split
  all_goals simp

theorem described_full {u : Ucd} {o : PieceOpts} (ho : o.literals = .bpe) {e : TokType × Str} {ps : List Piece}
    (hw : NoWords u o e) (h : Described u o e ps) :
    Described u { o with literals := .full } e (ps.map plainForm) := by
  have one : ∀ {q : Piece}, q.form ≠ .quotes → Described u { o with literals := .full } e [q] →
      Described u { o with literals := .full } e ([q].map plainForm) := by
    intro q hq h
    rwa [plainForm_map (by simpa using hq)]
  cases h with
  | newline ty => exact one (by simp) (.newline ty)
  | tab ty => exact one (by simp) (.tab ty)
  | blank h1 h2 h3 =>
    rw [plainForm_map (fun q hq => by rw [List.eq_of_mem_replicate hq]; simp)]
    exact .blank h1 h2 h3
  | operator h1 h2 => exact one (by simp) (.operator h1 h2)
  | number h1 h2 => exact one (numberPiece_noQuotes _ _) (.number h1 h2)
  | keyword h1 h2 => exact one (by simp) (.keyword h1 h2)
  | words h1 h2 h3 =>
    rw [plainForm_map (fun q hq => by obtain ⟨r, _, rfl⟩ := List.mem_map.mp hq; exact codePiece_noQuotes _ _)]
    exact .words h1 h2 h3
  | lineComment h1 h2 h3 h4 =>
    rw [List.map_append, plainForm_map (within_noQuotes fun q hq => by
      obtain ⟨r, _, rfl⟩ := List.mem_map.mp hq; exact codePiece_noQuotes _ _)]
    exact .lineComment h1 h2 h3 h4
  | blockComment h1 h2 h3 h4 =>
    rw [plainForm_map (within_noQuotes fun q hq => by
      obtain ⟨r, _, rfl⟩ := List.mem_map.mp hq; exact codePiece_noQuotes _ _)]
    exact .blockComment h1 h2 h3 h4
  | hiddenLine h1 h2 h3 => exact one (by simp) (.hiddenLine h1 h2 h3)
  | hiddenBlock h1 h2 h3 => exact one (by simp) (.hiddenBlock h1 h2 h3)
  | hiddenString h1 h2 h3 => exact one (by simp) (.hiddenString h1 h2 h3)
  | long h1 h2 h3 h4 =>
    have := Described.long (u := u) (o := { o with literals := .full }) h1 h2 h3 h4
    rw [ho]
    simpa [plainForm] using this
  | splitLiteral h1 h2 h3 h4 h5 h6 => rw [ho] at h5; cases h5
  | wholeLiteral h1 h2 h3 h4 h5 h6 => exact one (by simp) (.wholeLiteral h1 h2 h3 h4 (by simp) h6)

theorem describedAny_full {u : Ucd} {o : PieceOpts} (ho : o.literals = .bpe) {e : TokType × Str} {ps : List Piece}
    (h : DescribedAny u false o e ps) : DescribedAny u false { o with literals := .full } e (ps.map plainForm) := by
  cases h with
  | same h1 h2 => exact .same h1 (described_full ho h1 h2)
  | words h1 h2 h3 h4 =>
    obtain ⟨g1, g2⟩ := anyPieces_full h4 .full
    rw [plainForm_map g2]
    exact .words h1 h2 h3 g1
  | lineComment h1 h2 h3 h4 h5 =>
    obtain ⟨g1, g2⟩ := anyPieces_full h5 .full
    rw [List.map_append, plainForm_map (within_noQuotes g2)]
    exact .lineComment h1 h2 h3 h4 g1
  | blockComment h1 h2 h3 h4 h5 =>
    obtain ⟨g1, g2⟩ := anyPieces_full h5 .full
    rw [plainForm_map (within_noQuotes g2)]
    exact .blockComment h1 h2 h3 h4 g1
  | splitLiteral h1 h2 h3 h4 h5 h6 h7 => rw [ho] at h5; cases h5
  | wholeLiteral h1 h2 h3 h4 h5 h6 h7 h8 h9 =>
    rw [plainForm_map (by simp)]
    exact .wholeLiteral h1 h2 h3 h4 (by simp) h6 h7 h8 h9

theorem describedAnyAll_full {u : Ucd} {o : PieceOpts} (ho : o.literals = .bpe) {lexed : List (TokType × Str)} {ps : List Piece}
    (h : DescribedAnyAll u false o lexed ps) : DescribedAnyAll u false { o with literals := .full } lexed (ps.map plainForm) := by
  induction h with
  | nil => exact .nil
  | cons h _ ih => rw [List.map_append]; exact .cons (describedAny_full ho h) ih

theorem finish_plainForm (eof : Bool) (ps : List Piece) : finishPieces eof (ps.map plainForm) = (finishPieces eof ps).map plainForm := by
  unfold finishPieces
  rw [List.map_append, List.getLast?_map]
  congr 1
  · rw [Option.map_map]
    have : ((fun p : Piece => p.ty) ∘ plainForm) = fun p : Piece => p.ty := rfl
    rw [this]
    split
    · rw [List.map_dropLast]
    · rfl
  · cases eof <;> rfl

/-- A genuine cache makes no difference. -/
theorem genuine_lossless {d : BpeData} (hg : GenuineCache d) {w : Str} (hs : ' ' ∉ w) {l : List Str} (h : getBpeSubwords w d = .ok l) :
    l.flatten = w ∧ l ≠ [] := by
  have h' : getBpeSubwords w ⟨[], d.merges⟩ = .ok l := by
    unfold getBpeSubwords getBpeSubwordsSt at h ⊢
    cases hc : d.cache.get? (escape w true) with
    | some r =>
      simp only [hc] at h
      simp only [Dict.get?, hg _ _ hc]
      cases hu : unescape r with
      | error e => simp [hu, bind, Except.bind, Except.map] at h
      | ok x => simpa only [hu, bind, Except.bind, Except.map] using h
    | none =>
      simp only [hc] at h
      simp only [Dict.get?]
      cases he : encodeWord (escape w true) d.merges with
      | error e => simp [he, bind, Except.bind, Except.map] at h
      | ok r =>
        cases hu : unescape r with
        | error e => simp [he, hu, bind, Except.bind, Except.map] at h
        | ok x => simpa only [he, hu, bind, Except.bind, Except.map] using h
  obtain ⟨l', h1, h2, h3, -⟩ := C01_bpe_lossless w ⟨[], d.merges⟩ hs rfl
  rw [h1] at h'
  cases h'
  exact ⟨h2, h3⟩

theorem spelledAny_full {u : Ucd} (hk : KeepsWhite u) {d : BpeData} (hg : GenuineCache d) {p : Piece} {l : List Str} (hf : Fit p)
    (hq : p.form = .quotes → p.text = "\"\"".toList) (h : SpelledAny u (.bpe d) p l) :
    SpelledAny u .nosplit (plainForm p) [l.flatten] ∧ l ≠ [] := by
  cases h with
  | same hw h =>
    cases h with
    | space => exact ⟨.same (by simp [plainForm]) (by simpa [plainForm] using Spelled.space), by simp⟩
    | fixed => exact ⟨.same (by simp [plainForm]) (by simpa [plainForm] using Spelled.fixed), by simp⟩
    | constant => exact ⟨.same (by simp [plainForm]) (by simpa [plainForm] using Spelled.constant), by simp⟩
    | @quotes _ _ s =>
      have : s = "\"\"".toList := hq rfl
      subst this
      exact ⟨.same (by simp [plainForm]) (by simpa [plainForm] using Spelled.constant), by simp⟩
    | numberBpe h =>
      obtain ⟨g1, g2⟩ := genuine_lossless hg (hf.1 (.inr rfl)).2 h
      rw [g1]
      exact ⟨.same (by simp [plainForm]) (by simpa [plainForm] using Spelled.numberWhole), g2⟩
    | wordBpe h => exact absurd rfl hw
    | literalBpe h =>
      obtain ⟨g1, g2⟩ := genuine_lossless hg (hf.2 rfl) h
      rw [g1]
      exact ⟨.same (by simp [plainForm]) (by simpa [plainForm] using Spelled.literalWhole), g2⟩
  | wordBpe h1 h2 =>
    obtain ⟨g1, g2⟩ := genuine_lossless hg (shown_white hk (by simp) h1 (hf.1 (.inl rfl)).2) h2
    rw [g1, plainForm_of (by simp)]
    exact ⟨.wordWhole h1, g2⟩

theorem spelledAnyAll_full {u : Ucd} (hk : KeepsWhite u) {d : BpeData} (hg : GenuineCache d) {ns : Bool} {ps : List Piece}
    {us : List FullTok} (hf : ∀ p ∈ ps, Fit p ∧ (p.form = .quotes → p.text = "\"\"".toList)) (h : SpelledAnyAll u (.bpe d) ns ps us) :
    (∃ vs, SpelledAnyAll u .nosplit ns (ps.map plainForm) vs ∧ vs.map (·.ty) = us.map (·.ty) ∧
      vs.map (·.subs) = us.map fun x => [x.subs.flatten]) ∧ ∀ x ∈ us, x.subs ≠ [] := by
  induction h with
  | nil => exact ⟨⟨[], .nil, rfl, rfl⟩, by simp⟩
  | skip h1 h2 _ ih =>
    obtain ⟨⟨vs, g1, g2, g3⟩, g4⟩ := ih fun p hp => hf p (by simp [hp])
    refine ⟨⟨vs, .skip h1 ?_ g1, g2, g3⟩, g4⟩
    simp [plainForm, h2]
  | @cons p l ps us h1 h2 _ ih =>
    obtain ⟨⟨vs, g1, g2, g3⟩, g4⟩ := ih fun p hp => hf p (by simp [hp])
    obtain ⟨k1, k2⟩ := spelledAny_full hk hg (hf p (by simp)).1 (hf p (by simp)).2 h2
    refine ⟨⟨_, .cons ?_ k1 g1, ?_, ?_⟩, ?_⟩
    · refine h1.imp id fun h => ?_
      unfold plainForm
      simp only
      split
      · simp
      · exact h
    · rw [List.map_cons, List.map_cons, g2]; rfl
    · rw [List.map_cons, List.map_cons, g3]
    · intro x hx
      rcases List.mem_cons.mp hx with rfl | hx
      · exact k2
      · exact g4 x hx

/-! ## Two calls -/

/-- The types of full tokens do not depend on the mode. -/
theorem spelledAnyAll_types {u : Ucd} {m m' : Mode} {ns : Bool} {ps : List Piece} {us vs : List FullTok}
    (h : SpelledAnyAll u m ns ps us) (g : SpelledAnyAll u m' ns ps vs) :
    us.map (·.ty) = vs.map (·.ty) ∧ us.map (·.nonproc) = vs.map (·.nonproc) := by
  induction h generalizing vs with
  | nil => cases g; exact ⟨rfl, rfl⟩
  | skip h1 h2 _ ih =>
    cases g with
    | skip _ _ g => exact ih g
    | cons g1 _ _ =>
      rcases g1 with g1 | g1
      · rw [h1] at g1; cases g1
      · exact absurd h2 g1
  | cons h1 h2 _ ih =>
    cases g with
    | skip g1 g2 _ =>
      rcases h1 with h1 | h1
      · rw [g1] at h1; cases h1
      · exact absurd g2 h1
    | cons _ _ g =>
      obtain ⟨k1, k2⟩ := ih g
      exact ⟨by simp [k1], by simp [k2]⟩

/-- What the subtokens of a piece show does not depend on the BPE data. -/
theorem spelledAny_codes {u : Ucd} (hu : u.Laws) (hk : KeepsWhite u) {d d' : BpeData} (hg : GenuineCache d) (hg' : GenuineCache d')
    {p : Piece} {l l' : List Str} (hf : Fit p) (h : SpelledAny u (.bpe d) p l) (h' : SpelledAny u (.bpe d') p l') :
    l.flatten = l'.flatten ∧ l ≠ [] ∧ l' ≠ [] := by
  cases h with
  | same hw h =>
    cases h with
    | space => cases h' with | same _ h' => cases h'; exact ⟨rfl, by simp, by simp⟩
    | fixed => cases h' with | same _ h' => cases h'; exact ⟨rfl, by simp, by simp⟩
    | constant => cases h' with | same _ h' => cases h'; exact ⟨rfl, by simp, by simp⟩
    | quotes => cases h' with | same _ h' => cases h'; exact ⟨rfl, by simp, by simp⟩
    | numberBpe h =>
      cases h' with
      | same _ h' =>
        cases h' with
        | numberBpe h' =>
          obtain ⟨g1, g2⟩ := genuine_lossless hg (hf.1 (.inr rfl)).2 h
          obtain ⟨k1, k2⟩ := genuine_lossless hg' (hf.1 (.inr rfl)).2 h'
          exact ⟨g1.trans k1.symm, g2, k2⟩
    | wordBpe h => exact absurd rfl hw
    | literalBpe h =>
      cases h' with
      | same _ h' =>
        cases h' with
        | literalBpe h' =>
          obtain ⟨g1, g2⟩ := genuine_lossless hg (hf.2 rfl) h
          obtain ⟨k1, k2⟩ := genuine_lossless hg' (hf.2 rfl) h'
          exact ⟨g1.trans k1.symm, g2, k2⟩
  | wordBpe h1 h2 =>
    cases h' with
    | same hw _ => exact absurd rfl hw
    | wordBpe h1' h2' =>
      obtain rfl := identSplit_unique hu h1 h1'
      have hs := shown_white hk (c := ' ') (by simp) h1 (hf.1 (.inl rfl)).2
      obtain ⟨g1, g2⟩ := genuine_lossless hg hs h2
      obtain ⟨k1, k2⟩ := genuine_lossless hg' hs h2'
      exact ⟨g1.trans k1.symm, g2, k2⟩

theorem spelledAnyAll_codes {u : Ucd} (hu : u.Laws) (hk : KeepsWhite u) {d d' : BpeData} (hg : GenuineCache d) (hg' : GenuineCache d')
    {ns : Bool} {ps : List Piece} {us vs : List FullTok} (hf : ∀ p ∈ ps, Fit p) (h : SpelledAnyAll u (.bpe d) ns ps us)
    (g : SpelledAnyAll u (.bpe d') ns ps vs) :
    us.map (fun x => x.subs.flatten) = vs.map (fun x => x.subs.flatten) ∧ (∀ x ∈ us, x.subs ≠ []) ∧ ∀ x ∈ vs, x.subs ≠ [] := by
  induction h generalizing vs with
  | nil => cases g; exact ⟨rfl, by simp, by simp⟩
  | skip h1 h2 _ ih =>
    cases g with
    | skip _ _ g => exact ih (fun p hp => hf p (by simp [hp])) g
    | cons g1 _ _ =>
      rcases g1 with g1 | g1
      · rw [h1] at g1; cases g1
      · exact absurd h2 g1
  | cons h1 h2 _ ih =>
    cases g with
    | skip g1 g2 _ =>
      rcases h1 with h1 | h1
      · rw [g1] at h1; cases h1
      · exact absurd g2 h1
    | cons _ g2 g =>
      obtain ⟨k1, k2, k3⟩ := ih (fun p hp => hf p (by simp [hp])) g
      obtain ⟨j1, j2, j3⟩ := spelledAny_codes hu hk hg hg' (hf _ (by simp)) h2 g2
      refine ⟨by simp [k1, j1], ?_, ?_⟩
      · intro x hx
        rcases List.mem_cons.mp hx with rfl | hx
        · exact j2
        · exact k2 x hx
      · intro x hx
        rcases List.mem_cons.mp hx with rfl | hx
        · exact j3
        · exact k3 x hx

/-! ## The two quotes -/

theorem described_quotes {u : Ucd} {o : PieceOpts} {e : TokType × Str} {ps : List Piece} (h : Described u o e ps) :
    ∀ p ∈ ps, p.form = .quotes → p.text = "\"\"".toList := by
  have code : ∀ (qs : List Str), ∀ p ∈ qs.map (codePiece u), p.form ≠ .quotes := by
    intro qs p hp
    obtain ⟨r, _, rfl⟩ := List.mem_map.mp hp
    exact codePiece_noQuotes _ _
  cases h with
  | long h1 h2 h3 h4 => intro p hp _; simp only [List.mem_cons, List.not_mem_nil, or_false] at hp; rw [hp]
  | blank h1 h2 h3 => intro p hp hq; rw [List.eq_of_mem_replicate hp] at hq; cases hq
  | number h1 h2 =>
    intro p hp hq
    simp only [List.mem_cons, List.not_mem_nil, or_false] at hp
    exact absurd (hp ▸ hq) (numberPiece_noQuotes _ _)
  | words h1 h2 h3 => exact fun p hp hq => absurd hq (code _ p hp)
  | lineComment h1 h2 h3 h4 =>
    intro p hp hq
    rcases List.mem_append.mp hp with hp | hp
    · exact absurd hq (within_noQuotes (code _) p hp)
    · simp only [List.mem_cons, List.not_mem_nil, or_false] at hp; rw [hp] at hq; cases hq
  | blockComment h1 h2 h3 h4 => exact fun p hp hq => absurd hq (within_noQuotes (code _) p hp)
  | splitLiteral h1 h2 h3 h4 h5 h6 => exact fun p hp hq => absurd hq (within_noQuotes (code _) p hp)
  | newline ty => intro p hp hq; simp only [List.mem_cons, List.not_mem_nil, or_false] at hp; rw [hp] at hq; cases hq
  | tab ty => intro p hp hq; simp only [List.mem_cons, List.not_mem_nil, or_false] at hp; rw [hp] at hq; cases hq
  | operator h1 h2 => intro p hp hq; simp only [List.mem_cons, List.not_mem_nil, or_false] at hp; rw [hp] at hq; cases hq
  | keyword h1 h2 => intro p hp hq; simp only [List.mem_cons, List.not_mem_nil, or_false] at hp; rw [hp] at hq; cases hq
  | hiddenLine h1 h2 h3 => intro p hp hq; simp only [List.mem_cons, List.not_mem_nil, or_false] at hp; rw [hp] at hq; cases hq
  | hiddenBlock h1 h2 h3 => intro p hp hq; simp only [List.mem_cons, List.not_mem_nil, or_false] at hp; rw [hp] at hq; cases hq
  | hiddenString h1 h2 h3 => intro p hp hq; simp only [List.mem_cons, List.not_mem_nil, or_false] at hp; rw [hp] at hq; cases hq
  | wholeLiteral h1 h2 h3 h4 h5 h6 => intro p hp hq; simp only [List.mem_cons, List.not_mem_nil, or_false] at hp; rw [hp] at hq; cases hq

theorem describedAny_quotes {u : Ucd} {o : PieceOpts} {e : TokType × Str} {ps : List Piece} (h : DescribedAny u false o e ps) :
    ∀ p ∈ ps, p.form = .quotes → p.text = "\"\"".toList := by
  cases h with
  | same h1 h2 => exact described_quotes h2
  | words h1 h2 h3 h4 => exact fun p hp hq => absurd hq ((anyPieces_full h4 .full).2 p hp)
  | lineComment h1 h2 h3 h4 h5 =>
    intro p hp hq
    rcases List.mem_append.mp hp with hp | hp
    · exact absurd hq (within_noQuotes (anyPieces_full h5 .full).2 p hp)
    · simp only [List.mem_cons, List.not_mem_nil, or_false] at hp; rw [hp] at hq; cases hq
  | blockComment h1 h2 h3 h4 h5 => exact fun p hp hq => absurd hq (within_noQuotes (anyPieces_full h5 .full).2 p hp)
  | splitLiteral h1 h2 h3 h4 h5 h6 h7 => exact fun p hp hq => absurd hq (within_noQuotes (anyPieces_full h7 .full).2 p hp)
  | wholeLiteral h1 h2 h3 h4 h5 h6 h7 h8 h9 =>
    intro p hp hq; simp only [List.mem_cons, List.not_mem_nil, or_false] at hp; rw [hp] at hq; cases hq

theorem describedAnyAll_fit {u : Ucd} (hu : u.Laws) (hk : KeepsWhite u) {call : ApiCall} {lexed : List (TokType × Str)} {ps : List Piece}
    (hp : ∀ e ∈ lexed, PlainNumber e) (h : DescribedAnyAll u false (pieceOpts call) lexed ps) :
    ∀ p ∈ ps, Fit p ∧ (p.form = .quotes → p.text = "\"\"".toList) := by
  induction h with
  | nil => simp
  | cons h _ ih =>
    intro p hm
    rcases List.mem_append.mp hm with hm | hm
    · exact ⟨(describedAny_breaks hu hk (hp _ (by simp)) h).2 p hm, describedAny_quotes h p hm⟩
    · exact ih (fun e he => hp e (by simp [he])) p hm

theorem describedAnyAll_fits {u : Ucd} (hu : u.Laws) (hk : KeepsWhite u) {nu : Bool} {call : ApiCall} {lexed : List (TokType × Str)}
    {ps : List Piece} (hp : ∀ e ∈ lexed, PlainNumber e) (h : DescribedAnyAll u nu (pieceOpts call) lexed ps) : ∀ p ∈ ps, Fit p := by
  induction h with
  | nil => simp
  | cons h _ ih =>
    intro p hm
    rcases List.mem_append.mp hm with hm | hm
    · exact (describedAny_breaks hu hk (hp _ (by simp)) h).2 p hm
    · exact ih (fun e he => hp e (by simp [he])) p hm

theorem finish_mem {eof : Bool} {ps : List Piece} {p : Piece} (h : p ∈ finishPieces eof ps) :
    p ∈ ps ∨ p = ⟨.specialToken, "<EOF>".toList, .fixed⟩ := by
  unfold finishPieces at h
  rcases List.mem_append.mp h with h | h
  · split at h
    · exact .inl (List.dropLast_subset _ h)
    · exact .inl h
  · split at h
    · exact .inr (by simpa using h)
    · cases h

/-! ## Words in parts -/

theorem recased_never {u : Ucd} {c : Char} (hk : NeverMakes u c) {p : Str} (h : c ∉ p) : c ∉ recased u p := by
  cases p with
  | nil => exact h
  | cons d r =>
    rw [recased_cons]
    split
    · exact hk.upper _ (hk.lower _ h)
    split
    · refine hk.capitalize _ ?_
      simp only [List.mem_cons, not_or] at h
      simp only [List.mem_append, not_or]
      exact ⟨hk.lower _ (by simpa using h.1), h.2⟩
    · exact h

theorem recased_underscore {u : Ucd} (hu : u.Laws) : recased u ['_'] = ['_'] := by
  refine recased_small fun c hc => ?_
  have : c = '_' := by simpa using hc
  subst this
  rw [hu.upper_ascii _ (by decide)]
  decide

/-- A word with no angle brackets, in parts. -/
theorem wrapWord_parts {l : List Str} (hl : ∀ p ∈ l, '<' ∉ p) (hn : l ≠ []) : PartsOf (wrapWord l) [l.flatten] := by
  match l with
  | [] => exact absurd rfl hn
  | [x] => exact .inl (by simp [wrapWord])
  | [m, x] =>
    have h1 : ¬ (m = "<Cap>".toList ∨ m = "<CAPS>".toList) := by
      rintro (rfl | rfl)
      · exact hl "<Cap>".toList (List.mem_cons_self ..) (by decide)
      · exact hl "<CAPS>".toList (List.mem_cons_self ..) (by decide)
    refine .inr ⟨[m, x], ?_, rfl⟩
    exact if_neg h1
  | x :: y :: z :: r => exact .inr ⟨x :: y :: z :: r, rfl, rfl⟩

theorem flatten_single {α : Type} (s : List α) : (s.map fun c => [c]).flatten = s := by
  induction s with
  | nil => rfl
  | cons c r ih => rw [List.map_cons, List.flatten_cons, ih]; rfl

theorem markNumber_parts (sn : Bool) (s : Str) : PartsOf (markNumber sn s) [s] := by
  unfold markNumber
  split
  · refine .inr ⟨s.map fun c => [c], by simp, ?_⟩
    rw [flatten_single]
  · exact .inl rfl

/-- Words contain no angle brackets, and they are not empty. -/
def WordPiece (u : Ucd) (p : Piece) : Prop := p.form = .word → p.text ≠ [] ∧ ∀ c ∈ p.text, u.reWord c = true

theorem spelledAny_parts {u : Ucd} (hu : u.Laws) (hk : NeverMakes u '<') {sn : Bool} {p : Piece} {l : List Str} (hp : WordPiece u p)
    (hf : p.form ≠ .literal) (h : SpelledAny u (.basic sn (fun s => [s]) false) p l) :
    ∃ k, SpelledAny u .nosplit p k ∧ PartsOf l k := by
  cases h with
  | same hw h =>
    cases h with
    | space => exact ⟨_, .same hw .space, .inl rfl⟩
    | fixed => exact ⟨_, .same hw .fixed, .inl rfl⟩
    | constant => exact ⟨_, .same hw .constant, .inl rfl⟩
    | quotes => exact ⟨_, .same hw .quotes, .inl rfl⟩
    | numberBasic => exact ⟨_, .same hw .numberWhole, markNumber_parts _ _⟩
    | wordBasic h => exact absurd rfl hw
  | @wordBasic _ _ _ ty s ps h =>
    refine ⟨_, .wordWhole h, ?_⟩
    obtain ⟨h0, h1⟩ := hp rfl
    have hm : ps.flatMap (markAny u (fun s => [s]) false) = ps.map (recased u) := by
      rw [List.flatMap_def, show ps.map (markAny u (fun s => [s]) false) = ps.map fun p => [recased u p] from ?_]
      · rw [← flatten_single (ps.map (recased u)), List.map_map]
        rfl
      · refine List.map_congr_left fun p _ => ?_
        unfold markAny
        split
        · next e => rw [e, recased_underscore hu]
        · simp
    rw [hm]
    refine wrapWord_parts ?_ ?_
    · intro q hq
      obtain ⟨r, hr, rfl⟩ := List.mem_map.mp hq
      refine recased_never hk fun hc => ?_
      have := h1 _ (identSplit_sub h r hr _ hc)
      rw [hu.reWord_ascii _ (by decide)] at this
      exact absurd this (by decide)
    · intro e
      have : ps = [] := by simpa using e
      subst this
      have hs : ' ' ∉ s := word_white hu (by simp) h1
      have := identSplit_flatten h hs
      exact h0 this.symm

theorem spelledAnyAll_parts {u : Ucd} (hu : u.Laws) (hk : NeverMakes u '<') {sn ns : Bool} {ps : List Piece} {us : List FullTok}
    (hp : ∀ p ∈ ps, WordPiece u p ∧ p.form ≠ .literal) (h : SpelledAnyAll u (.basic sn (fun s => [s]) false) ns ps us) :
    ∃ vs, SpelledAnyAll u .nosplit ns ps vs ∧ vs.length = us.length ∧ vs.map (·.ty) = us.map (·.ty) ∧ vs.map (·.nonproc) = us.map (·.nonproc) ∧
      ∀ x ∈ (us.map (·.subs)).zip (vs.map (·.subs)), PartsOf x.1 x.2 := by
  induction h with
  | nil => exact ⟨[], .nil, rfl, rfl, rfl, by simp⟩
  | skip h1 h2 _ ih =>
    obtain ⟨vs, g1, g2, g3⟩ := ih fun p hq => hp p (by simp [hq])
    exact ⟨vs, .skip h1 h2 g1, g2, g3⟩
  | cons h1 h2 _ ih =>
    obtain ⟨vs, g1, g2, g3, g3', g4⟩ := ih fun p hq => hp p (by simp [hq])
    obtain ⟨k, k1, k2⟩ := spelledAny_parts hu hk (hp _ (by simp)).1 (hp _ (by simp)).2 h2
    refine ⟨_, .cons h1 k1 g1, by simp [g2], by simp [g3], by simp [g3'], ?_⟩
    intro x hx
    simp only [List.map_cons, List.zip_cons_cons, List.mem_cons] at hx
    rcases hx with rfl | hx
    · exact k2
    · exact g4 x hx

theorem codePiece_word (u : Ucd) (p : Str) : WordPiece u (codePiece u p) ∧ (codePiece u p).form ≠ .literal := by
  unfold codePiece WordPiece
  split
  · exact ⟨nofun, nofun⟩
  split
  · exact ⟨nofun, nofun⟩
  split
  · exact ⟨nofun, nofun⟩
  split
  · next h => exact ⟨fun _ => h, nofun⟩
  · exact ⟨nofun, nofun⟩

theorem anyPieces_word {u : Ucd} {nu : Bool} {o : PieceOpts} (ho : o.literals ≠ .bpe) {ps : List Str} {qs : List Piece}
    (h : AnyPieces u nu o ps qs) : ∀ q ∈ qs, WordPiece u q ∧ q.form ≠ .literal := by
  induction h with
  | nil => simp
  | cons h _ ih =>
    intro q hq
    rcases List.mem_cons.mp hq with rfl | hq
    · cases h with
      | plain _ => exact codePiece_word _ _
      | hidden => exact ⟨nofun, nofun⟩
      | replaced _ _ _ h => exact absurd h ho
    · exact ih q hq

theorem describedAny_word {u : Ucd} {nu : Bool} {o : PieceOpts} (ho : o.literals = .split) {e : TokType × Str} {ps : List Piece}
    (h : DescribedAny u nu o e ps) : ∀ p ∈ ps, WordPiece u p ∧ p.form ≠ .literal := by
  have hb : o.literals ≠ .bpe := by rw [ho]; simp
  have within : ∀ {ty : Ty} {qs : List Piece}, (∀ q ∈ qs, WordPiece u q ∧ q.form ≠ .literal) →
      ∀ q ∈ qs.map (Piece.within ty), WordPiece u q ∧ q.form ≠ .literal := by
    intro ty qs h q hq
    obtain ⟨r, hr, rfl⟩ := List.mem_map.mp hq
    exact h r hr
  have code : ∀ (qs : List Str), ∀ p ∈ qs.map (codePiece u), WordPiece u p ∧ p.form ≠ .literal := by
    intro qs p hp
    obtain ⟨r, _, rfl⟩ := List.mem_map.mp hp
    exact codePiece_word _ _
  have one : ∀ {q : Piece}, q.form ≠ .word → q.form ≠ .literal → ∀ p ∈ [q], WordPiece u p ∧ p.form ≠ .literal := by
    intro q h1 h2 p hp
    simp only [List.mem_cons, List.not_mem_nil, or_false] at hp
    subst hp
    exact ⟨fun h => absurd h h1, h2⟩
  cases h with
  | same h1 h2 =>
    cases h2 with
    | newline ty => exact one (by simp) (by simp)
    | tab ty => exact one (by simp) (by simp)
    | blank _ _ _ => exact fun p hp => one (by simp) (by simp) p (List.mem_singleton.mpr (List.eq_of_mem_replicate hp))
    | operator _ _ => exact one (by simp) (by simp)
    | number _ _ => refine one ?_ ?_ <;> (unfold numberPiece; repeat' split) <;> simp
    | keyword _ _ => exact one (by simp) (by simp)
    | words _ _ _ => exact code _
    | lineComment _ _ _ _ =>
      intro p hp
      rcases List.mem_append.mp hp with hp | hp
      · exact within (code _) p hp
      · exact one (by simp) (by simp) p hp
    | blockComment _ _ _ _ => exact within (code _)
    | hiddenLine _ _ _ => exact one (by simp) (by simp)
    | hiddenBlock _ _ _ => exact one (by simp) (by simp)
    | hiddenString _ _ _ => exact one (by simp) (by simp)
    | long _ _ _ _ => refine one ?_ ?_ <;> (simp only; split) <;> simp
    | splitLiteral _ _ _ _ _ _ => exact within (code _)
    | wholeLiteral _ _ _ _ h _ => exact absurd ho h
  | words _ _ _ h => exact anyPieces_word hb h
  | lineComment _ _ _ _ h =>
    intro p hp
    rcases List.mem_append.mp hp with hp | hp
    · exact within (anyPieces_word hb h) p hp
    · exact one (by simp) (by simp) p hp
  | blockComment _ _ _ _ h => exact within (anyPieces_word hb h)
  | splitLiteral _ _ _ _ _ _ h => exact within (anyPieces_word hb h)
  | wholeLiteral _ _ _ _ h _ _ _ _ => exact absurd ho h

theorem describedAnyAll_word {u : Ucd} {nu : Bool} {o : PieceOpts} (ho : o.literals = .split) {lexed : List (TokType × Str)}
    {ps : List Piece} (h : DescribedAnyAll u nu o lexed ps) : ∀ p ∈ ps, WordPiece u p ∧ p.form ≠ .literal := by
  induction h with
  | nil => simp
  | cons h _ ih =>
    intro p hp
    rcases List.mem_append.mp hp with hp | hp
    · exact describedAny_word ho h p hp
    · exact ih p hp

/-! ## Marks -/

theorem markEnd_flatten {l : List Str} (h : l ≠ []) : (markEnd l).flatten = l.flatten ++ "</t>".toList := by
  induction l using markEnd.induct with
  | case1 => exact absurd rfl h
  | case2 x => simp [markEnd]
  | case3 x y r ih =>
    have := ih (by simp)
    simp only [markEnd, List.flatten_cons, List.append_assoc] at this ⊢
    rw [this]

theorem markEnd_len (l : List Str) : (markEnd l).length = l.length := by
  induction l using markEnd.induct with
  | case1 => rfl
  | case2 x => rfl
  | case3 x y r ih => simp only [markEnd, List.length_cons] at ih ⊢; rw [ih]

theorem boundsFrom_len {α β : Type} {gs : List (List α)} {hs : List (List β)} (h : gs.map List.length = hs.map List.length) (n : Nat) :
    boundsFrom n gs = boundsFrom n hs := by
  induction gs generalizing n hs with
  | nil =>
    cases hs with
    | nil => rfl
    | cons _ _ => cases h
  | cons g r ih =>
    cases hs with
    | nil => cases h
    | cons k s =>
      simp only [List.map_cons, List.cons.injEq] at h
      simp only [boundsFrom, h.1, ih h.2]

end Verif.Props
