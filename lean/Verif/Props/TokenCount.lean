import Verif.Props.AnyText
/-!
# The number of full tokens (C99)
-/
namespace Verif.Spec
open Verif

/-- The number of characters of everything that the lexer delivers. -/
def textSize (lexed : List (TokType × Str)) : Nat := (lexed.map fun e => e.2.length).sum

/-- The number of line comments of a text. -/
def lineComments (lexed : List (TokType × Str)) : Nat := lexed.countP fun e => kindOf e.1 = .lineComment

end Verif.Spec

namespace Verif.Props.Count
open Verif Spec Props

theorem textSplit_count {u : Ucd} {w : Str} {ps : List Str} (h : TextSplit u w ps) : ps.length ≤ w.length := by
  induction h with
  | nil => exact Nat.le_refl _
  | @word w r ps hw _ _ _ ih =>
    have := List.length_pos_iff.mpr hw
    simp only [List.length_cons, List.length_append]
    omega
  | char _ _ _ ih => simp only [List.length_cons]; omega
  | fourSpaces _ ih => simp only [List.length_cons]; omega
  | space _ _ ih => simp only [List.length_cons]; omega

theorem literalSplit_count {u : Ucd} {w : Str} {ps : List Str} (h : LiteralSplit u w ps) : ps.length ≤ w.length := by
  induction h with
  | nil => exact Nat.le_refl _
  | @word w r ps hw _ _ _ ih =>
    have := List.length_pos_iff.mpr hw
    simp only [List.length_cons, List.length_append]
    omega
  | char _ _ _ ih => simp only [List.length_cons]; omega
  | spaces _ _ ih => simp only [List.length_cons, List.length_append, List.length_replicate]; omega

theorem anyPieces_count {u : Ucd} {nu : Bool} {o : PieceOpts} {ps : List Str} {qs : List Piece} (h : AnyPieces u nu o ps qs) :
    qs.length = ps.length := by
  induction h with
  | nil => rfl
  | cons _ _ ih => simp only [List.length_cons, ih]

theorem size_pos {u : Ucd} {v : Str} (h : ∃ c ∈ v, u.space c = false) : 1 ≤ v.length := by
  obtain ⟨c, hc, -⟩ := h
  exact List.length_pos_of_mem hc

theorem described_count {u : Ucd} {o : PieceOpts} {e : TokType × Str} {ps : List Piece} (h : Described u o e ps) :
    ps.length ≤ e.2.length + if kindOf e.1 = .lineComment then 1 else 0 := by
  have one : ∀ {ty : TokType} {v : Str} {p : Piece}, (∃ c ∈ v, u.space c = false) →
      [p].length ≤ v.length + if kindOf ty = .lineComment then 1 else 0 := by
    intro ty v p h
    have := size_pos h
    simp only [List.length_cons, List.length_nil]
    omega
  cases h with
  | newline ty => exact Nat.le_trans (show 1 ≤ 1 from Nat.le_refl 1) (Nat.le_add_right _ _)
  | tab ty => exact Nat.le_trans (show 1 ≤ 1 from Nat.le_refl 1) (Nat.le_add_right _ _)
  | blank _ _ _ => simp only [List.length_replicate]; omega
  | operator h _ => exact one h
  | number h _ => exact one h
  | keyword h _ => exact one h
  | words _ _ hs =>
    have := textSplit_count hs
    simp only [List.length_map]
    omega
  | lineComment _ hk _ hs =>
    have := textSplit_count hs
    simp only [List.length_map, List.length_append, List.length_cons, List.length_nil, hk, if_true]
    omega
  | blockComment _ _ _ hs =>
    have := textSplit_count hs
    simp only [List.length_map]
    omega
  | hiddenLine h _ _ => exact one h
  | hiddenBlock h _ _ => exact one h
  | hiddenString h _ _ => exact one h
  | long h _ _ _ => exact one h
  | splitLiteral _ _ _ _ _ hs =>
    have := literalSplit_count hs
    have h2 := List.length_filter_le (fun p : Str => !p.contains ' ') ‹List Str›
    simp only [List.length_map]
    omega
  | wholeLiteral h _ _ _ _ _ => exact one h

theorem describedAny_count {u : Ucd} {nu : Bool} {o : PieceOpts} {e : TokType × Str} {ps : List Piece} (h : DescribedAny u nu o e ps) :
    ps.length ≤ e.2.length + if kindOf e.1 = .lineComment then 1 else 0 := by
  cases h with
  | same _ h => exact described_count h
  | words _ _ hs hp =>
    have := textSplit_count hs
    simp only [anyPieces_count hp]
    omega
  | lineComment _ hk _ hs hp =>
    have := textSplit_count hs
    simp only [List.length_map, List.length_append, List.length_cons, List.length_nil, hk, if_true, anyPieces_count hp]
    omega
  | blockComment _ _ _ hs hp =>
    have := textSplit_count hs
    simp only [List.length_map, anyPieces_count hp]
    omega
  | @splitLiteral ty v ps qs _ _ _ _ _ hs hp =>
    have := literalSplit_count hs
    have h2 := List.length_filter_le (fun p : Str => !p.contains ' ') ps
    simp only [List.length_map, anyPieces_count hp]
    omega
  | wholeLiteral h _ _ _ _ _ _ _ _ =>
    have := size_pos h
    simp only [List.length_cons, List.length_nil]
    omega

theorem describedAnyAll_count {u : Ucd} {nu : Bool} {o : PieceOpts} {lexed : List (TokType × Str)} {ps : List Piece}
    (h : DescribedAnyAll u nu o lexed ps) : ps.length ≤ textSize lexed + lineComments lexed := by
  induction h with
  | nil => exact Nat.le_refl _
  | @cons e r ps qs h _ ih =>
    have := describedAny_count h
    simp only [textSize, lineComments, List.map_cons, List.sum_cons, List.length_append, List.countP_cons, decide_eq_true_eq] at ih ⊢
    omega

theorem finish_count (eof : Bool) (ps : List Piece) : (finishPieces eof ps).length ≤ ps.length + if eof then 1 else 0 := by
  unfold finishPieces
  rw [List.length_append]
  split <;> cases eof <;> simp

theorem spelledAll_count {u : Ucd} {m : Mode} {ns : Bool} {ps : List Piece} {us : List FullTok} (h : SpelledAnyAll u m ns ps us) :
    us.length ≤ ps.length := by
  induction h with
  | nil => exact Nat.le_refl _
  | skip _ _ _ ih => simp only [List.length_cons]; omega
  | cons _ _ _ ih => simp only [List.length_cons]; omega

theorem textApi_count (env : Env) (hu : env.ucd.Laws) (load : Str → Except PyErr BpeData) (call : ApiCall)
    (hl : ∀ i, apiBpeCodesId call = some i → i ≠ [] ∧ ∃ d, load i = .ok d ∧ CacheOk d)
    (lexed : List (TokType × Str)) (eof : Bool) :
    ∃ m ps us, ModeOf env load call m ∧ DescribedAnyAll env.ucd (optsOf call).noUnicode (pieceOpts call) lexed ps ∧
      SpelledAnyAll env.ucd m (optsOf call).noSpaces (finishPieces eof ps) us ∧
      textApi env load call lexed eof = .ok (outputOf call us) ∧
      us.length ≤ textSize lexed + lineComments lexed + if eof then 1 else 0 := by
  obtain ⟨m, ps, us, h1, h2, h3, h4⟩ := C56_any env hu load call hl lexed eof
  refine ⟨m, ps, us, h1, h2, h3, h4, ?_⟩
  have g1 := describedAnyAll_count h2
  have g2 := finish_count eof ps
  have g3 := spelledAll_count h3
  omega

/-- **C99** Whatever function is called: there are at most as many full tokens as the text has characters, one more for every line comment (its
end) and one more for the end of the text if that is asked for. -/
theorem C99_full_tokens (env : Env) (hu : env.ucd.Laws) (load : Str → Except PyErr BpeData) (call : ApiCall)
    (hl : ∀ i, apiBpeCodesId call = some i → i ≠ [] ∧ ∃ d, load i = .ok d ∧ CacheOk d)
    (lexed : List (TokType × Str)) (eof : Bool) :
    ∃ out md, textApi env load call lexed eof = .ok (out, md) ∧
      md.types.length ≤ textSize lexed + lineComments lexed + (if eof then 1 else 0) ∧ md.bounds.length = md.types.length + 1 := by
  obtain ⟨m, ps, us, -, -, -, h4, h5⟩ := textApi_count env hu load call hl lexed eof
  refine ⟨_, _, h4, ?_, ?_⟩
  · simpa [flatForm] using h5
  · have : ∀ (l : List (List Str)) (n : Nat), (boundsFrom n l).length = l.length + 1 := by
      intro l
      induction l with
      | nil => intro n; rfl
      | cons a l ih => intro n; simp [boundsFrom, ih]
    simp [flatForm, this]

/-- How many strings a piece is without splitting. -/
def cost (p : Piece) : Nat := if p.form = .quotes then 2 else 1

/-- How many strings pieces are without splitting. -/
def costs (ps : List Piece) : Nat := (ps.map cost).sum

theorem costs_plain {ps : List Piece} (h : ∀ p ∈ ps, p.form ≠ .quotes) : costs ps = ps.length := by
  induction ps with
  | nil => rfl
  | cons p ps ih =>
    have h1 : cost p = 1 := if_neg (h p List.mem_cons_self)
    have h2 := ih fun q hq => h q (List.mem_cons_of_mem _ hq)
    simp only [costs, List.map_cons, List.sum_cons, List.length_cons] at h2 ⊢
    omega

theorem codePiece_quotes (u : Ucd) (p : Str) : (codePiece u p).form ≠ .quotes := by
  unfold codePiece
  repeat' split
  all_goals exact fun h => nomatch h

theorem anyPieces_quotes {u : Ucd} {nu : Bool} {o : PieceOpts} {ps : List Str} {qs : List Piece} (h : AnyPieces u nu o ps qs) :
    ∀ q ∈ qs, q.form ≠ .quotes := by
  induction h with
  | nil => exact fun _ h => nomatch h
  | cons h _ ih =>
    intro q hq
    rcases List.mem_cons.mp hq with rfl | hq
    · cases h with
      | plain _ => exact codePiece_quotes _ _
      | hidden _ _ _ _ => exact fun h => nomatch h
      | replaced _ _ _ _ _ _ => exact fun h => nomatch h
    · exact ih q hq

theorem within_quotes {ty : Ty} {qs : List Piece} (h : ∀ q ∈ qs, q.form ≠ .quotes) : ∀ q ∈ qs.map (Piece.within ty), q.form ≠ .quotes := by
  intro q hq
  obtain ⟨x, hx, rfl⟩ := List.mem_map.mp hq
  exact h x hx

theorem code_quotes {u : Ucd} {ps : List Str} : ∀ q ∈ ps.map (codePiece u), q.form ≠ .quotes := by
  intro q hq
  obtain ⟨x, -, rfl⟩ := List.mem_map.mp hq
  exact codePiece_quotes _ _

theorem numberPiece_quotes (u : Ucd) (v : Str) : (numberPiece u v).form ≠ .quotes := by
  unfold numberPiece
  repeat' split
  all_goals exact fun h => nomatch h

theorem described_quotes {u : Ucd} {o : PieceOpts} {e : TokType × Str} {ps : List Piece} (h : Described u o e ps) :
    (∀ p ∈ ps, p.form ≠ .quotes) ∨ (o.limit < e.2.length ∧ ps.length = 1) := by
  have one : ∀ {p : Piece}, p.form ≠ .quotes → ∀ q ∈ [p], q.form ≠ .quotes := by
    intro p h q hq
    rw [List.mem_singleton.mp hq]
    exact h
  cases h with
  | newline ty => exact .inl (one fun h => nomatch h)
  | tab ty => exact .inl (one fun h => nomatch h)
  | blank _ _ _ =>
    refine .inl fun p hp => ?_
    rw [List.eq_of_mem_replicate hp]
    decide
  | operator _ _ => exact .inl (one fun h => nomatch h)
  | number _ _ => exact .inl (one (numberPiece_quotes _ _))
  | keyword _ _ => exact .inl (one fun h => nomatch h)
  | words _ _ _ => exact .inl code_quotes
  | lineComment _ _ _ _ =>
    refine .inl fun p hp => ?_
    rcases List.mem_append.mp hp with hp | hp
    · exact within_quotes code_quotes p hp
    · rw [List.mem_singleton.mp hp]
      exact fun h => nomatch h
  | blockComment _ _ _ _ => exact .inl (within_quotes code_quotes)
  | hiddenLine _ _ _ => exact .inl (one fun h => nomatch h)
  | hiddenBlock _ _ _ => exact .inl (one fun h => nomatch h)
  | hiddenString _ _ _ => exact .inl (one fun h => nomatch h)
  | long _ _ _ h => exact .inr ⟨h, rfl⟩
  | splitLiteral _ _ _ _ _ _ => exact .inl (within_quotes code_quotes)
  | wholeLiteral _ _ _ _ _ _ => exact .inl (one fun h => nomatch h)

theorem describedAny_quotes {u : Ucd} {nu : Bool} {o : PieceOpts} {e : TokType × Str} {ps : List Piece} (h : DescribedAny u nu o e ps) :
    (∀ p ∈ ps, p.form ≠ .quotes) ∨ (o.limit < e.2.length ∧ ps.length = 1) := by
  cases h with
  | same _ h => exact described_quotes h
  | words _ _ _ hp => exact .inl (anyPieces_quotes hp)
  | lineComment _ _ _ _ hp =>
    refine .inl fun p hp' => ?_
    rcases List.mem_append.mp hp' with hp' | hp'
    · exact within_quotes (anyPieces_quotes hp) p hp'
    · rw [List.mem_singleton.mp hp']
      exact fun h => nomatch h
  | blockComment _ _ _ _ hp => exact .inl (within_quotes (anyPieces_quotes hp))
  | splitLiteral _ _ _ _ _ _ hp => exact .inl (within_quotes (anyPieces_quotes hp))
  | wholeLiteral _ _ _ _ _ _ _ _ _ =>
    refine .inl fun p hp => ?_
    rw [List.mem_singleton.mp hp]
    exact fun h => nomatch h

theorem costs_append (ps qs : List Piece) : costs (ps ++ qs) = costs ps + costs qs := by
  simp only [costs, List.map_append, List.sum_append]

theorem describedAnyAll_costs {u : Ucd} {nu : Bool} {o : PieceOpts} (ho : 1 ≤ o.limit) {lexed : List (TokType × Str)} {ps : List Piece}
    (h : DescribedAnyAll u nu o lexed ps) : costs ps ≤ textSize lexed + lineComments lexed := by
  induction h with
  | nil => exact Nat.le_refl _
  | @cons e r ps qs h _ ih =>
    have h1 : costs ps ≤ e.2.length + if kindOf e.1 = .lineComment then 1 else 0 := by
      rcases describedAny_quotes h with hq | ⟨hl, hp⟩
      · rw [costs_plain hq]
        exact describedAny_count h
      · match ps, hp with
        | [p], _ =>
          have : cost p ≤ 2 := by unfold cost; split <;> omega
          simp only [costs, List.map_cons, List.map_nil, List.sum_cons, List.sum_nil]
          omega
    rw [costs_append]
    simp only [textSize, lineComments, List.map_cons, List.sum_cons, List.countP_cons, decide_eq_true_eq] at ih ⊢
    omega

theorem costs_dropLast (ps : List Piece) : costs ps.dropLast ≤ costs ps := by
  have h : ∀ l : List Piece, ∀ a, costs l ≤ costs (l ++ [a]) := fun l a => by rw [costs_append]; omega
  rcases List.eq_nil_or_concat ps with rfl | ⟨l, a, rfl⟩
  · exact Nat.le_refl _
  · simpa using h l a

theorem finish_costs (eof : Bool) (ps : List Piece) : costs (finishPieces eof ps) ≤ costs ps + if eof then 1 else 0 := by
  have := costs_dropLast ps
  unfold finishPieces
  rw [costs_append]
  have h2 : costs (if eof then [⟨.specialToken, "<EOF>".toList, .fixed⟩] else []) = if eof then 1 else 0 := by cases eof <;> rfl
  rw [h2]
  split <;> omega

theorem spelled_cost {u : Ucd} {p : Piece} {l : List Str} (h : SpelledAny u .nosplit p l) : l.length = cost p := by
  cases h with
  | same _ h => cases h <;> rfl
  | wordWhole _ => rfl

theorem spelledAll_costs {u : Ucd} {ns : Bool} {ps : List Piece} {us : List FullTok} (h : SpelledAnyAll u .nosplit ns ps us) :
    (us.flatMap (·.subs)).length ≤ costs ps := by
  induction h with
  | nil => exact Nat.le_refl _
  | skip _ _ _ ih =>
    have := ih
    simp only [costs, List.map_cons, List.sum_cons] at this ⊢
    omega
  | cons _ hs _ ih =>
    have := ih
    have h1 := spelled_cost hs
    simp only [costs, List.map_cons, List.sum_cons, List.flatMap_cons, List.length_append] at this ⊢
    omega

/-- **C99** `nosplit` never delivers more tokens than the text has characters, line comments and, if asked for, ends. -/
theorem C99_nosplit (env : Env) (hu : env.ucd.Laws) (load : Str → Except PyErr BpeData) (o : CommonOpts) (fs : Bool)
    (lexed : List (TokType × Str)) (eof : Bool) :
    ∃ out md, textApi env load (.nosplit o fs) lexed eof = .ok (out, md) ∧
      out.length ≤ textSize lexed + lineComments lexed + if eof then 1 else 0 := by
  obtain ⟨m, ps, us, h1, h2, h3, h4⟩ := C56_any env hu load (.nosplit o fs) (fun i hi => nomatch hi) lexed eof
  cases h1
  refine ⟨_, _, h4, ?_⟩
  have ho : 1 ≤ (pieceOpts (.nosplit o fs)).limit := by
    show 1 ≤ limitOf _
    unfold limitOf
    split
    · omega
    · split
      · omega
      · decide
  have g1 := describedAnyAll_costs ho h2
  have g2 := finish_costs eof ps
  have g3 := spelledAll_costs h3
  show (us.flatMap fun x => x.subs).length ≤ _
  omega

/-! ## At least -/

/-- How many pieces are no white space. -/
def solid (ps : List Piece) : Nat := ps.countP fun p => p.form ≠ .space

/-- A line break of the code is white space. -/
def BreaksAreSpace (ps : List Piece) : Prop := ∀ p ∈ ps, p.ty = .newLine → p.form = .space

theorem codePiece_solid {u : Ucd} (hu : u.Laws) {p : Str} {c : Char} (hc : c ∈ p) (hs : u.space c = false) : (codePiece u p).form ≠ .space := by
  have no : ∀ d : Char, d = '\n' ∨ d = '\t' ∨ d = ' ' → u.space d = true := by
    intro d hd
    rcases hd with rfl | rfl | rfl <;> rw [hu.space_ascii _ (by decide)] <;> decide
  have ne : ∀ d : Char, d = '\n' ∨ d = '\t' ∨ d = ' ' → c ≠ d := by
    intro d hd h
    rw [h, no d hd] at hs
    cases hs
  unfold codePiece
  split
  · rename_i h
    rw [h] at hc
    exact absurd (List.mem_singleton.mp hc) (ne _ (.inl rfl))
  · split
    · rename_i h
      rcases h with h | h <;> rw [h] at hc
      · exact absurd (List.mem_singleton.mp hc) (ne _ (.inr (.inl rfl)))
      · exact absurd (List.eq_of_mem_replicate (n := 4) hc) (ne _ (.inr (.inr rfl)))
    · split
      · exact fun h => nomatch h
      · split <;> exact fun h => nomatch h

theorem codePiece_break (u : Ucd) (p : Str) (h : (codePiece u p).ty = .newLine) : (codePiece u p).form = .space := by
  unfold codePiece at h ⊢
  split
  · rfl
  · rename_i h1
    rw [if_neg h1] at h
    split
    · rfl
    · rename_i h2
      rw [if_neg h2] at h
      split at h
      · cases h
      · split at h <;> cases h

theorem textSplit_mem {u : Ucd} {w : Str} {ps : List Str} (h : TextSplit u w ps) {c : Char} (hc : c ∈ w) (hs : c ≠ ' ') : ∃ p ∈ ps, c ∈ p := by
  induction h with
  | nil => cases hc
  | word _ _ _ _ ih =>
    rcases List.mem_append.mp hc with hc | hc
    · exact ⟨_, List.mem_cons_self, hc⟩
    · obtain ⟨p, hp, h⟩ := ih hc
      exact ⟨p, List.mem_cons_of_mem _ hp, h⟩
  | char _ _ _ ih =>
    rcases List.mem_cons.mp hc with rfl | hc
    · exact ⟨_, List.mem_cons_self, List.mem_singleton.mpr rfl⟩
    · obtain ⟨p, hp, h⟩ := ih hc
      exact ⟨p, List.mem_cons_of_mem _ hp, h⟩
  | fourSpaces _ ih =>
    simp only [List.mem_cons, hs, false_or] at hc
    obtain ⟨p, hp, h⟩ := ih hc
    exact ⟨p, List.mem_cons_of_mem _ hp, h⟩
  | space _ _ ih =>
    simp only [List.mem_cons, hs, false_or] at hc
    exact ih hc

theorem literalSplit_mem {u : Ucd} {w : Str} {ps : List Str} (hw : u.reWord ' ' = false) (h : LiteralSplit u w ps) {c : Char} (hc : c ∈ w)
    (hs : c ≠ ' ') : ∃ p ∈ ps, c ∈ p ∧ p.contains ' ' = false := by
  induction h with
  | nil => cases hc
  | @word w r ps _ hall _ _ ih =>
    rcases List.mem_append.mp hc with hc | hc
    · refine ⟨_, List.mem_cons_self, hc, ?_⟩
      rw [← Bool.not_eq_true, List.contains_iff_mem]
      intro h
      rw [hall _ h] at hw
      cases hw
    · obtain ⟨p, hp, h⟩ := ih hc
      exact ⟨p, List.mem_cons_of_mem _ hp, h⟩
  | char hne _ _ ih =>
    rcases List.mem_cons.mp hc with rfl | hc
    · refine ⟨_, List.mem_cons_self, List.mem_singleton.mpr rfl, ?_⟩
      rw [← Bool.not_eq_true, List.contains_iff_mem, List.mem_singleton]
      exact fun h => hne h.symm
    · obtain ⟨p, hp, h⟩ := ih hc
      exact ⟨p, List.mem_cons_of_mem _ hp, h⟩
  | spaces _ _ ih =>
    rcases List.mem_append.mp hc with hc | hc
    · exact absurd (List.eq_of_mem_replicate hc) hs
    · obtain ⟨p, hp, h⟩ := ih hc
      exact ⟨p, List.mem_cons_of_mem _ hp, h⟩

theorem anyPieces_solid {u : Ucd} (hu : u.Laws) {nu : Bool} {o : PieceOpts} {ps : List Str} {qs : List Piece} (h : AnyPieces u nu o ps qs)
    {c : Char} (hs : u.space c = false) (hp : ∃ p ∈ ps, c ∈ p) : 1 ≤ solid qs := by
  induction h with
  | nil => obtain ⟨p, hp, -⟩ := hp; cases hp
  | @cons p q ps qs h _ ih =>
    obtain ⟨x, hx, hc⟩ := hp
    rcases List.mem_cons.mp hx with rfl | hx
    · have : q.form ≠ .space := by
        cases h with
        | plain _ => exact codePiece_solid hu hc hs
        | hidden _ _ _ _ => exact fun h => nomatch h
        | replaced _ _ _ _ _ _ => exact fun h => nomatch h
      simp [solid, this]
    · have := ih ⟨x, hx, hc⟩
      simp only [solid, List.countP_cons] at this ⊢
      omega

theorem anyPieces_breaks {u : Ucd} {nu : Bool} {o : PieceOpts} {ps : List Str} {qs : List Piece} (h : AnyPieces u nu o ps qs) :
    BreaksAreSpace qs := by
  induction h with
  | nil => exact fun _ h => nomatch h
  | cons h _ ih =>
    intro q hq
    rcases List.mem_cons.mp hq with rfl | hq
    · cases h with
      | plain _ => exact codePiece_break _ _
      | hidden _ _ _ _ => exact fun h => nomatch h
      | replaced _ _ _ _ _ _ => exact fun h => nomatch h
    · exact ih q hq

theorem within_solid (ty : Ty) (qs : List Piece) : solid (qs.map (Piece.within ty)) = solid qs := by
  simp only [solid, List.countP_map]
  rfl

theorem within_breaks {ty : Ty} (ht : ty ≠ .newLine) (qs : List Piece) : BreaksAreSpace (qs.map (Piece.within ty)) := by
  intro q hq h
  obtain ⟨x, -, rfl⟩ := List.mem_map.mp hq
  exact absurd h ht

theorem solid_append (ps qs : List Piece) : solid (ps ++ qs) = solid ps + solid qs := List.countP_append

theorem noWords_no {u : Ucd} {o : PieceOpts} {ty : TokType} {v : Str} (h : NoWords u o (ty, v)) (hv : ∃ c ∈ v, u.space c = false)
    (hk : kindOf ty = .words ∨ ((kindOf ty = .lineComment ∨ kindOf ty = .blockComment) ∧ o.noCom = false) ∨
      (kindOf ty = .string ∧ o.noStr = false ∧ v.length ≤ o.limit)) : False := by
  obtain ⟨c, hc, hc'⟩ := hv
  rcases h with h | h
  · rw [h c hc] at hc'
    cases hc'
  · rcases h with h | h | h | ⟨h | h, h'⟩ | ⟨h, h' | h'⟩ <;> rcases hk with k | ⟨k | k, k'⟩ | ⟨k, k', k''⟩ <;>
      first
      | exact absurd (h.symm.trans k) (by decide)
      | exact absurd (h'.symm.trans k') (by decide)
      | exact absurd h' (Nat.not_lt.mpr k'')

theorem described_solid {u : Ucd} {nu : Bool} (hu : u.Laws) {o : PieceOpts} {e : TokType × Str} {ps : List Piece} (h : DescribedAny u nu o e ps) :
    BreaksAreSpace ps ∧ ((∃ c ∈ e.2, u.space c = false) → 1 ≤ solid ps) := by
  have hsp : u.space ' ' = true := by rw [hu.space_ascii _ (by decide)]; decide
  have hw : u.reWord ' ' = false := by rw [hu.reWord_ascii _ (by decide)]; decide
  have vis : ∀ {c : Char}, u.space c = false → c ≠ ' ' := by
    intro c h hc
    rw [hc, hsp] at h
    cases h
  have one : ∀ {p : Piece} {v : Str}, p.ty ≠ .newLine → p.form ≠ .space →
      BreaksAreSpace [p] ∧ ((∃ c ∈ v, u.space c = false) → 1 ≤ solid [p]) := by
    intro p v h1 h2
    refine ⟨fun q hq h => ?_, fun _ => by simp [solid, h2]⟩
    rw [List.mem_singleton.mp hq] at h
    exact absurd h h1
  have blank : ∀ {v : Str} {n : Nat}, (∀ c ∈ v, u.space c = true) → (∃ c ∈ v, u.space c = false) → 1 ≤ n := by
    rintro v n h ⟨c, hc, hc'⟩
    rw [h c hc] at hc'
    cases hc'
  cases h with
  | words _ _ hs hp =>
    refine ⟨anyPieces_breaks hp, ?_⟩
    rintro ⟨c, hc, hc'⟩
    exact anyPieces_solid hu hp hc' (textSplit_mem hs hc (vis hc'))
  | lineComment _ _ _ hs hp =>
    constructor
    · intro q hq h
      rcases List.mem_append.mp hq with hq | hq
      · exact within_breaks (by decide) _ q hq h
      · rw [List.mem_singleton.mp hq] at h
        cases h
    · rintro ⟨c, hc, hc'⟩
      have := anyPieces_solid hu hp hc' (textSplit_mem hs hc (vis hc'))
      rw [solid_append, within_solid]
      omega
  | blockComment _ _ _ hs hp =>
    refine ⟨within_breaks (by decide) _, ?_⟩
    rintro ⟨c, hc, hc'⟩
    rw [within_solid]
    exact anyPieces_solid hu hp hc' (textSplit_mem hs hc (vis hc'))
  | splitLiteral _ _ _ _ _ hs hp =>
    refine ⟨within_breaks (by decide) _, ?_⟩
    rintro ⟨c, hc, hc'⟩
    rw [within_solid]
    obtain ⟨p, hp', hcp, hn⟩ := literalSplit_mem hw hs hc (vis hc')
    exact anyPieces_solid hu hp hc' ⟨p, List.mem_filter.mpr ⟨hp', by simp only [hn, Bool.not_false]⟩, hcp⟩
  | wholeLiteral _ _ _ _ _ _ _ _ _ => exact one (fun h => nomatch h) (fun h => nomatch h)
  | same hn h =>
    cases h with
    | newline ty =>
      refine ⟨fun q hq _ => by rw [List.mem_singleton.mp hq], blank fun c hc => ?_⟩
      rw [List.mem_singleton.mp hc, hu.space_ascii _ (by decide)]
      decide
    | tab ty =>
      refine ⟨fun q hq _ => by rw [List.mem_singleton.mp hq], blank fun c hc => ?_⟩
      rw [List.mem_singleton.mp hc, hu.space_ascii _ (by decide)]
      decide
    | blank h _ _ => exact ⟨fun q hq _ => by rw [List.eq_of_mem_replicate hq], blank h⟩
    | operator _ _ =>
      refine one ?_ (fun h => nomatch h)
      show operatorType _ ≠ .newLine
      unfold operatorType
      repeat' split
      all_goals exact fun h => nomatch h
    | number _ _ =>
      refine one ?_ ?_
      all_goals
        unfold numberPiece
        repeat' split
        all_goals exact fun h => nomatch h
    | keyword _ _ => exact one (fun h => nomatch h) (fun h => nomatch h)
    | hiddenLine _ _ _ => exact one (fun h => nomatch h) (fun h => nomatch h)
    | hiddenBlock _ _ _ => exact one (fun h => nomatch h) (fun h => nomatch h)
    | hiddenString _ _ _ => exact one (fun h => nomatch h) (fun h => nomatch h)
    | long _ _ _ _ =>
      refine one (fun h => nomatch h) ?_
      show (if _ then Form.constant else Form.quotes) ≠ .space
      split <;> exact fun h => nomatch h
    | wholeLiteral _ _ _ _ _ _ => exact one (fun h => nomatch h) (fun h => nomatch h)
    | words hv hk _ => exact (noWords_no hn hv (.inl hk)).elim
    | lineComment hv hk hc _ => exact (noWords_no hn hv (.inr (.inl ⟨.inl hk, hc⟩))).elim
    | blockComment hv hk hc _ => exact (noWords_no hn hv (.inr (.inl ⟨.inr hk, hc⟩))).elim
    | splitLiteral hv hk h1 h2 _ _ => exact (noWords_no hn hv (.inr (.inr ⟨hk, h1, h2⟩))).elim

/-- The number of visible texts that the lexer delivers. -/
def visibleTexts (u : Ucd) (lexed : List (TokType × Str)) : Nat := lexed.countP fun e => e.2.any fun c => !u.space c

theorem describedAll_solid {u : Ucd} {nu : Bool} (hu : u.Laws) {o : PieceOpts} {lexed : List (TokType × Str)} {ps : List Piece}
    (h : DescribedAnyAll u nu o lexed ps) : BreaksAreSpace ps ∧ visibleTexts u lexed ≤ solid ps := by
  induction h with
  | nil => exact ⟨fun _ h => (nomatch h), Nat.le_refl _⟩
  | @cons e r ps qs h _ ih =>
    obtain ⟨h1, h2⟩ := described_solid hu h
    refine ⟨fun q hq => ?_, ?_⟩
    · rcases List.mem_append.mp hq with hq | hq
      · exact h1 q hq
      · exact ih.1 q hq
    · rw [solid_append]
      simp only [visibleTexts, List.countP_cons] at ih ⊢
      split
      · rename_i hv
        have := h2 (by
          obtain ⟨c, hc, hc'⟩ := List.any_eq_true.mp hv
          exact ⟨c, hc, by simpa using hc'⟩)
        omega
      · omega

theorem finish_solid (eof : Bool) {ps : List Piece} (h : BreaksAreSpace ps) :
    solid ps + (if eof then 1 else 0) ≤ solid (finishPieces eof ps) := by
  have h2 : solid (if eof then [⟨.specialToken, "<EOF>".toList, .fixed⟩] else []) = if eof then 1 else 0 := by cases eof <;> rfl
  unfold finishPieces
  rw [solid_append, h2]
  by_cases hl : ps.getLast?.map (·.ty) = some .newLine
  · rw [if_pos hl]
    rcases List.eq_nil_or_concat ps with rfl | ⟨l, a, rfl⟩
    · simp
    · simp only [List.concat_eq_append, List.getLast?_append, List.getLast?_singleton, Option.some_or, Option.map_some,
        Option.some.injEq] at hl
      have ha := h a (by simp) hl
      have : solid (l ++ [a]) = solid l := by simp [solid, ha]
      simp only [List.concat_eq_append, List.dropLast_concat, this]
      omega
  · rw [if_neg hl]
    omega

theorem spelledAll_solid {u : Ucd} {m : Mode} {ns : Bool} {ps : List Piece} {us : List FullTok} (h : SpelledAnyAll u m ns ps us) :
    solid ps ≤ us.length := by
  induction h with
  | nil => exact Nat.le_refl _
  | skip _ hf _ ih =>
    simp only [solid, List.countP_cons, hf, ne_eq, not_true_eq_false, decide_false, Bool.false_eq_true, if_false] at ih ⊢
    exact ih
  | cons _ _ _ ih =>
    simp only [solid, List.countP_cons, List.length_cons] at ih ⊢
    split <;> omega

/-- **C99** Nothing that can be seen is left out altogether: with any function and any options there is at least one full token for every
text of the lexer that is not white space, and one for the end of the text if it is marked. -/
theorem C99_at_least (env : Env) (hu : env.ucd.Laws) (load : Str → Except PyErr BpeData) (call : ApiCall)
    (hl : ∀ i, apiBpeCodesId call = some i → i ≠ [] ∧ ∃ d, load i = .ok d ∧ CacheOk d)
    (lexed : List (TokType × Str)) (eof : Bool) :
    ∃ out md, textApi env load call lexed eof = .ok (out, md) ∧
      visibleTexts env.ucd lexed + (if eof then 1 else 0) ≤ md.types.length := by
  obtain ⟨m, ps, us, -, h2, h3, h4, -⟩ := textApi_count env hu load call hl lexed eof
  refine ⟨_, _, h4, ?_⟩
  obtain ⟨g1, g2⟩ := describedAll_solid hu h2
  have g3 := finish_solid eof g1
  have g4 := spelledAll_solid h3
  simp only [flatForm, List.length_map]
  omega

/-- **C99** Such bounds do not hold for the number of strings that the other functions deliver: a word of two letters may become four strings. -/
theorem C99_split_violated : ∃ out md, textApi demoEnv (fun _ => .error .keyError) (.basic {} false false false false)
    [(["Name"], "aB".toList)] false = .ok (out, md) ∧ out.length = 4 ∧ md.types.length = 1 := ⟨_, _, rfl, rfl, rfl⟩

/-- Non-vacuity of C99: both bounds are reached by `x+y//`, which has five characters and is a line with a comment. -/
example : ∃ md, textApi demoEnv (fun _ => .error .keyError) (.nosplit {} false)
    [(["Name"], "x".toList), (["Operator"], "+".toList), (["Name"], "y".toList), (["Comment", "Single"], "//".toList)] true =
      .ok (["x".toList, "+".toList, "y".toList, "/".toList, "/".toList, "<EOL>".toList, "<EOF>".toList], md) ∧
    textSize [(["Name"], "x".toList), (["Operator"], "+".toList), (["Name"], "y".toList), (["Comment", "Single"], "//".toList)] = 5 ∧
    lineComments [(["Name"], "x".toList), (["Operator"], "+".toList), (["Name"], "y".toList), (["Comment", "Single"], "//".toList)] = 1 :=
  ⟨_, rfl, rfl, rfl⟩

/-- Non-vacuity of `C99_at_least`: a comment and a literal that are left out, and an indentation, with `no_spaces`: two visible texts, and two
full tokens. -/
example : ∃ out md, textApi demoEnv (fun _ => .error .keyError) (.nosplit { noCom := true, noStr := true, noSpaces := true } false)
    [(["Text"], "        ".toList), (["Literal", "String"], "\"a\"".toList), (["Comment", "Single"], "// b".toList)] false = .ok (out, md) ∧
    md.types.length = 2 ∧ visibleTexts demoEnv.ucd
      [(["Text"], "        ".toList), (["Literal", "String"], "\"a\"".toList), (["Comment", "Single"], "// b".toList)] = 2 :=
  ⟨_, _, rfl, rfl, rfl⟩

end Verif.Props.Count
