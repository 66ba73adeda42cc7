import Verif.Spec.Meta
import Verif.Proofs.Str
/-!
# The representation of a token sequence as a list of full tokens
-/
namespace Verif
open Spec

/-! ## The full tokens of a parsed token -/

def splitUnits (u : Ucd) (rc : ReprConfig) (subs : List Subtok) : Except PyErr (List FullTok) :=
  if Ty.splitContainer ∈ rc.types then
    if rc.bpe then do
      let ws ← rc.splitWord (splitStr u subs)
      .ok [⟨.splitContainer, ws, []⟩]
    else do
      let res ← subtoksRepr u rc [] subs
      .ok [⟨.splitContainer, wrapInWordBoundaries res, []⟩]
  else do
    let s ← subtoksJoin u rc subs
    .ok [⟨.splitContainer, [s], []⟩]

def nonEngUnits (u : Ucd) (rc : ReprConfig) (subs : List Subtok) : Except PyErr (List FullTok) :=
  if Ty.nonEng ∈ rc.types then
    if rc.bpe then do
      let token ← replaceNonAsciiSeqs (splitStr u subs) Ph.nonAsciiSeq
      let w ← wordFrom u token
      splitUnits u rc [w]
    else .ok [⟨.nonEng, [Ph.nonEng], []⟩]
  else splitUnits u rc subs

def numberUnits (rc : ReprConfig) (ty : Ty) (val : Str) : Except PyErr (List FullTok) :=
  if ty ∈ rc.types then do
    let subwords ← rc.numberSplitter val
    .ok [⟨ty, if subwords.length > 1 && !rc.bpe then [Ph.wordStart] ++ subwords ++ [Ph.wordEnd] else subwords, []⟩]
  else .ok [⟨ty, [val], []⟩]

def whitespaceUnits (rc : ReprConfig) (ty : Ty) (s : Str) : List FullTok :=
  if ty ∈ rc.types then [] else [⟨ty, [s], [s]⟩]

def nonProcUnits (rc : ReprConfig) (ty : Ty) (s : Str) : Except PyErr (List FullTok) :=
  if ty ∈ rc.types then .error .attributeError else .ok [⟨ty, [s], [s]⟩]

/-- Overwrite the types (comments and split string literals). -/
def retype (ty : Ty) (us : List FullTok) : List FullTok := us.map fun x => { x with ty := ty }

mutual
def Tok.units (u : Ucd) (rc : ReprConfig) : Tok → Except PyErr (List FullTok)
  | .number v => numberUnits rc .number v
  | .one => numberUnits rc .one ['1']
  | .zero => numberUnits rc .zero ['0']
  | .newLine => .ok (whitespaceUnits rc .newLine ['\n'])
  | .tab => .ok (whitespaceUnits rc .tab ['\t'])
  | .spaceInString n =>
    if Ty.spaceInString ∈ rc.types then .error .attributeError
    else .ok [⟨.spaceInString, [(List.replicate n Ph.spaceInStr).flatten], []⟩]
  | .keyWord s => nonProcUnits rc .keyWord s
  | .operator s => nonProcUnits rc .operator s
  | .semicolon => nonProcUnits rc .semicolon [';']
  | .openingCurly => nonProcUnits rc .openingCurly ['{']
  | .closingCurly => nonProcUnits rc .closingCurly ['}']
  | .openingBracket => nonProcUnits rc .openingBracket ['(']
  | .closingBracket => nonProcUnits rc .closingBracket [')']
  | .nonCodeChar s => nonProcUnits rc .nonCodeChar s
  | .specialToken s => nonProcUnits rc .specialToken s
  | .split subs => splitUnits u rc subs
  | .nonEng subs => nonEngUnits u rc subs
  | .oneLineComment ts =>
    if Ty.oneLineComment ∈ rc.types then .ok [⟨.oneLineComment, [Ph.comment], []⟩]
    else do
      let us ← unitsList u rc false ts
      .ok (retype .oneLineComment us ++ [⟨.oneLineComment, [Ph.olcEnd], []⟩])
  | .multilineComment ts =>
    if Ty.multilineComment ∈ rc.types then .ok [⟨.multilineComment, [Ph.comment], []⟩]
    else do
      let us ← unitsList u rc false ts
      .ok (retype .multilineComment us)
  | .stringLiteral ts len =>
    if Ty.stringLiteral ∈ rc.types then .ok [⟨.stringLiteral, [Ph.stringLiteral], []⟩]
    else match rc.maxStrLength with
      | none => .error .typeError
      | some n =>
        if len > n then
          if rc.fullStrings then .ok [⟨.stringLiteral, [['"', '"']], []⟩]
          else .ok [⟨.stringLiteral, [['"'], ['"']], [['"']]⟩]
        else if rc.bpe then do
          let s ← replaceInString rc (strList u ts)
          let ws ← rc.splitWord s
          .ok [⟨.stringLiteral, ws, []⟩]
        else if rc.fullStrings then do
          let s ← replaceInString rc (strList u ts)
          .ok [⟨.stringLiteral, [s], []⟩]
        else do
          let us ← unitsList u rc true ts
          .ok (retype .stringLiteral us)

def unitsList (u : Ucd) (rc : ReprConfig) (skipSpaces : Bool) : List Tok → Except PyErr (List FullTok)
  | [] => .ok []
  | t :: r =>
    match skipSpaces, t with
    | true, .spaceInString _ => unitsList u rc skipSpaces r
    | _, t => do
      let a ← Tok.units u rc t
      let b ← unitsList u rc skipSpaces r
      .ok (a ++ b)
end

/-! ## Flat forms -/

theorem boundsFrom_length {α : Type} (n : Nat) (gs : List (List α)) : (boundsFrom n gs).length = gs.length + 1 := by
  induction gs generalizing n with
  | nil => rfl
  | cons g r ih => simp [boundsFrom, ih]

theorem boundsFrom_ne_nil {α : Type} (n : Nat) (gs : List (List α)) : boundsFrom n gs ≠ [] := by
  cases gs <;> simp [boundsFrom]

theorem boundsFrom_append {α : Type} (n : Nat) (gs hs : List (List α)) :
    boundsFrom n (gs ++ hs) = (boundsFrom n gs).dropLast ++ boundsFrom (n + gs.flatten.length) hs := by
  induction gs generalizing n with
  | nil => simp [boundsFrom]
  | cons g r ih =>
    rw [List.cons_append]
    simp only [boundsFrom]
    rw [ih, List.dropLast_cons_of_ne_nil (boundsFrom_ne_nil _ _)]
    simp [Nat.add_assoc]

theorem boundsFrom_getLast? {α : Type} (n : Nat) (gs : List (List α)) :
    (boundsFrom n gs).getLast? = some (n + gs.flatten.length) := by
  induction gs generalizing n with
  | nil => simp [boundsFrom]
  | cons g r ih =>
    simp only [boundsFrom]
    rw [List.getLast?_cons, ih]
    simp [Nat.add_assoc]

theorem boundsFrom_map {α : Type} (n k : Nat) (gs : List (List α)) :
    (boundsFrom k gs).map (n + ·) = boundsFrom (n + k) gs := by
  induction gs generalizing k with
  | nil => rfl
  | cons g r ih => simp [boundsFrom, ih, Nat.add_assoc]

theorem foldl_setAdd_append_mem (acc l : List Str) (x : Str) (h : x ∈ acc) : x ∈ l.foldl setAdd acc := by
  induction l generalizing acc with
  | nil => exact h
  | cons a r ih =>
    rw [List.foldl_cons]
    apply ih
    unfold setAdd
    split <;> simp [h]

theorem mem_foldl_setAdd (acc l : List Str) (x : Str) : x ∈ l.foldl setAdd acc ↔ x ∈ acc ∨ x ∈ l := by
  induction l generalizing acc with
  | nil => simp
  | cons a r ih =>
    rw [List.foldl_cons, ih]
    unfold setAdd
    split <;> rename_i h
    · constructor
      · rintro (h1 | h1) <;> simp [h1]
      · rintro (h1 | h1)
        · exact .inl h1
        · rcases List.mem_cons.mp h1 with rfl | h2
          · exact .inl h
          · exact .inr h2
    · simp [or_assoc]

/-- Adding the elements of a set to a set. -/
theorem foldl_setAdd_foldl (acc base l : List Str) :
    (l.foldl setAdd base).foldl setAdd acc = l.foldl setAdd (base.foldl setAdd acc) := by
  induction l generalizing base with
  | nil => rfl
  | cons a r ih =>
    rw [List.foldl_cons, ih, List.foldl_cons]
    congr 1
    unfold setAdd
    split <;> rename_i h
    · rw [if_pos]
      exact (mem_foldl_setAdd _ _ _).mpr (.inr h)
    · rw [List.foldl_append]
      rfl

theorem distinct_eq (l : List Str) : distinct l = l.foldl setAdd [] := rfl

theorem mem_distinct (l : List Str) (x : Str) : x ∈ distinct l ↔ x ∈ l := by
  rw [distinct_eq, mem_foldl_setAdd]
  simp

theorem flatForm_update (us vs : List FullTok) :
    (flatForm us).2.update (flatForm vs).2 = .ok (flatForm (us ++ vs)).2 := by
  unfold Meta.update flatForm
  simp only [boundsFrom_getLast?, Except.ok.injEq, Meta.mk.injEq, distinct_eq, List.map_append, List.flatMap_append]
  refine ⟨?_, ?_, trivial⟩
  · rw [foldl_setAdd_foldl, List.foldl_append]
    rfl
  · rw [boundsFrom_append, boundsFrom_map]
    simp

theorem flatForm_append_fst (us vs : List FullTok) : (flatForm (us ++ vs)).1 = (flatForm us).1 ++ (flatForm vs).1 := by
  simp [flatForm]

theorem flatForm_nil : flatForm [] = ([], Meta.empty) := rfl

theorem flatForm_single (ty : Ty) (subs np : List Str) (h : np = [] ∨ ∃ x, np = [x]) :
    flatForm [⟨ty, subs, np⟩] = fullWord ty subs np := by
  rcases h with rfl | ⟨x, rfl⟩ <;> simp [flatForm, fullWord, boundsFrom, distinct]

theorem flatForm_retype (ty : Ty) (us : List FullTok) :
    flatForm (retype ty us) = ((flatForm us).1, (flatForm us).2.setAllTypes ty) := by
  have h1 : (retype ty us).map (·.subs) = us.map (·.subs) := by simp [retype]
  have h2 : (retype ty us).flatMap (·.nonproc) = us.flatMap (·.nonproc) := by simp [retype, List.flatMap_map]
  have h3 : (retype ty us).map (·.ty) = List.replicate us.length ty := by
    clear h1 h2
    simp only [retype, List.map_map]
    induction us with
    | nil => rfl
    | cons a r ih => simp_all [List.replicate_succ]
  unfold flatForm
  rw [h1, h2, h3]
  simp [Meta.setAllTypes, boundsFrom_length]

/-! ## Refinement -/

theorem splitRepr_eq (u : Ucd) (rc : ReprConfig) (subs : List Subtok) :
    splitRepr u rc subs = (splitUnits u rc subs).map flatForm := by
  unfold splitRepr splitUnits
  split
  · split
    · cases rc.splitWord (splitStr u subs) with
      | error e => rfl
      | ok ws => simp [bind, Except.bind, Except.map, flatForm_single]
    · cases subtoksRepr u rc [] subs with
      | error e => rfl
      | ok ws => simp [bind, Except.bind, Except.map, flatForm_single]
  · cases subtoksJoin u rc subs with
      | error e => rfl
      | ok ws => simp [bind, Except.bind, Except.map, flatForm_single]

theorem nonEngRepr_eq (u : Ucd) (rc : ReprConfig) (subs : List Subtok) :
    nonEngRepr u rc subs = (nonEngUnits u rc subs).map flatForm := by
  unfold nonEngRepr nonEngUnits
  split
  · split
    · cases replaceNonAsciiSeqs (splitStr u subs) Ph.nonAsciiSeq with
      | error e => rfl
      | ok t =>
        simp only [bind, Except.bind]
        cases wordFrom u t with
        | error e => rfl
        | ok w => exact splitRepr_eq u rc [w]
    · simp [Except.map, flatForm_single]
  · exact splitRepr_eq u rc subs

theorem numberRepr_eq (rc : ReprConfig) (ty : Ty) (v : Str) :
    numberRepr rc ty v = (numberUnits rc ty v).map flatForm := by
  unfold numberRepr numberUnits
  split
  · cases rc.numberSplitter v with
    | error e => rfl
    | ok ws => simp [bind, Except.bind, Except.map, flatForm_single]
  · simp [Except.map, flatForm_single]

theorem whitespaceRepr_eq (rc : ReprConfig) (ty : Ty) (s : Str) :
    whitespaceRepr rc ty s = flatForm (whitespaceUnits rc ty s) := by
  unfold whitespaceRepr whitespaceUnits
  split
  · rfl
  · simp [flatForm_single]

theorem nonProcRepr_eq (rc : ReprConfig) (ty : Ty) (s : Str) :
    nonProcRepr rc ty s = (nonProcUnits rc ty s).map flatForm := by
  unfold nonProcRepr nonProcUnits
  split
  · rfl
  · simp [Except.map, flatForm_single]

mutual
theorem torepr_eq (u : Ucd) (rc : ReprConfig) : (t : Tok) → t.torepr u rc = (t.units u rc).map flatForm
  | .number v => numberRepr_eq rc .number v
  | .one => numberRepr_eq rc .one _
  | .zero => numberRepr_eq rc .zero _
  | .newLine => by simp [Tok.torepr, Tok.units, Except.map, whitespaceRepr_eq]
  | .tab => by simp [Tok.torepr, Tok.units, Except.map, whitespaceRepr_eq]
  | .spaceInString n => by
    unfold Tok.torepr Tok.units
    split
    · rfl
    · simp [Except.map, flatForm_single]
  | .keyWord s => nonProcRepr_eq rc .keyWord s
  | .operator s => nonProcRepr_eq rc .operator s
  | .semicolon => nonProcRepr_eq rc .semicolon _
  | .openingCurly => nonProcRepr_eq rc .openingCurly _
  | .closingCurly => nonProcRepr_eq rc .closingCurly _
  | .openingBracket => nonProcRepr_eq rc .openingBracket _
  | .closingBracket => nonProcRepr_eq rc .closingBracket _
  | .nonCodeChar s => nonProcRepr_eq rc .nonCodeChar s
  | .specialToken s => nonProcRepr_eq rc .specialToken s
  | .split subs => splitRepr_eq u rc subs
  | .nonEng subs => nonEngRepr_eq u rc subs
  | .oneLineComment ts => by
    have ih := toreprFrom_eq u rc false [] ts
    unfold Tok.torepr Tok.units
    split
    · simp [Except.map, flatForm_single]
    · simp only [flatForm_nil] at ih
      rw [ih]
      cases unitsList u rc false ts with
      | error e => rfl
      | ok us =>
        have h := flatForm_update us [⟨.oneLineComment, [Ph.olcEnd], []⟩]
        have h' : (flatForm [⟨.oneLineComment, [Ph.olcEnd], []⟩]).2 = ⟨[], [0, 1], [.oneLineComment]⟩ := rfl
        rw [h'] at h
        have hr := flatForm_retype .oneLineComment (us ++ [⟨.oneLineComment, [Ph.olcEnd], []⟩])
        simp only [bind, Except.bind, Except.map, List.nil_append]
        rw [h]
        have hh : retype .oneLineComment us ++ [⟨.oneLineComment, [Ph.olcEnd], []⟩]
            = retype .oneLineComment (us ++ [⟨.oneLineComment, [Ph.olcEnd], []⟩]) := by simp [retype]
        rw [hh, hr, flatForm_append_fst]
        rfl
  | .multilineComment ts => by
    have ih := toreprFrom_eq u rc false [] ts
    unfold Tok.torepr Tok.units
    split
    · simp [Except.map, flatForm_single]
    · simp only [flatForm_nil] at ih
      rw [ih]
      cases unitsList u rc false ts with
      | error e => rfl
      | ok us => simp [bind, Except.bind, Except.map, flatForm_retype]
  | .stringLiteral ts len => by
    have ih := toreprFrom_eq u rc true [] ts
    unfold Tok.torepr Tok.units
    split
    · simp [Except.map, flatForm_single]
    · cases rc.maxStrLength with
      | none => rfl
      | some n =>
        simp only
        split
        · split
          · simp [Except.map, flatForm_single]
          · simp [Except.map, flatForm_single]
        · split
          · cases replaceInString rc (strList u ts) with
            | error e => rfl
            | ok s =>
              simp only [bind, Except.bind]
              cases rc.splitWord s with
              | error e => rfl
              | ok ws => simp [Except.map, flatForm_single]
          · split
            · cases replaceInString rc (strList u ts) with
              | error e => rfl
              | ok s => simp [bind, Except.bind, Except.map, flatForm_single]
            · simp only [flatForm_nil] at ih
              rw [ih]
              cases unitsList u rc true ts with
              | error e => rfl
              | ok us => simp [bind, Except.bind, Except.map, flatForm_retype]

theorem toreprFrom_eq (u : Ucd) (rc : ReprConfig) (skip : Bool) (us : List FullTok) : (ts : List Tok) →
    toreprFrom u rc skip (flatForm us).1 (flatForm us).2 ts =
      (unitsList u rc skip ts).map fun vs => flatForm (us ++ vs)
  | [] => by simp [toreprFrom, unitsList, Except.map]
  | t :: r => by
    have ih1 := torepr_eq u rc t
    have ih2 := fun us => toreprFrom_eq u rc skip us r
    have main : (do
        let (x, m) ← Tok.torepr u rc t
        let md' ← (flatForm us).2.update m
        toreprFrom u rc skip ((flatForm us).1 ++ x) md' r) =
        (do let a ← Tok.units u rc t
            let b ← unitsList u rc skip r
            Except.ok (a ++ b) : Except PyErr _).map fun vs => flatForm (us ++ vs) := by
      rw [ih1]
      cases Tok.units u rc t with
      | error e => rfl
      | ok vs =>
        simp only [bind, Except.bind, Except.map]
        rw [flatForm_update, ← flatForm_append_fst]
        simp only
        rw [ih2]
        cases unitsList u rc skip r with
        | error e => rfl
        | ok ws => simp [Except.map, List.append_assoc]
    cases skip
    · simp only [toreprFrom, unitsList]
      exact main
    · cases t <;> first
        | (simp only [toreprFrom, unitsList]; exact ih2 us)
        | (simp only [toreprFrom, unitsList]; exact main)
end

/-- Preprocessing is computing the full tokens and writing them in flat form. -/
theorem toReprList_eq (u : Ucd) (rc : ReprConfig) (ts : List Tok) :
    toReprList u rc ts = (unitsList u rc false ts).map flatForm := by
  have h := toreprFrom_eq u rc false [] ts
  simpa [flatForm_nil, toReprList] using h

theorem unitsList_append (u : Ucd) (rc : ReprConfig) (a b : List Tok) :
    unitsList u rc false (a ++ b) = (do
      let x ← unitsList u rc false a
      let y ← unitsList u rc false b
      .ok (x ++ y)) := by
  induction a with
  | nil =>
    simp only [List.nil_append, unitsList, bind, Except.bind]
    cases unitsList u rc false b <;> rfl
  | cons t r ih =>
    simp only [List.cons_append, unitsList, ih]
    cases Tok.units u rc t with
    | error e => rfl
    | ok x =>
      simp only [bind, Except.bind]
      cases unitsList u rc false r with
      | error e => rfl
      | ok y =>
        simp only
        cases unitsList u rc false b with
        | error e => rfl
        | ok z => simp

end Verif
