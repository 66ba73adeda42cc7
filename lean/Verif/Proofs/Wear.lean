import Verif.Spec.Wear
import Verif.Proofs.BpeLearnMore
/-!
# Lemmas about calls with a cache of splits
-/
namespace Verif.Wear
open Verif Verif.Spec

variable {σ τ : Type}

theorem pure_eq {α : Type} (a : α) : (pure a : Comp σ α) = lift (.ok a) := rfl

/-- A relation between two programs that is kept by everything that programs are made of. -/
structure Closed (P : (α : Type) → Comp σ α → Comp τ α → Prop) (l1 : Str → Comp σ (List Str)) (l2 : Str → Comp τ (List Str)) : Prop where
  lift : ∀ (α : Type) (x : Except PyErr α), P α (lift x) (lift x)
  bind : ∀ (α β : Type) (m1 : Comp σ α) (m2 : Comp τ α) (k1 : α → Comp σ β) (k2 : α → Comp τ β),
    P α m1 m2 → (∀ a, P β (k1 a) (k2 a)) → P β (m1 >>= k1) (m2 >>= k2)
  look : ∀ w, P (List Str) (l1 w) (l2 w)

variable {P : (α : Type) → Comp σ α → Comp τ α → Prop} {l1 : Str → Comp σ (List Str)} {l2 : Str → Comp τ (List Str)}

theorem Closed.pure (h : Closed P l1 l2) {α : Type} (a : α) : P α (pure a) (pure a) := h.lift α (.ok a)

theorem subRepr_rel (h : Closed P l1 l2) (u : Ucd) (rc : ReprConfig) (s : Subtok) :
    P _ (subRepr l1 u rc s) (subRepr l2 u rc s) := by
  cases s with
  | underscore =>
    simp only [subRepr]
    split
    · exact h.lift _ _
    · exact h.pure _
  | word c cap =>
    simp only [subRepr]
    split
    · split
      · exact h.bind _ _ _ _ _ _ (h.look c) fun a => h.pure _
      · exact h.look _
    · exact h.pure _

theorem subtoksRepr_rel (h : Closed P l1 l2) (u : Ucd) (rc : ReprConfig) (subs : List Subtok) (acc : List Str) :
    P _ (subtoksRepr l1 u rc acc subs) (subtoksRepr l2 u rc acc subs) := by
  induction subs generalizing acc with
  | nil => exact h.pure acc
  | cons s r ih =>
    unfold subtoksRepr
    exact h.bind _ _ _ _ _ _ (subRepr_rel h u rc s) fun a => ih _

theorem subtoksJoin_rel (h : Closed P l1 l2) (u : Ucd) (rc : ReprConfig) (subs : List Subtok) :
    P _ (subtoksJoin l1 u rc subs) (subtoksJoin l2 u rc subs) := by
  induction subs with
  | nil => exact h.pure _
  | cons s r ih =>
    unfold subtoksJoin
    refine h.bind _ _ _ _ _ _ (subRepr_rel h u rc s) fun a => ?_
    cases a with
    | nil => exact h.lift _ _
    | cons x y => exact h.bind _ _ _ _ _ _ ih fun t => h.pure _

theorem splitRepr_rel (h : Closed P l1 l2) (u : Ucd) (rc : ReprConfig) (subs : List Subtok) :
    P _ (splitRepr l1 u rc subs) (splitRepr l2 u rc subs) := by
  unfold splitRepr
  split
  · split
    · exact h.bind _ _ _ _ _ _ (h.look _) fun a => h.pure _
    · exact h.bind _ _ _ _ _ _ (subtoksRepr_rel h u rc subs []) fun a => h.pure _
  · exact h.bind _ _ _ _ _ _ (subtoksJoin_rel h u rc subs) fun a => h.pure _

theorem nonEngRepr_rel (h : Closed P l1 l2) (u : Ucd) (rc : ReprConfig) (subs : List Subtok) :
    P _ (nonEngRepr l1 u rc subs) (nonEngRepr l2 u rc subs) := by
  unfold nonEngRepr
  split
  · split
    · exact h.bind _ _ _ _ _ _ (h.lift _ _) fun a => h.bind _ _ _ _ _ _ (h.lift _ _) fun w => splitRepr_rel h u rc [w]
    · exact h.pure _
  · exact splitRepr_rel h u rc subs

theorem numberRepr_rel (h : Closed P l1 l2) (rc : ReprConfig) (ty : Ty) (v : Str) :
    P _ (numberRepr l1 rc ty v) (numberRepr l2 rc ty v) := by
  unfold numberRepr
  split
  · exact h.bind _ _ _ _ _ _ (h.look _) fun a => h.pure _
  · exact h.pure _

mutual
theorem torepr_rel (h : Closed P l1 l2) (u : Ucd) (rc : ReprConfig) (t : Tok) : P _ (torepr l1 u rc t) (torepr l2 u rc t) := by
  cases t with
  | number v => simp only [torepr]; exact numberRepr_rel h rc _ _
  | one => simp only [torepr]; exact numberRepr_rel h rc _ _
  | zero => simp only [torepr]; exact numberRepr_rel h rc _ _
  | newLine => simp only [torepr]; exact h.pure _
  | tab => simp only [torepr]; exact h.pure _
  | spaceInString n =>
    simp only [torepr]
    split
    · exact h.lift _ _
    · exact h.pure _
  | keyWord s => simp only [torepr]; exact h.lift _ _
  | operator s => simp only [torepr]; exact h.lift _ _
  | semicolon => simp only [torepr]; exact h.lift _ _
  | openingCurly => simp only [torepr]; exact h.lift _ _
  | closingCurly => simp only [torepr]; exact h.lift _ _
  | openingBracket => simp only [torepr]; exact h.lift _ _
  | closingBracket => simp only [torepr]; exact h.lift _ _
  | nonCodeChar s => simp only [torepr]; exact h.lift _ _
  | specialToken s => simp only [torepr]; exact h.lift _ _
  | split subs => simp only [torepr]; exact splitRepr_rel h u rc subs
  | nonEng subs => simp only [torepr]; exact nonEngRepr_rel h u rc subs
  | oneLineComment ts =>
    simp only [torepr]
    split
    · exact h.pure _
    · exact h.bind _ _ _ _ _ _ (toreprFrom_rel h u rc false [] Meta.empty ts) fun a => h.bind _ _ _ _ _ _ (h.lift _ _) fun b => h.pure _
  | multilineComment ts =>
    simp only [torepr]
    split
    · exact h.pure _
    · exact h.bind _ _ _ _ _ _ (toreprFrom_rel h u rc false [] Meta.empty ts) fun a => h.pure _
  | stringLiteral ts len =>
    simp only [torepr]
    split
    · exact h.pure _
    · cases rc.maxStrLength with
      | none => exact h.lift _ _
      | some n =>
        simp only
        split
        · split
          · exact h.pure _
          · exact h.pure _
        · split
          · exact h.bind _ _ _ _ _ _ (h.lift _ _) fun a => h.bind _ _ _ _ _ _ (h.look _) fun b => h.pure _
          · split
            · exact h.bind _ _ _ _ _ _ (h.lift _ _) fun a => h.pure _
            · exact h.bind _ _ _ _ _ _ (toreprFrom_rel h u rc true [] Meta.empty ts) fun a => h.pure _

theorem toreprFrom_rel (h : Closed P l1 l2) (u : Ucd) (rc : ReprConfig) (sk : Bool) (acc : List Str) (md : Meta) (ts : List Tok) :
    P _ (toreprFrom l1 u rc sk acc md ts) (toreprFrom l2 u rc sk acc md ts) := by
  cases ts with
  | nil => unfold toreprFrom; exact h.pure _
  | cons t r =>
    have key : P _ (torepr l1 u rc t >>= fun x => lift (md.update x.2) >>= fun md' => toreprFrom l1 u rc sk (acc ++ x.1) md' r)
        (torepr l2 u rc t >>= fun x => lift (md.update x.2) >>= fun md' => toreprFrom l2 u rc sk (acc ++ x.1) md' r) :=
      h.bind _ _ _ _ _ _ (torepr_rel h u rc t) fun a => h.bind _ _ _ _ _ _ (h.lift _ _) fun md' => toreprFrom_rel h u rc sk _ md' r
    have skip := toreprFrom_rel h u rc sk acc md r
    cases sk with
    | false => rw [toreprFrom, toreprFrom]; exact key; all_goals simp
    | true =>
      cases t with
      | spaceInString n => rw [toreprFrom, toreprFrom]; exact skip
      | _ => rw [toreprFrom, toreprFrom]; exact key; all_goals simp
end

theorem toReprBpe_rel (h : Closed P l1 l2) (u : Ucd) (rc : ReprConfig) (ts : List Tok) :
    P _ (toReprBpe l1 u rc ts) (toReprBpe l2 u rc ts) := by
  unfold toReprBpe
  exact h.bind _ _ _ _ _ _ (toreprFrom_rel h u rc false [] Meta.empty ts) fun a => h.bind _ _ _ _ _ _ (h.lift _ _) fun b => h.pure _

/-! ## Lookups without an effect -/

/-- Code without an effect, one after the other. -/
theorem lift_bind {α β : Type} (x : Except PyErr α) (g : α → Except PyErr β) :
    ((lift x : Comp σ α) >>= fun a => lift (g a)) = lift (x >>= g) := by
  funext s
  cases x <;> rfl

/-- A configuration whose splitters are the function `f`. -/
def withSplitter (rc : ReprConfig) (f : Str → Except PyErr (List Str)) : ReprConfig := { rc with numberSplitter := f, wordSplitter := some f }

/-- Lookups without an effect. -/
def plainly (f : Str → Except PyErr (List Str)) : Str → Comp σ (List Str) := fun w => lift (f w)

variable (f : Str → Except PyErr (List Str))

theorem subRepr_plain (u : Ucd) (rc : ReprConfig) (s : Subtok) :
    subRepr (σ := σ) (plainly f) u rc s = lift (s.repr u (withSplitter rc f)) := by
  cases s with
  | underscore =>
    simp only [subRepr, Subtok.repr]
    change _ = lift (if Ty.underscore ∈ rc.types then _ else _)
    split <;> rfl
  | word c cap =>
    simp only [subRepr, Subtok.repr]
    change _ = lift (if Ty.word ∈ rc.types then (if rc.lowercase = true then _ else _) else _)
    split
    · split
      · exact lift_bind _ _
      · rfl
    · rfl

theorem subtoksRepr_plain (u : Ucd) (rc : ReprConfig) (subs : List Subtok) (acc : List Str) :
    subtoksRepr (σ := σ) (plainly f) u rc acc subs = lift (Verif.subtoksRepr u (withSplitter rc f) acc subs) := by
  induction subs generalizing acc with
  | nil => rfl
  | cons s r ih =>
    rw [subtoksRepr, Verif.subtoksRepr, subRepr_plain, ← lift_bind]
    congr 1
    funext a
    exact ih _

theorem subtoksJoin_plain (u : Ucd) (rc : ReprConfig) (subs : List Subtok) :
    subtoksJoin (σ := σ) (plainly f) u rc subs = lift (Verif.subtoksJoin u (withSplitter rc f) subs) := by
  induction subs with
  | nil => rfl
  | cons s r ih =>
    rw [subtoksJoin, Verif.subtoksJoin, subRepr_plain, ← lift_bind]
    congr 1
    funext a
    cases a with
    | nil => rfl
    | cons x y =>
      simp only
      rw [ih]
      exact lift_bind _ _

theorem splitRepr_plain (u : Ucd) (rc : ReprConfig) (subs : List Subtok) :
    splitRepr (σ := σ) (plainly f) u rc subs = lift (Verif.splitRepr u (withSplitter rc f) subs) := by
  simp only [splitRepr, Verif.splitRepr]
  change _ = lift (if Ty.splitContainer ∈ rc.types then (if rc.bpe = true then _ else _) else _)
  split
  · split
    · exact lift_bind _ _
    · rw [subtoksRepr_plain]; exact lift_bind _ _
  · rw [subtoksJoin_plain]; exact lift_bind _ _

theorem nonEngRepr_plain (u : Ucd) (rc : ReprConfig) (subs : List Subtok) :
    nonEngRepr (σ := σ) (plainly f) u rc subs = lift (Verif.nonEngRepr u (withSplitter rc f) subs) := by
  simp only [nonEngRepr, Verif.nonEngRepr, splitRepr_plain]
  change _ = lift (if Ty.nonEng ∈ rc.types then (if rc.bpe = true then _ else _) else _)
  split
  · split
    · simp only [lift_bind]
    · rfl
  · rfl

theorem numberRepr_plain (rc : ReprConfig) (ty : Ty) (v : Str) :
    numberRepr (σ := σ) (plainly f) rc ty v = lift (Verif.numberRepr (withSplitter rc f) ty v) := by
  simp only [numberRepr, Verif.numberRepr]
  change _ = lift (if ty ∈ rc.types then _ else _)
  split
  · exact lift_bind _ _
  · rfl

mutual
theorem torepr_plain (u : Ucd) (rc : ReprConfig) (t : Tok) :
    torepr (σ := σ) (plainly f) u rc t = lift (Tok.torepr u (withSplitter rc f) t) := by
  cases t with
  | number v => simp only [torepr, Tok.torepr, numberRepr_plain]
  | one => simp only [torepr, Tok.torepr, numberRepr_plain]
  | zero => simp only [torepr, Tok.torepr, numberRepr_plain]
  | newLine => simp only [torepr, Tok.torepr]; rfl
  | tab => simp only [torepr, Tok.torepr]; rfl
  | spaceInString n =>
    simp only [torepr, Tok.torepr]
    change _ = lift (if Ty.spaceInString ∈ rc.types then _ else _)
    split <;> rfl
  | keyWord s => simp only [torepr, Tok.torepr]; rfl
  | operator s => simp only [torepr, Tok.torepr]; rfl
  | semicolon => simp only [torepr, Tok.torepr]; rfl
  | openingCurly => simp only [torepr, Tok.torepr]; rfl
  | closingCurly => simp only [torepr, Tok.torepr]; rfl
  | openingBracket => simp only [torepr, Tok.torepr]; rfl
  | closingBracket => simp only [torepr, Tok.torepr]; rfl
  | nonCodeChar s => simp only [torepr, Tok.torepr]; rfl
  | specialToken s => simp only [torepr, Tok.torepr]; rfl
  | split subs => simp only [torepr, Tok.torepr, splitRepr_plain]
  | nonEng subs => simp only [torepr, Tok.torepr, nonEngRepr_plain]
  | oneLineComment ts =>
    simp only [torepr, Tok.torepr, toreprFrom_plain u rc false [] Meta.empty ts, pure_eq, lift_bind]
    change _ = lift (if Ty.oneLineComment ∈ rc.types then _ else _)
    split <;> rfl
  | multilineComment ts =>
    simp only [torepr, Tok.torepr, toreprFrom_plain u rc false [] Meta.empty ts, pure_eq, lift_bind]
    change _ = lift (if Ty.multilineComment ∈ rc.types then _ else _)
    split <;> rfl
  | stringLiteral ts len =>
    simp only [torepr, Tok.torepr, toreprFrom_plain u rc true [] Meta.empty ts, pure_eq, plainly, lift_bind]
    change _ = lift (if Ty.stringLiteral ∈ rc.types then _ else match rc.maxStrLength with | none => _ | some n => _)
    split
    · rfl
    · cases rc.maxStrLength with
      | none => rfl
      | some n =>
        simp only
        change _ = lift (if len > n then (if rc.fullStrings = true then _ else _) else if rc.bpe = true then _ else if rc.fullStrings = true then _ else _)
        repeat' split
        all_goals rfl

theorem toreprFrom_plain (u : Ucd) (rc : ReprConfig) (sk : Bool) (acc : List Str) (md : Meta) (ts : List Tok) :
    toreprFrom (σ := σ) (plainly f) u rc sk acc md ts = lift (Verif.toreprFrom u (withSplitter rc f) sk acc md ts) := by
  cases ts with
  | nil => simp only [toreprFrom, Verif.toreprFrom]; rfl
  | cons t r =>
    have key : (torepr (σ := σ) (plainly f) u rc t >>= fun x => lift (md.update x.2) >>= fun md' => toreprFrom (plainly f) u rc sk (acc ++ x.1) md' r)
        = lift (Tok.torepr u (withSplitter rc f) t >>= fun x => md.update x.2 >>= fun md' => Verif.toreprFrom u (withSplitter rc f) sk (acc ++ x.1) md' r) := by
      rw [torepr_plain u rc t, ← lift_bind]
      congr 1
      funext x
      rw [← lift_bind]
      congr 1
      funext md'
      exact toreprFrom_plain u rc sk _ md' r
    have skip := toreprFrom_plain u rc sk acc md r
    cases sk with
    | false => rw [toreprFrom, Verif.toreprFrom]; exact key; all_goals simp
    | true =>
      cases t with
      | spaceInString n => rw [toreprFrom, Verif.toreprFrom]; exact skip
      | _ => rw [toreprFrom, Verif.toreprFrom]; exact key; all_goals simp
end

/-- `to_repr` with byte-pair encoding and lookups without an effect. -/
def toReprPlain (u : Ucd) (rc : ReprConfig) (f : Str → Except PyErr (List Str)) (ts : List Tok) : Except PyErr (List Str × Meta) := do
  let (l, md) ← toReprList u (withSplitter rc f) ts
  let l' ← insertWordEnds l (md.bounds.drop 1)
  .ok (l', md)

theorem toReprBpe_plain (u : Ucd) (rc : ReprConfig) (ts : List Tok) :
    toReprBpe (σ := σ) (plainly f) u rc ts = lift (toReprPlain u rc f ts) := by
  simp only [toReprBpe, toReprPlain, toReprList, toreprFrom_plain, pure_eq, lift_bind]

/-! ## Lookups that are written down -/

/-- Lookups without an effect, except that the words are written down. -/
def recording (f : Str → Except PyErr (List Str)) : Str → Comp (List Str) (List Str) := fun w l => (f w, l ++ [w])

theorem recording_plain : Closed (fun α (m1 : Comp (List Str) α) (m2 : Comp Unit α) => ∀ l, (m1 l).1 = (m2 ()).1) (recording f) (plainly f) where
  lift := fun α x l => rfl
  bind := by
    intro α β m1 m2 k1 k2 hm hk l
    have h := hm l
    change (Comp.bind m1 k1 l).1 = (Comp.bind m2 k2 ()).1
    unfold Comp.bind
    rcases h1 : m1 l with ⟨x, l'⟩
    rcases h2 : m2 () with ⟨y, v⟩
    rw [h1, h2] at h
    obtain rfl : x = y := h
    cases x with
    | error e => rfl
    | ok a => exact hk a l'
  look := fun w l => rfl

/-- The words that `to_repr` looks up. -/
def words (f : Str → Except PyErr (List Str)) (u : Ucd) (rc : ReprConfig) (ts : List Tok) : List Str := (toReprBpe (recording f) u rc ts []).2

theorem recorded (u : Ucd) (rc : ReprConfig) (ts : List Tok) (l : List Str) :
    (toReprBpe (recording f) u rc ts l).1 = toReprPlain u rc f ts := by
  have h := toReprBpe_rel (recording_plain f) u rc ts l
  rw [h, toReprBpe_plain]
  rfl

/-! ## The words that are looked up -/

/-- The code writes down `as`; less than that if an exception is raised. -/
def Writes {α : Type} (m : Comp (List Str) α) (as : List Str) : Prop :=
  ∀ l, (m l).2 <+: l ++ as ∧ ∀ x, (m l).1 = .ok x → (m l).2 = l ++ as

theorem Writes.bind {α β : Type} {m : Comp (List Str) α} {k : α → Comp (List Str) β} {as bs : List Str} (h : Writes m as)
    (hk : ∀ a l, (m l).1 = .ok a → Writes (k a) bs) : Writes (m >>= k) (as ++ bs) := by
  intro l
  change (Comp.bind m k l).2 <+: _ ∧ ∀ x, (Comp.bind m k l).1 = .ok x → (Comp.bind m k l).2 = _
  unfold Comp.bind
  have hl := h l
  have hkl := fun a => hk a l
  rcases h1 : m l with ⟨x, l'⟩
  rw [h1] at hl
  simp only [h1] at hkl
  cases x with
  | error e =>
    refine ⟨hl.1.trans ?_, fun x hx => (nomatch hx)⟩
    rw [← List.append_assoc]
    exact List.prefix_append _ _
  | ok a =>
    have e : l' = l ++ as := hl.2 a rfl
    have := hkl a rfl l'
    rw [← List.append_assoc, ← e]
    exact this

theorem Writes.lift {α : Type} (x : Except PyErr α) : Writes (lift x) [] :=
  fun l => ⟨by change l <+: l ++ []; simp, fun _ _ => by change l = l ++ []; simp⟩

theorem Writes.pure {α : Type} (a : α) : Writes (pure a) [] := Writes.lift (.ok a)

theorem Writes.error {α : Type} (e : PyErr) (as : List Str) : Writes (Verif.Wear.lift (.error e) : Comp (List Str) α) as :=
  fun l => ⟨List.prefix_append _ _, fun _ h => nomatch h⟩

theorem Writes.look (w : Str) : Writes (recording f w) [w] := fun l => ⟨List.prefix_refl _, fun _ _ => rfl⟩

theorem Writes.map {α β : Type} {m : Comp (List Str) α} {as : List Str} (h : Writes m as) (g : α → β) :
    Writes (m >>= fun a => Pure.pure (g a)) as := by
  have := h.bind (k := fun a => Pure.pure (g a)) (bs := []) fun a l _ => Writes.pure _
  rwa [List.append_nil] at this

/-- How a configuration with byte-pair encoding treats the types of tokens. -/
structure BpeTypes (rc : ReprConfig) (noStr noCom noUnicode : Bool) (max : Nat) : Prop where
  bpe : rc.bpe = true
  split : Ty.splitContainer ∈ rc.types
  number : Ty.number ∈ rc.types
  one : Ty.one ∉ rc.types
  zero : Ty.zero ∉ rc.types
  nonEng : Ty.nonEng ∈ rc.types ↔ noUnicode = true
  oneLine : Ty.oneLineComment ∈ rc.types ↔ noCom = true
  multi : Ty.multilineComment ∈ rc.types ↔ noCom = true
  str : Ty.stringLiteral ∈ rc.types ↔ noStr = true
  max : noStr = false → rc.maxStrLength = some max

variable {rc : ReprConfig} {noStr noCom noUnicode : Bool} {max : Nat}

theorem splitRepr_writes (u : Ucd) (h : BpeTypes rc noStr noCom noUnicode max) (subs : List Subtok) :
    Writes (splitRepr (recording f) u rc subs) [splitStr u subs] := by
  unfold splitRepr
  rw [if_pos h.split, if_pos h.bpe]
  exact (Writes.look f _).map _

theorem replaced_ok {s t : Str} (h : replaceNonAsciiSeqs s Ph.nonAsciiSeq = .ok t) : replaced s = [t] := by
  unfold replaced; rw [h]

theorem replaced_map (l parts : List Str) (h : l.mapM (fun t => replaceNonAsciiSeqs t Ph.nonAsciiSeq) = .ok parts) :
    l.flatMap replaced = parts := by
  induction l generalizing parts with
  | nil =>
    rw [List.mapM_nil] at h
    cases h
    rfl
  | cons a r ih =>
    rw [List.mapM_cons] at h
    cases ha : replaceNonAsciiSeqs a Ph.nonAsciiSeq with
    | error e => rw [ha] at h; cases h
    | ok t =>
      rw [ha] at h
      cases hr : r.mapM (fun t => replaceNonAsciiSeqs t Ph.nonAsciiSeq) with
      | error e => simp only [hr, bind, Except.bind] at h; cases h
      | ok ps =>
        simp only [hr, bind, Except.bind] at h
        cases h
        rw [List.flatMap_cons, replaced_ok ha, ih ps hr]
        rfl

mutual
theorem torepr_writes (u : Ucd) (h : BpeTypes rc noStr noCom noUnicode max) (t : Tok) :
    Writes (torepr (recording f) u rc t) (asks u noStr noCom noUnicode max t) := by
  cases t with
  | number v =>
    simp only [torepr, asks, numberRepr]
    rw [if_pos h.number]
    exact (Writes.look f _).map _
  | one => simp only [torepr, asks, numberRepr]; rw [if_neg h.one]; exact Writes.pure _
  | zero => simp only [torepr, asks, numberRepr]; rw [if_neg h.zero]; exact Writes.pure _
  | newLine => simp only [torepr, asks]; exact Writes.pure _
  | tab => simp only [torepr, asks]; exact Writes.pure _
  | spaceInString n =>
    simp only [torepr, asks]
    split
    · exact Writes.lift _
    · exact Writes.pure _
  | keyWord s => simp only [torepr, asks]; exact Writes.lift _
  | operator s => simp only [torepr, asks]; exact Writes.lift _
  | semicolon => simp only [torepr, asks]; exact Writes.lift _
  | openingCurly => simp only [torepr, asks]; exact Writes.lift _
  | closingCurly => simp only [torepr, asks]; exact Writes.lift _
  | openingBracket => simp only [torepr, asks]; exact Writes.lift _
  | closingBracket => simp only [torepr, asks]; exact Writes.lift _
  | nonCodeChar s => simp only [torepr, asks]; exact Writes.lift _
  | specialToken s => simp only [torepr, asks]; exact Writes.lift _
  | split subs => simp only [torepr, asks]; exact splitRepr_writes f u h subs
  | nonEng subs =>
    simp only [torepr, asks, nonEngRepr]
    by_cases hn : noUnicode = true
    · rw [if_pos (h.nonEng.2 hn), if_pos h.bpe, if_pos hn]
      change Writes _ ((replaced (splitStr u subs)).flatMap _)
      rw [← List.nil_append ((replaced (splitStr u subs)).flatMap _)]
      refine (Writes.lift (replaceNonAsciiSeqs (splitStr u subs) Ph.nonAsciiSeq)).bind (as := []) fun token l hl => ?_
      rw [replaced_ok hl]
      cases hw : wordFrom u token with
      | error e => simp only [List.flatMap_cons, hw]; exact Writes.error e _
      | ok w =>
        have := splitRepr_writes f u h [w]
        simp only [List.flatMap_cons, List.flatMap_nil, List.append_nil, hw]
        have e : splitStr u [w] = w.str u := by simp [splitStr, concat]
        rw [e] at this
        exact this
    · rw [if_neg (fun e => hn (h.nonEng.1 e)), if_neg hn]
      exact splitRepr_writes f u h subs
  | oneLineComment ts =>
    simp only [torepr, asks]
    by_cases hn : noCom = true
    · rw [if_pos (h.oneLine.2 hn), if_pos hn]; exact Writes.pure _
    · rw [if_neg (fun e => hn (h.oneLine.1 e)), if_neg hn]
      have := (toreprFrom_writes u h [] Meta.empty ts).bind
        (k := fun x => (Verif.Wear.lift (x.2.update ⟨[], [0, 1], [.oneLineComment]⟩) >>= fun md => Pure.pure (x.1 ++ [Ph.olcEnd], md.setAllTypes .oneLineComment)))
        (bs := []) fun a _ _ => (Writes.lift _).map _
      rw [List.append_nil] at this
      exact this
  | multilineComment ts =>
    simp only [torepr, asks]
    by_cases hn : noCom = true
    · rw [if_pos (h.multi.2 hn), if_pos hn]; exact Writes.pure _
    · rw [if_neg (fun e => hn (h.multi.1 e)), if_neg hn]
      exact (toreprFrom_writes u h [] Meta.empty ts).map _
  | stringLiteral ts len =>
    simp only [torepr, asks]
    by_cases hs : noStr = true
    · rw [if_pos (h.str.2 hs), if_pos (show (noStr || decide (max < len)) = true by simp [hs])]; exact Writes.pure _
    · rw [if_neg (fun e => hs (h.str.1 e)), h.max (by simpa using hs)]
      simp only
      by_cases hl : len > max
      · rw [if_pos hl, if_pos (show (noStr || decide (max < len)) = true by simp; exact Or.inr hl)]
        split <;> exact Writes.pure _
      · rw [if_neg hl, if_pos h.bpe, if_neg (show ¬ (noStr || decide (max < len)) = true by simp [hs]; omega)]
        unfold replaceInString
        by_cases hn : noUnicode = true
        · rw [if_pos (h.nonEng.2 hn), if_pos hn]
          refine (Writes.lift _).bind (as := []) fun s l hl => ?_
          change ((pySplit ' ' (strList u ts)).mapM (fun t => replaceNonAsciiSeqs t Ph.nonAsciiSeq) >>= fun parts => Except.ok (pyJoin Ph.spaceInStr parts)) = .ok s at hl
          cases hm : (pySplit ' ' (strList u ts)).mapM (fun t => replaceNonAsciiSeqs t Ph.nonAsciiSeq) with
          | error e => rw [hm] at hl; cases hl
          | ok parts =>
            rw [hm] at hl
            cases hl
            rw [replaced_map _ _ hm]
            exact (Writes.look f _).map _
        · rw [if_neg (fun e => hn (h.nonEng.1 e)), if_neg hn]
          refine (Writes.lift _).bind (as := []) fun s l hl => ?_
          cases hl
          exact (Writes.look f _).map _

theorem toreprFrom_writes (u : Ucd) (h : BpeTypes rc noStr noCom noUnicode max) (acc : List Str) (md : Meta) (ts : List Tok) :
    Writes (toreprFrom (recording f) u rc false acc md ts) (asksAll u noStr noCom noUnicode max ts) := by
  cases ts with
  | nil => simp only [toreprFrom, asksAll]; exact Writes.pure _
  | cons t r =>
    rw [toreprFrom, asksAll]
    · exact (torepr_writes u h t).bind fun x _ _ => (Writes.lift _).bind (as := []) fun md' _ _ => toreprFrom_writes u h _ md' r
    · simp
end

theorem toReprBpe_writes (u : Ucd) (h : BpeTypes rc noStr noCom noUnicode max) (ts : List Tok) :
    Writes (toReprBpe (recording f) u rc ts) (asksAll u noStr noCom noUnicode max ts) := by
  unfold toReprBpe
  have := (toreprFrom_writes f u h [] Meta.empty ts).bind
    (k := fun x => (Verif.Wear.lift (insertWordEnds x.1 (x.2.bounds.drop 1)) >>= fun l' => Pure.pure (l', x.2)))
    (bs := []) fun a _ _ => (Writes.lift _).map _
  rw [List.append_nil] at this
  exact this

/-! ## A cache that wears -/

theorem lookUp_fst (w : Str) (s : BpeState) : (lookUp w s).1 = s.subwords w := by
  rcases s with ⟨c, m⟩
  cases c with
  | none => cases m <;> rfl
  | some c =>
    cases m with
    | none =>
      simp only [lookUp, BpeState.subwords]
      cases hg : c.get? (escape w true) with
      | none =>
        simp only
        cases encodeNoMerges (escape w true) with
        | error e => rfl
        | ok r => simp only [bind, Except.bind]; cases unescape r <;> rfl
      | some l =>
        simp only
        cases unescape l <;> rfl
    | some m =>
      simp only [lookUp, BpeState.subwords, getBpeSubwords, getBpeSubwordsSt]
      cases hg : c.get? (escape w true) with
      | none =>
        simp only
        cases encodeWord (escape w true) m with
        | error e => rfl
        | ok r => simp only [bind, Except.bind]; cases unescape r <;> rfl
      | some l =>
        simp only
        cases unescape l <;> rfl

/-- The entry of a word. -/
def entry (s : BpeState) (w : Str) : Option (List Str) := s.cache.bind fun c => c.get? (escape w true)

/-- What a lookup leaves of the entry. -/
def wornEntry (l : List Str) : List Str :=
  match unescape l with
  | .ok r => r.2
  | .error _ => l

theorem entry_same (w : Str) (s : BpeState) : entry (lookUp w s).2 w = (entry s w).map wornEntry := by
  rcases s with ⟨c, m⟩
  cases c with
  | none => rfl
  | some c =>
    simp only [lookUp, entry, Option.bind]
    cases hg : c.get? (escape w true) with
    | none => cases m <;> simp [hg]
    | some l =>
      simp only [Option.map_some, wornEntry]
      cases hu : unescape l with
      | error e => simp [hg]
      | ok r => rcases r with ⟨a, b⟩; simp [Dict.get?_set]

theorem entry_other (w v : Str) (s : BpeState) (h : v ≠ w) : entry (lookUp w s).2 v = entry s v := by
  rcases s with ⟨c, m⟩
  cases c with
  | none => rfl
  | some c =>
    simp only [lookUp, entry, Option.bind]
    cases hg : c.get? (escape w true) with
    | none => cases m <;> rfl
    | some l =>
      simp only
      cases hu : unescape l with
      | error e => rfl
      | ok r =>
        rcases r with ⟨a, b⟩
        simp only [Dict.get?_set]
        rw [if_neg fun e => h (escape_inj e).symm]

theorem lookUp_merges (w : Str) (s : BpeState) : (lookUp w s).2.merges = s.merges ∧ ((lookUp w s).2.cache = none ↔ s.cache = none) := by
  rcases s with ⟨c, m⟩
  cases c with
  | none => exact ⟨rfl, Iff.rfl⟩
  | some c =>
    simp only [lookUp]
    cases hg : c.get? (escape w true) with
    | none => cases m <;> simp
    | some l =>
      simp only
      cases hu : unescape l with
      | error e => simp
      | ok r => simp

/-- The data after lookups. -/
def after (s : BpeState) (ws : List Str) : BpeState := ws.foldl (fun s w => (lookUp w s).2) s

theorem after_append (s : BpeState) (a b : List Str) : after s (a ++ b) = after (after s a) b := by simp [after]

theorem after_cons (s : BpeState) (w : Str) (b : List Str) : after s (w :: b) = after (lookUp w s).2 b := rfl

theorem entry_after (s : BpeState) (ws : List Str) (w : Str) (h : w ∉ ws) : entry (after s ws) w = entry s w := by
  induction ws generalizing s with
  | nil => rfl
  | cons v r ih =>
    rw [after_cons, ih _ (fun e => h (List.mem_cons_of_mem _ e)), entry_other v w s (fun e => h (e ▸ List.mem_cons_self))]

theorem entry_none (s : BpeState) (ws : List Str) (w : Str) (h : entry s w = none) : entry (after s ws) w = none := by
  induction ws generalizing s with
  | nil => exact h
  | cons v r ih =>
    rw [after_cons]
    apply ih
    by_cases e : w = v
    · subst e; rw [entry_same, h]; rfl
    · rw [entry_other v w s e, h]

theorem after_merges (s : BpeState) (ws : List Str) : (after s ws).merges = s.merges ∧ ((after s ws).cache = none ↔ s.cache = none) := by
  induction ws generalizing s with
  | nil => exact ⟨rfl, Iff.rfl⟩
  | cons v r ih =>
    rw [after_cons]
    have h := ih (lookUp v s).2
    have h' := lookUp_merges v s
    exact ⟨h.1.trans h'.1, h.2.trans h'.2⟩

/-- What a lookup returns depends on the entry and on the merges. -/
theorem lookUp_congr (w : Str) (s t : BpeState) (he : entry s w = entry t w) (hm : s.merges = t.merges) (hc : s.cache = none ↔ t.cache = none) :
    (lookUp w s).1 = (lookUp w t).1 := by
  rcases s with ⟨c, m⟩
  rcases t with ⟨c', m'⟩
  cases hm
  cases c with
  | none =>
    have : c' = none := hc.1 rfl
    subst this
    rfl
  | some c =>
    cases c' with
    | none => exact absurd (hc.2 rfl) (by simp)
    | some c' =>
      simp only [entry, Option.bind] at he
      simp only [lookUp]
      rw [he]
      cases c'.get? (escape w true) with
      | none => cases m <;> rfl
      | some l =>
        simp only
        cases unescape l <;> rfl

theorem inCache_iff (s : BpeState) (w : Str) : InCache s w ↔ entry s w ≠ none := by
  rcases s with ⟨c, m⟩
  cases c with
  | none => simp [InCache, entry]
  | some c => simp [InCache, entry, Option.ne_none_iff_exists']

theorem undouble_last (s : Str) (h : s.getLast? = some '@') : (undoubleEsc s).getLast? = some '@' := by
  induction s using undoubleEsc.induct with
  | case1 => exact h
  | case2 c => exact h
  | case3 c d r hc ih =>
    rw [undoubleEsc, if_pos hc]
    cases r with
    | nil => rfl
    | cons x y =>
      have h' : (x :: y).getLast? = some '@' := by simpa [List.getLast?_cons_cons] using h
      have := ih h'
      cases hu : undoubleEsc (x :: y) with
      | nil => rw [hu] at this; cases this
      | cons p q => rw [hu] at this; rw [List.getLast?_cons_cons]; exact this
  | case4 c d r hc ih =>
    rw [undoubleEsc, if_neg hc]
    have h' : (d :: r).getLast? = some '@' := by simpa [List.getLast?_cons_cons] using h
    have := ih h'
    cases hu : undoubleEsc (d :: r) with
    | nil => rw [hu] at this; cases this
    | cons p q => rw [hu] at this; rw [List.getLast?_cons_cons]; exact this

/-- The second lookup of a word fails. -/
theorem second_fails (l : List Str) (r : List Str × List Str) (hu : unescape l = .ok r) (hw : r.1.flatten.getLast? ≠ some '@') :
    CacheError (unescape r.2) := by
  unfold unescape at hu
  cases hl : l.getLast? with
  | none => rw [hl] at hu; cases hu
  | some p =>
    rw [hl] at hu
    simp only at hu
    cases hp : p.getLast? with
    | none => rw [hp] at hu; cases hu
    | some c =>
      rw [hp] at hu
      simp only at hu
      split at hu
      · cases hu
      · cases hu
        simp only at hw ⊢
        simp only [List.map_append, List.map_cons, List.map_nil, List.flatten_append, List.flatten_cons, List.flatten_nil, List.append_nil] at hw
        unfold unescape
        rw [List.getLast?_concat]
        simp only
        cases hd : p.dropLast.getLast? with
        | none => exact Or.inr rfl
        | some x =>
          simp only
          by_cases hx : x = escChar
          · exfalso
            apply hw
            rw [List.getLast?_append, undouble_last p.dropLast (by rw [hd, hx]; rfl)]
            rfl
          · rw [if_pos hx]; exact Or.inl rfl

variable {s0 : BpeState}

theorem repeats_mono {a b : List Str} (h : a <+: b) (hr : Repeats s0 a) : Repeats s0 b := by
  obtain ⟨w, hw, hc⟩ := hr
  exact ⟨w, hw, Nat.le_trans hc (h.sublist.count_le w)⟩

theorem look_once (w : Str) (l : List Str) (h : ¬ Repeats s0 (l ++ [w])) : lookUp w (after s0 l) = (s0.subwords w, after s0 (l ++ [w])) := by
  have hm := after_merges s0 l
  have he : entry (after s0 l) w = entry s0 w := by
    by_cases hc : entry s0 w = none
    · rw [hc]; exact entry_none s0 l w hc
    · apply entry_after
      intro hw
      apply h
      refine ⟨w, (inCache_iff s0 w).2 hc, ?_⟩
      rw [List.count_append, List.count_singleton_self]
      have := List.count_pos_iff.2 hw
      omega
  refine Prod.ext ?_ ?_
  · exact (lookUp_congr w _ _ he hm.1 hm.2).trans (lookUp_fst w s0)
  · rw [after_append]; rfl

theorem look_twice (w : Str) (l : List Str) (h : ¬ Repeats s0 l) (hr : Repeats s0 (l ++ [w])) (hs : SoundFor s0 w) :
    CacheError (lookUp w (after s0 l)).1 := by
  obtain ⟨v, hv, hc⟩ := hr
  have hvw : v = w := by
    by_cases e : v = w
    · exact e
    · exfalso
      apply h
      refine ⟨v, hv, ?_⟩
      rw [List.count_append, List.count_eq_zero_of_not_mem (fun m => e (List.mem_singleton.1 m))] at hc
      omega
  subst hvw
  rw [List.count_append, List.count_singleton_self] at hc
  have hmem : v ∈ l := List.count_pos_iff.1 (by omega)
  have h1 : l.count v < 2 := Nat.lt_of_not_le fun e => h ⟨v, hv, e⟩
  obtain ⟨a, b, rfl⟩ := List.append_of_mem hmem
  rw [List.count_append, List.count_cons_self] at h1
  have ha : v ∉ a := fun m => by have := List.count_pos_iff.2 m; omega
  have hb : v ∉ b := fun m => by have := List.count_pos_iff.2 m; omega
  have he : entry (after s0 (a ++ v :: b)) v = (entry s0 v).map wornEntry := by
    rw [after_append, after_cons, entry_after _ b v hb, entry_same, entry_after _ a v ha]
  obtain ⟨c, l, hcache, hget⟩ := hv
  obtain ⟨r, hu, hf⟩ := hs.1 c l hcache hget
  have h0 : entry s0 v = some l := by simp [entry, hcache, hget]
  have hw : wornEntry l = r.2 := by unfold wornEntry; rw [hu]
  rw [h0, Option.map_some, hw] at he
  have hbad := second_fails l r hu (by rw [hf]; exact hs.2)
  generalize after s0 (a ++ v :: b) = st at he
  rcases st with ⟨c', m'⟩
  cases c' with
  | none => cases he
  | some c' =>
    simp only [entry, Option.bind] at he
    simp only [lookUp, he]
    rcases hbad with e | e <;> rw [e]
    · exact Or.inl rfl
    · exact Or.inr rfl

/-- Lookups in a cache that wears, compared with lookups that are only written down. -/
def Wears (s0 : BpeState) (α : Type) (m1 : Comp (List Str) α) (m2 : Comp BpeState α) : Prop :=
  ∀ l, l <+: (m1 l).2 ∧ (¬ Repeats s0 l →
    (¬ Repeats s0 (m1 l).2 → m2 (after s0 l) = ((m1 l).1, after s0 (m1 l).2)) ∧
    (Repeats s0 (m1 l).2 → (∀ w ∈ (m1 l).2, InCache s0 w → SoundFor s0 w) → CacheError (m2 (after s0 l)).1))

theorem wears_closed (s0 : BpeState) : Closed (Wears s0) (recording s0.subwords) lookUp where
  lift := fun α x l => ⟨List.prefix_refl l, fun h => ⟨fun _ => rfl, fun h' => absurd h' h⟩⟩
  bind := by
    intro α β m1 m2 k1 k2 hm hk l
    obtain ⟨hp, hl⟩ := hm l
    change l <+: (Comp.bind m1 k1 l).2 ∧ (_ → (¬ Repeats s0 (Comp.bind m1 k1 l).2 → Comp.bind m2 k2 _ = ((Comp.bind m1 k1 l).1, after s0 (Comp.bind m1 k1 l).2)) ∧
      (Repeats s0 (Comp.bind m1 k1 l).2 → (∀ w ∈ (Comp.bind m1 k1 l).2, _) → CacheError (Comp.bind m2 k2 _).1))
    unfold Comp.bind
    rcases h1 : m1 l with ⟨x, l'⟩
    rw [h1] at hp hl
    simp only at hp hl
    cases x with
    | error e =>
      refine ⟨hp, fun h => ⟨fun h' => ?_, fun h' hs => ?_⟩⟩
      · rw [(hl h).1 h']
      · have := (hl h).2 h' hs
        rcases h2 : m2 (after s0 l) with ⟨y, s'⟩
        rw [h2] at this
        rcases this with e | e <;> (simp only at e; subst e)
        · exact Or.inl rfl
        · exact Or.inr rfl
    | ok a =>
      obtain ⟨hp', hl'⟩ := hk a l'
      simp only
      refine ⟨hp.trans hp', fun h => ⟨fun h' => ?_, fun h' hs => ?_⟩⟩
      · have h0 : ¬ Repeats s0 l' := fun e => h' (repeats_mono hp' e)
        rw [(hl h).1 h0]
        exact (hl' h0).1 h'
      · by_cases h0 : Repeats s0 l'
        · have := (hl h).2 h0 fun w hw => hs w (hp'.subset hw)
          rcases h2 : m2 (after s0 l) with ⟨y, s'⟩
          rw [h2] at this
          rcases this with e | e <;> (simp only at e; subst e)
          · exact Or.inl rfl
          · exact Or.inr rfl
        · rw [(hl h).1 h0]
          exact (hl' h0).2 h' hs
  look := by
    intro w l
    refine ⟨List.prefix_append _ _, fun h => ⟨fun h' => look_once w l h', fun h' hs => ?_⟩⟩
    refine look_twice w l h h' ?_
    obtain ⟨v, hv, hc⟩ := h'
    change 2 ≤ List.count v (l ++ [w]) at hc
    have : v = w := by
      by_cases e : v = w
      · exact e
      · exfalso
        apply h
        refine ⟨v, hv, ?_⟩
        rw [List.count_append, List.count_eq_zero_of_not_mem (fun m => e (List.mem_singleton.1 m))] at hc
        omega
    subst this
    exact hs v (List.mem_append_right _ (List.mem_singleton.2 rfl)) hv

/-! ## The splitters of the configuration are not used -/

theorem subRepr_with (look : Str → Comp σ (List Str)) (u : Ucd) (rc : ReprConfig) (s : Subtok) : subRepr look u (withSplitter rc f) s = subRepr look u rc s := by
  cases s <;> rfl

theorem subtoksRepr_with (look : Str → Comp σ (List Str)) (u : Ucd) (rc : ReprConfig) (subs : List Subtok) (acc : List Str) :
    subtoksRepr look u (withSplitter rc f) acc subs = subtoksRepr look u rc acc subs := by
  induction subs generalizing acc with
  | nil => rfl
  | cons s r ih => simp only [subtoksRepr, subRepr_with, ih]

theorem subtoksJoin_with (look : Str → Comp σ (List Str)) (u : Ucd) (rc : ReprConfig) (subs : List Subtok) :
    subtoksJoin look u (withSplitter rc f) subs = subtoksJoin look u rc subs := by
  induction subs with
  | nil => rfl
  | cons s r ih => simp only [subtoksJoin, subRepr_with, ih]

theorem splitRepr_with (look : Str → Comp σ (List Str)) (u : Ucd) (rc : ReprConfig) (subs : List Subtok) :
    splitRepr look u (withSplitter rc f) subs = splitRepr look u rc subs := by
  simp only [splitRepr, subtoksRepr_with, subtoksJoin_with]
  rfl

theorem nonEngRepr_with (look : Str → Comp σ (List Str)) (u : Ucd) (rc : ReprConfig) (subs : List Subtok) :
    nonEngRepr look u (withSplitter rc f) subs = nonEngRepr look u rc subs := by
  simp only [nonEngRepr, splitRepr_with]
  rfl

mutual
theorem torepr_with (look : Str → Comp σ (List Str)) (u : Ucd) (rc : ReprConfig) (t : Tok) :
    torepr look u (withSplitter rc f) t = torepr look u rc t := by
  cases t with
  | split subs => simp only [torepr]; exact splitRepr_with f look u rc subs
  | nonEng subs => simp only [torepr]; exact nonEngRepr_with f look u rc subs
  | oneLineComment ts => simp only [torepr, toreprFrom_with look u rc false [] Meta.empty ts]; rfl
  | multilineComment ts => simp only [torepr, toreprFrom_with look u rc false [] Meta.empty ts]; rfl
  | stringLiteral ts len => simp only [torepr, toreprFrom_with look u rc true [] Meta.empty ts]; rfl
  | _ => simp only [torepr]; rfl

theorem toreprFrom_with (look : Str → Comp σ (List Str)) (u : Ucd) (rc : ReprConfig) (sk : Bool) (acc : List Str) (md : Meta) (ts : List Tok) :
    toreprFrom look u (withSplitter rc f) sk acc md ts = toreprFrom look u rc sk acc md ts := by
  cases ts with
  | nil => simp only [toreprFrom]
  | cons t r =>
    have key : (torepr look u (withSplitter rc f) t >>= fun x => lift (md.update x.2) >>= fun md' => toreprFrom look u (withSplitter rc f) sk (acc ++ x.1) md' r)
        = (torepr look u rc t >>= fun x => lift (md.update x.2) >>= fun md' => toreprFrom look u rc sk (acc ++ x.1) md' r) := by
      rw [torepr_with look u rc t]
      congr 1
      funext x
      congr 1
      funext md'
      exact toreprFrom_with look u rc sk _ md' r
    have skip := toreprFrom_with look u rc sk acc md r
    cases sk with
    | false => rw [toreprFrom, toreprFrom]; exact key; all_goals simp
    | true =>
      cases t with
      | spaceInString n => rw [toreprFrom, toreprFrom]; exact skip
      | _ => rw [toreprFrom, toreprFrom]; exact key; all_goals simp
end

theorem toReprBpe_with (look : Str → Comp σ (List Str)) (u : Ucd) (rc : ReprConfig) (ts : List Tok) :
    toReprBpe look u (withSplitter rc f) ts = toReprBpe look u rc ts := by
  simp only [toReprBpe, toreprFrom_with]

/-! ## Several texts -/

/-- Texts one after the other. -/
def files (look : Str → Comp σ (List Str)) (u : Ucd) (rc : ReprConfig) : List (List Tok) → Comp σ (List (List Str × Meta))
  | [] => pure []
  | ts :: r => do
    let x ← toReprBpe look u rc ts
    let xs ← files look u rc r
    pure (x :: xs)

theorem files_rel (h : Closed P l1 l2) (u : Ucd) (rc : ReprConfig) (fs : List (List Tok)) : P _ (files l1 u rc fs) (files l2 u rc fs) := by
  induction fs with
  | nil => exact h.pure _
  | cons ts r ih => exact h.bind _ _ _ _ _ _ (toReprBpe_rel h u rc ts) fun x => h.bind _ _ _ _ _ _ ih fun xs => h.pure _

theorem files_plain (u : Ucd) (rc : ReprConfig) (fs : List (List Tok)) :
    files (σ := σ) (plainly f) u rc fs = lift (fs.mapM (toReprPlain u rc f)) := by
  induction fs with
  | nil => rfl
  | cons ts r ih =>
    rw [files, toReprBpe_plain, ih, List.mapM_cons, ← lift_bind]
    congr 1
    funext x
    rw [← lift_bind]
    rfl

theorem files_writes (u : Ucd) (h : BpeTypes rc noStr noCom noUnicode max) (fs : List (List Tok)) :
    Writes (files (recording f) u rc fs) (fs.flatMap (asksAll u noStr noCom noUnicode max)) := by
  induction fs with
  | nil => exact Writes.pure _
  | cons ts r ih =>
    rw [List.flatMap_cons]
    exact (toReprBpe_writes f u h ts).bind fun x _ _ => ih.map _

theorem files_recorded (u : Ucd) (rc : ReprConfig) (fs : List (List Tok)) (l : List Str) :
    (files (recording f) u rc fs l).1 = fs.mapM (toReprPlain u rc f) := by
  have h := files_rel (recording_plain f) u rc fs l
  rw [h, files_plain]
  rfl

/-- The result of code that looks up words, compared with lookups without an effect. -/
theorem wears_result {α : Type} {m1 : Comp (List Str) α} {m2 : Comp BpeState α} {as : List Str} (hw : Wears s0 α m1 m2) (ha : Writes m1 as)
    (l : List Str) :
    (¬ Repeats s0 (l ++ as) → (m2 (after s0 l)).1 = (m1 l).1 ∧ ∀ x, (m1 l).1 = .ok x → (m2 (after s0 l)).2 = after s0 (l ++ as)) ∧
    (¬ Repeats s0 l → Repeats s0 (l ++ as) → (∀ w ∈ l ++ as, InCache s0 w → SoundFor s0 w) → (∃ x, (m1 l).1 = .ok x) → CacheError (m2 (after s0 l)).1) := by
  obtain ⟨hp, hl⟩ := hw l
  obtain ⟨hpre, hok⟩ := ha l
  refine ⟨fun h => ?_, fun h hr hs hx => ?_⟩
  · have h0 : ¬ Repeats s0 l := fun e => h (repeats_mono (List.prefix_append _ _) e)
    have h1 : ¬ Repeats s0 (m1 l).2 := fun e => h (repeats_mono hpre e)
    rw [(hl h0).1 h1]
    exact ⟨rfl, fun x hx => by rw [hok x hx]⟩
  · obtain ⟨x, hx⟩ := hx
    have e := hok x hx
    exact (hl h).2 (by rw [e]; exact hr) (by rw [e]; exact hs)

end Verif.Wear
