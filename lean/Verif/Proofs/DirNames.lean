import Verif.Spec.DirNames
import Verif.Spec.Registry
import Verif.Proofs.Registry
import Verif.Proofs.PrepConfig
import Verif.Proofs.FileList
/-!
# Names of directories
-/
namespace Verif
open Spec

theorem toStr_valid {c : PrepConfig} (h : c.Valid) : ∃ a b d e f g, c = ⟨[a], [b], [d], [e], [f], [g]⟩ ∧
    c.toStr = [a, b, d, e, f, g] ∧ (g = 'u' ∨ g = 'l') := by
  obtain ⟨a, h1⟩ := possible_single h.enOnly
  obtain ⟨b, h2⟩ := possible_single h.com
  obtain ⟨d, h3⟩ := possible_single h.str
  obtain ⟨e, h4⟩ := possible_single h.split
  obtain ⟨f, h5⟩ := possible_single h.tabs
  obtain ⟨g, h6⟩ := possible_single h.case
  have hg := h.case
  cases c
  simp only at h1 h2 h3 h4 h5 h6 hg
  subst h1 h2 h3 h4 h5 h6
  exact ⟨a, b, d, e, f, g, rfl, rfl, by simpa [possibleParamValues] using hg⟩

theorem toStr_length {c : PrepConfig} (h : c.Valid) : c.toStr.length = 6 := by
  obtain ⟨a, b, d, e, f, g, _, h2, _⟩ := toStr_valid h
  rw [h2]; rfl

theorem toStr_inj {c c' : PrepConfig} (h : c.Valid) (h' : c'.Valid) (he : c.toStr = c'.toStr) : c = c' := by
  obtain ⟨a, b, d, e, f, g, h1, h2, _⟩ := toStr_valid h
  obtain ⟨a', b', d', e', f', g', h1', h2', _⟩ := toStr_valid h'
  rw [h2, h2'] at he
  simp only [List.cons.injEq, and_true] at he
  obtain ⟨rfl, rfl, rfl, rfl, rfl, rfl⟩ := he
  rw [h1, h1']

theorem prepSuffix_last {c : PrepConfig} (h : c.Valid) (cu : Option (Str × Nat)) : ∃ x, (prepSuffix c cu).getLast? = some x ∧ x ≠ 'p' := by
  cases cu with
  | none =>
    obtain ⟨a, b, d, e, f, g, _, h2, h3⟩ := toStr_valid h
    refine ⟨g, by simp [prepSuffix, h2], ?_⟩
    rcases h3 with rfl | rfl <;> decide
  | some p =>
    obtain ⟨id, n⟩ := p
    refine ⟨(natStr n).getLast (natStr_ne_nil n), ?_, ?_⟩
    · have e : prepSuffix c (some (id, n)) = (c.toStr ++ '_' :: id ++ ['-']) ++ natStr n := by simp [prepSuffix]
      rw [e, List.getLast?_append, List.getLast?_eq_some_getLast (natStr_ne_nil n), Option.some_or]
    · intro hp
      have := natStr_digits n _ (List.getLast_mem (natStr_ne_nil n))
      rw [hp] at this
      revert this; decide

theorem prepSuffix_inj {c c' : PrepConfig} (h : c.Valid) (h' : c'.Valid) {cu cu' : Option (Str × Nat)}
    (he : prepSuffix c cu = prepSuffix c' cu') : c = c' ∧ cu = cu' := by
  have hl := toStr_length h
  have hl' := toStr_length h'
  have aux : ∀ x y : Str, c.toStr ++ x = c'.toStr ++ y → c = c' ∧ x = y := by
    intro x y hxy
    obtain ⟨h1, h2⟩ := List.append_inj hxy (by omega)
    exact ⟨toStr_inj h h' h1, h2⟩
  cases cu with
  | none =>
    cases cu' with
    | none => exact ⟨(aux [] [] (by simpa [prepSuffix] using he)).1, rfl⟩
    | some p =>
      have := congrArg List.length he
      simp [prepSuffix] at this
      omega
  | some p =>
    cases cu' with
    | none =>
      have := congrArg List.length he
      simp [prepSuffix] at this
      omega
    | some q =>
      obtain ⟨id, n⟩ := p
      obtain ⟨id', n'⟩ := q
      obtain ⟨h1, h2⟩ := aux ('_' :: id ++ '-' :: natStr n) ('_' :: id' ++ '-' :: natStr n') (by simpa [prepSuffix] using he)
      refine ⟨h1, ?_⟩
      have r1 := rsplitOnce_append ('_' :: id) (natStr n) (natStr_no (c := '-') (by decide))
      have r2 := rsplitOnce_append ('_' :: id') (natStr n') (natStr_no (c := '-') (by decide))
      rw [h2, r2] at r1
      simp only [Option.some.injEq, Prod.mk.injEq, List.cons.injEq, true_and] at r1
      rw [r1.1, natStr_inj r1.2]

/-! ## Names of datasets -/

theorem timestamp_no_underscore {t : Str} (h : IsTimestamp t) : '_' ∉ t := by
  obtain ⟨a, b, c, d, e, f, g, h', i, j, k, l, rfl, hx⟩ := h
  intro hm
  have hd : ∀ x ∈ [a, b, c, d, e, f, g, h', i, j, k, l], '_' ≠ x := by
    intro x hx' he
    have := hx x hx'
    rw [← he] at this
    revert this; decide
  simp only [List.mem_cons, List.not_mem_nil, or_false, forall_eq_or_imp, forall_eq] at hm hd
  obtain ⟨_, _, _, _, _, _, _, _, _, _, _, _⟩ := hd
  rcases hm with e | e | e | e | e | e | e | e | e | e | e | e | e | e | e | e | e <;> first | contradiction | exact absurd e (by decide)

theorem last_unique {α : Type} {P : α → Prop} {a b : α} : ∀ {x x' y y' : List α}, P a → P b → (∀ e ∈ y, ¬ P e) → (∀ e ∈ y', ¬ P e) →
    x ++ a :: y = x' ++ b :: y' → x = x' ∧ a = b ∧ y = y' := by
  intro x
  induction x with
  | nil =>
    intro x' y y' ha hb hy hy' he
    cases x' with
    | nil => simp at he; exact ⟨rfl, he.1, he.2⟩
    | cons c x' =>
      simp at he
      exact absurd hb (hy b (by rw [he.2]; simp))
  | cons d x ih =>
    intro x' y y' ha hb hy hy' he
    cases x' with
    | nil =>
      simp at he
      exact absurd ha (hy' a (by rw [← he.2]; simp))
    | cons c x' =>
      simp only [List.cons_append, List.cons.injEq] at he
      obtain ⟨h1, h2, h3⟩ := ih ha hb hy hy' he.2
      exact ⟨by rw [he.1, h1], h2, h3⟩

theorem pySplit_append {sep : Char} (s t : Str) : pySplit sep (s ++ sep :: t) = pySplit sep s ++ pySplit sep t := by
  induction s with
  | nil => simp [pySplit]
  | cons c s ih =>
    by_cases h : c = sep
    · simp [pySplit, h, ih]
    · cases hs : pySplit sep s with
      | nil => exact absurd hs (pySplit_ne_nil _ _)
      | cons p ps =>
        rw [hs] at ih
        rw [List.cons_append, pySplit_cons_ne h _ _ _ ih, pySplit_cons_ne h _ _ _ hs]
        rfl

theorem datasetDirName_eq (path ts : Str) (exts : Option (List Str)) :
    datasetDirName path ts exts = basename path ++ '_' :: pyJoin ['_'] (ts :: exts.getD []) := by
  unfold datasetDirName
  match exts with
  | none => simp [pyJoin]
  | some [] => simp [pyJoin]
  | some (e :: es) => simp [pyJoin]

/-! ## The directory of the base vocabulary -/

theorem isPrefixOf_append (t s : Str) : t.isPrefixOf (t ++ s) = true := by
  rw [List.isPrefixOf_iff_prefix]; exact List.prefix_append _ _

theorem cutSep_sep : ∀ (d r : Str), Absent "_-_".toList (d ++ "_-".toList) → cutSep (d ++ "_-_".toList ++ r) = (d, "_-_".toList ++ r) := by
  intro d r
  induction d with
  | nil => intro _; rfl
  | cons c d ih =>
    intro h
    have h' : Absent "_-_".toList (d ++ "_-".toList) := by
      rintro ⟨p, q, e⟩
      exact h ⟨c :: p, q, by rw [List.cons_append, e]; rfl⟩
    have hn : "_-_".toList.isPrefixOf (c :: (d ++ "_-_".toList ++ r)) = false := by
      cases hp : "_-_".toList.isPrefixOf (c :: (d ++ "_-_".toList ++ r)) with
      | false => rfl
      | true =>
        exfalso
        rw [List.isPrefixOf_iff_prefix] at hp
        have : "_-_".toList <+: c :: d ++ "_-".toList := by
          refine List.prefix_of_prefix_length_le hp (l₂ := c :: d ++ "_-".toList) ⟨"_".toList ++ r, ?_⟩ ?_
          · simp
          · simp
        obtain ⟨q, e⟩ := this
        exact h ⟨[], q, by simpa using e.symm⟩
    show cutSep (c :: (d ++ "_-_".toList ++ r)) = _
    unfold cutSep
    rw [hn, ih h']
    rfl

theorem cutSep_none : ∀ (d : Str), Absent "_-_".toList d → cutSep d = (d, []) := by
  intro d
  induction d with
  | nil => intro _; rfl
  | cons c d ih =>
    intro h
    have h' : Absent "_-_".toList d := by
      rintro ⟨p, q, e⟩
      exact h ⟨c :: p, q, by simp [e]⟩
    have hn : "_-_".toList.isPrefixOf (c :: d) = false := by
      cases hp : "_-_".toList.isPrefixOf (c :: d) with
      | false => rfl
      | true =>
        exfalso
        rw [List.isPrefixOf_iff_prefix] at hp
        obtain ⟨q, e⟩ := hp
        exact h ⟨[], q, by simpa using e.symm⟩
    unfold cutSep
    rw [hn, ih h']
    rfl

/-- The configurations that can be made. -/
theorem isBpeConfig_iff (b : BpeConfig) : IsBpeConfig b ↔ b.case = "yes".toList ∧
    (b.base = "all".toList ∨ b.base = "code".toList ∨ b.base = "java".toList) ∧
    (b.unicode = "yes".toList ∨ b.unicode = "no".toList ∨ b.unicode = "bytes".toList) := by
  unfold IsBpeConfig BpeConfig.make
  constructor
  · rintro ⟨c, w, ba, un, h⟩
    split at h
    · cases h
    · split at h
      · cases h
      · split at h
        · cases h
        · next h1 h2 h3 =>
          obtain rfl := Except.ok.inj h
          simp only [List.mem_cons, List.not_mem_nil, or_false, Decidable.not_not] at h1 h2 h3
          exact ⟨h1, h2, h3⟩
  · rintro ⟨h1, h2, h3⟩
    refine ⟨b.case, b.wordEnd, b.base, b.unicode, ?_⟩
    rw [if_neg, if_neg, if_neg]
    · simpa only [List.mem_cons, List.not_mem_nil, or_false, Decidable.not_not] using h3
    · simpa only [List.mem_cons, List.not_mem_nil, or_false, Decidable.not_not] using h2
    · simpa only [List.mem_cons, List.not_mem_nil, or_false, Decidable.not_not] using h1

theorem fromSuffix_toSuffix {b : BpeConfig} (h : IsBpeConfig b) (p : Str) (hp : p = [] ∨ p = "_-_".toList) :
    BpeConfig.fromSuffix (p ++ b.toSuffix) = .ok { b with base := "code".toList } := by
  obtain ⟨h1, -, h3⟩ := (isBpeConfig_iff b).mp h
  obtain ⟨c, w, ba, un⟩ := b
  simp only at h1 h3
  subst h1
  have e : ∀ x : Str, BpeConfig.toSuffix ⟨"yes".toList, w, ba, x⟩ = BpeConfig.toSuffix ⟨"yes".toList, w, [], x⟩ := fun _ => rfl
  rw [e]
  simp only
  have hc : contains (p ++ BpeConfig.toSuffix ⟨"yes".toList, w, [], un⟩) "nocase".toList = false := by
    rcases hp with rfl | rfl <;> rcases h3 with rfl | rfl | rfl <;> cases w <;> decide +kernel
  have hx : contains (p ++ BpeConfig.toSuffix ⟨"yes".toList, w, [], un⟩) "prefix".toList = false := by
    rcases hp with rfl | rfl <;> rcases h3 with rfl | rfl | rfl <;> cases w <;> decide +kernel
  have hw : contains (p ++ BpeConfig.toSuffix ⟨"yes".toList, w, [], un⟩) "we".toList = w := by
    rcases hp with rfl | rfl <;> rcases h3 with rfl | rfl | rfl <;> cases w <;> decide +kernel
  have hu : (if contains (p ++ BpeConfig.toSuffix ⟨"yes".toList, w, [], un⟩) "nounicode".toList then "no".toList
      else if contains (p ++ BpeConfig.toSuffix ⟨"yes".toList, w, [], un⟩) "bytes".toList then "bytes".toList
      else "yes".toList) = un := by
    rcases hp with rfl | rfl <;> rcases h3 with rfl | rfl | rfl <;> cases w <;> decide +kernel
  unfold BpeConfig.fromSuffix
  rw [hc, hx, hw, hu]
  rw [if_neg (Bool.false_ne_true), if_neg (Bool.false_ne_true)]
  unfold BpeConfig.make
  rw [if_neg (by decide), if_neg (by decide), if_neg]
  rcases h3 with rfl | rfl | rfl <;> decide

theorem newline_not_suffix {b : BpeConfig} (h : IsBpeConfig b) : '\n' ∉ b.toSuffix := by
  obtain ⟨h1, -, h3⟩ := (isBpeConfig_iff b).mp h
  obtain ⟨c, w, ba, un⟩ := b
  simp only at h1 h3
  subst h1
  have e : ∀ x : Str, BpeConfig.toSuffix ⟨"yes".toList, w, ba, x⟩ = BpeConfig.toSuffix ⟨"yes".toList, w, [], x⟩ := fun _ => rfl
  rw [e]
  rcases h3 with rfl | rfl | rfl <;> cases w <;> decide

end Verif
