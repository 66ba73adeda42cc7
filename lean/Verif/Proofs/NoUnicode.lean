import Verif.Spec.NoUnicode
import Verif.Proofs.Units
import Verif.Proofs.Regex
import Verif.Proofs.Dispatch
import Verif.Proofs.Congr
import Verif.Model.Text
/-!
# Characters of the output with the option `no_unicode`
-/
namespace Verif
open Spec

/-! ## Plain texts -/

theorem plain_nil : Plain [] := by intro c h; cases h

theorem plain_append {a b : Str} (ha : Plain a) (hb : Plain b) : Plain (a ++ b) := by
  intro c hc
  rcases List.mem_append.mp hc with h | h
  · exact ha c h
  · exact hb c h

theorem plain_cons {c : Char} {a : Str} (hc : PlainChar c) (ha : Plain a) : Plain (c :: a) :=
  plain_append (a := [c]) (by intro d hd; simp at hd; exact hd ▸ hc) ha

theorem Spec.Plain.sub {a b : Str} (hb : Plain b) (h : ∀ c ∈ a, c ∈ b) : Plain a := fun c hc => hb c (h c hc)

theorem plain_ascii {s : Str} (h : ∀ c ∈ s, isAscii c = true) : Plain s := by
  intro c hc
  have := h c hc
  unfold isAscii at this
  exact .inl (of_decide_eq_true this)

theorem plain_pyJoin {sep : Str} {l : List Str} (hs : Plain sep) (h : ∀ p ∈ l, Plain p) : Plain (pyJoin sep l) := by
  induction l with
  | nil => exact plain_nil
  | cons p r ih =>
    cases r with
    | nil => exact h p (by simp)
    | cons q r =>
      unfold pyJoin
      exact plain_append (plain_append (h p (by simp)) hs) (ih fun x hx => h x (by simp [hx]))

theorem plain_pySplit {sep : Char} {s : Str} (h : Plain s) : ∀ p ∈ pySplit sep s, Plain p := by
  induction s with
  | nil => intro p hp; simp [pySplit] at hp; subst hp; exact plain_nil
  | cons c r ih =>
    have hr : Plain r := h.sub (by simp +contextual)
    have hc : PlainChar c := h c (by simp)
    intro p hp
    unfold pySplit at hp
    split at hp
    · rcases List.mem_cons.mp hp with rfl | hp
      · exact plain_nil
      · exact ih hr p hp
    · split at hp
      · simp at hp; subst hp; exact plain_cons hc plain_nil
      · next q qs hq =>
        rcases List.mem_cons.mp hp with rfl | hp
        · exact plain_cons hc (ih hr q (by rw [hq]; simp))
        · exact ih hr p (by rw [hq]; simp [hp])

theorem plain_concat {l : List Str} (h : ∀ p ∈ l, Plain p) : Plain (concat l) := by
  induction l with
  | nil => exact plain_nil
  | cons p r ih => exact plain_append (h p (by simp)) (ih fun x hx => h x (by simp [hx]))

/-! ## BPE -/

theorem plain_toCharList {w : Str} {l : List Str} (hw : Plain w) (h : toCharList w = .ok l) : ∀ p ∈ l, Plain p := by
  induction w using toCharList.induct generalizing l with
  | case1 => simp [toCharList] at h; subst h; simp
  | case2 c => simp [toCharList] at h; subst h; simpa using hw
  | case3 c d r hc ih =>
    unfold toCharList at h
    rw [if_pos hc] at h
    cases ht : toCharList (d :: r) with
    | error e => simp [ht, bind, Except.bind] at h
    | ok t =>
      simp [ht, bind, Except.bind] at h
      subst h
      intro p hp
      rcases List.mem_cons.mp hp with rfl | hp
      · exact plain_cons (hw c (by simp)) plain_nil
      · exact ih (hw.sub (by simp +contextual)) ht p hp
  | case4 c r hc hd =>
    unfold toCharList at h
    rw [if_neg hc] at h
    simp only [if_true] at h
    cases ht : toCharList r with
    | error e => simp [ht, bind, Except.bind] at h
    | ok t =>
      simp [ht, bind, Except.bind] at h
      subst h
      intro p hp
      rcases List.mem_cons.mp hp with rfl | hp
      · exact hw.sub (by simp +contextual)
      · exact hd (hw.sub (by simp +contextual)) ht p hp
  | case5 c d r hc hd =>
    unfold toCharList at h
    rw [if_neg hc, if_neg hd] at h
    cases h

theorem plain_applyIndices {subs : List Str} (hs : ∀ p ∈ subs, Plain p) (is : List Nat) (start : Nat) (acc l : List Str)
    (ha : ∀ p ∈ acc, Plain p) (h : applyIndices subs is start acc = .ok l) : ∀ p ∈ l, Plain p := by
  induction is generalizing start acc with
  | nil =>
    simp only [applyIndices, Except.ok.injEq] at h
    subst h
    intro p hp
    rcases List.mem_append.mp hp with h | h
    · exact ha p h
    · exact hs p (List.mem_of_mem_drop h)
  | cons i r ih =>
    unfold applyIndices at h
    split at h
    · next a b h1 h2 =>
      refine ih _ _ ?_ h
      intro p hp
      simp only [List.mem_append, List.mem_singleton] at hp
      rcases hp with (hp | hp) | hp
      · exact ha p hp
      · exact hs p (List.mem_of_mem_drop (List.mem_of_mem_take hp))
      · subst hp
        exact plain_append (hs a (List.mem_of_getElem? h1)) (hs b (List.mem_of_getElem? h2))
    · cases h

theorem plain_encodeLoop {m : MergeList} (fuel : Nat) (subs l : List Str) (hs : ∀ p ∈ subs, Plain p)
    (h : encodeLoop m fuel subs = .ok l) : ∀ p ∈ l, Plain p := by
  induction fuel generalizing subs with
  | zero =>
    unfold encodeLoop at h
    simp only at h
    split at h
    · cases h; exact hs
    · cases h
  | succ n ih =>
    unfold encodeLoop at h
    simp only at h
    split at h
    · cases h; exact hs
    · cases ha : applyIndices subs (scanFrom m 0 subs ([], sysMaxsize)).1 0 [] with
      | error e => simp [ha, bind, Except.bind] at h
      | ok s' =>
        simp only [ha, bind, Except.bind] at h
        exact ih s' (plain_applyIndices hs _ _ _ _ (by simp) ha) h

theorem plainChar_space : PlainChar ' ' := by decide
theorem plainChar_esc : PlainChar escChar := by decide
theorem plain_space : Plain [' '] := by decide

theorem plain_encodeWord {w : Str} {m : MergeList} {l : List Str} (hw : Plain w) (h : encodeWord w m = .ok l) :
    ∀ p ∈ l, Plain p := by
  unfold encodeWord at h
  cases hc : toCharList w with
  | error e => simp [hc, bind, Except.bind] at h
  | ok cl =>
    simp only [hc, bind, Except.bind] at h
    have h1 : ∀ p ∈ pySplit ' ' (pyJoin [' '] cl), Plain p := plain_pySplit (plain_pyJoin plain_space (plain_toCharList hw hc))
    cases hl : encodeLoop m (pySplit ' ' (pyJoin [' '] cl)).length (pySplit ' ' (pyJoin [' '] cl)) with
    | error e => simp [hl] at h
    | ok r =>
      simp only [hl, Except.ok.injEq] at h
      subst h
      exact plain_pySplit (plain_pyJoin plain_space (plain_encodeLoop _ _ _ h1 hl))

theorem plain_undouble {s : Str} (h : Plain s) : Plain (undoubleEsc s) := by
  induction s using undoubleEsc.induct with
  | case1 => exact plain_nil
  | case2 c => exact h
  | case3 c d r hcd ih =>
    unfold undoubleEsc
    rw [if_pos hcd]
    exact plain_cons plainChar_esc (ih (h.sub (by simp +contextual)))
  | case4 c d r hcd ih =>
    unfold undoubleEsc
    rw [if_neg hcd]
    exact plain_cons (h c (by simp)) (ih (h.sub (by simp +contextual)))

theorem plain_unescape {l : List Str} {r : List Str × List Str} (hl : ∀ p ∈ l, Plain p) (h : unescape l = .ok r) :
    ∀ p ∈ r.1, Plain p := by
  unfold unescape at h
  split at h
  · cases h
  · next x hx =>
    split at h
    · cases h
    · split at h
      · cases h
      · simp only [Except.ok.injEq] at h
        subst h
        intro p hp
        obtain ⟨q, hq, rfl⟩ := List.mem_map.mp hp
        refine plain_undouble ?_
        rcases List.mem_append.mp hq with hq | hq
        · exact hl q (List.dropLast_subset _ hq)
        · simp at hq
          subst hq
          exact (hl x (List.mem_of_getLast? hx)).sub fun c hc => List.dropLast_subset _ hc

theorem plain_escape {w : Str} (h : Plain w) : Plain (escape w true) := by
  unfold escape
  simp only [if_true]
  refine plain_append ?_ (by decide)
  intro c hc
  unfold doubleEsc at hc
  obtain ⟨d, hd, hcd⟩ := List.mem_flatMap.mp hc
  split at hcd
  · simp at hcd; subst hcd; exact plainChar_esc
  · simp at hcd; subst hcd; exact h c hd

theorem plain_bpe {w : Str} {d : BpeData} {l : List Str} (hd : PlainCache d) (hw : Plain w) (h : getBpeSubwords w d = .ok l) :
    ∀ p ∈ l, Plain p := by
  unfold getBpeSubwords getBpeSubwordsSt at h
  simp only at h
  split at h
  · next r hr =>
    cases hu : unescape r with
    | error e => simp [hu, bind, Except.bind, Except.map] at h
    | ok x =>
      simp only [hu, bind, Except.bind, Except.map, Except.ok.injEq] at h
      subst h
      exact plain_unescape (hd _ _ hr) hu
  · cases he : encodeWord (escape w true) d.merges with
    | error e => simp [he, bind, Except.bind, Except.map] at h
    | ok r =>
      cases hu : unescape r with
      | error e => simp [he, hu, bind, Except.bind, Except.map] at h
      | ok x =>
        simp only [he, hu, bind, Except.bind, Except.map, Except.ok.injEq] at h
        subst h
        exact plain_unescape (plain_encodeWord (plain_escape hw) he) hu

/-! ## Replacing sequences -/

theorem plain_replaceLoop {ph : Str} (hp : Plain ph) (b : Bool) (acc w : Str) (ha : Plain acc) : Plain (replaceLoop ph b acc w) := by
  induction w generalizing b acc with
  | nil =>
    unfold replaceLoop
    split
    · exact plain_append ha hp
    · exact ha
  | cons c r ih =>
    unfold replaceLoop
    split
    · next hc =>
      refine ih _ _ (plain_append ?_ (plain_cons (.inl hc) plain_nil))
      split
      · exact plain_append ha hp
      · exact ha
    · exact ih _ _ ha

theorem plain_replace {w t : Str} (h : replaceNonAsciiSeqs w Ph.nonAsciiSeq = .ok t) : Plain t := by
  unfold replaceNonAsciiSeqs at h
  split at h
  · cases h
  · simp only [Except.ok.injEq] at h
    subst h
    exact plain_replaceLoop (by decide) _ _ _ plain_nil

theorem plain_mapM_replace (l r : List Str) (h : l.mapM (fun t => replaceNonAsciiSeqs t Ph.nonAsciiSeq) = .ok r) :
    ∀ p ∈ r, Plain p := by
  induction l generalizing r with
  | nil => cases h; simp
  | cons a l ih =>
    simp only [List.mapM_cons, bind, Except.bind, pure, Except.pure] at h
    cases ha : replaceNonAsciiSeqs a Ph.nonAsciiSeq with
    | error e => simp [ha] at h
    | ok t =>
      simp only [ha] at h
      cases hl : l.mapM (fun t => replaceNonAsciiSeqs t Ph.nonAsciiSeq) with
      | error e => simp [hl] at h
      | ok ts =>
        simp only [hl, Except.ok.injEq] at h
        subst h
        intro p hp
        rcases List.mem_cons.mp hp with rfl | hp
        · exact plain_replace ha
        · exact ih ts hl p hp

theorem plain_replaceInString {rc : ReprConfig} {s t : Str} (hn : Ty.nonEng ∈ rc.types) (h : replaceInString rc s = .ok t) :
    Plain t := by
  unfold replaceInString at h
  rw [if_pos hn] at h
  cases hm : (pySplit ' ' s).mapM (fun t => replaceNonAsciiSeqs t Ph.nonAsciiSeq) with
  | error e => simp only [hm, bind, Except.bind] at h; cases h
  | ok ps =>
    simp only [hm, bind, Except.bind, Except.ok.injEq] at h
    subst h
    exact plain_pyJoin (by decide) (plain_mapM_replace _ _ hm)

/-! ## Words -/

/-- The text of a part of a word. -/
def SubPlain : Subtok → Prop
  | .underscore => True
  | .word c _ => Plain c

theorem plain_mkWord {u : Ucd} {c : Str} {cap : Cap} {w : Subtok} (hc : Plain c) (h : mkWord u c cap = .ok w) : SubPlain w := by
  unfold mkWord at h
  split at h
  · split at h
    · cases h
    · cases h; exact hc
  · split at h
    · cases h
    · cases h; exact hc

theorem plain_wordFrom {env : Env} (hk : KeepsPlain env) {s : Str} {w : Subtok} (hs : Plain s) (h : wordFrom env.ucd s = .ok w) :
    SubPlain w := by
  unfold wordFrom at h
  split at h
  · cases h
  · next c r =>
    split at h
    · exact plain_mkWord hs h
    · split at h
      · exact plain_mkWord (hk.lower _ hs) h
      · split at h
        · exact plain_mkWord (plain_append (hk.lower _ (hs.sub (by simp))) (hs.sub (by simp +contextual))) h
        · exact plain_mkWord hs h

theorem plain_preserved {env : Env} (hk : KeepsPlain env) {c : Str} (cap : Cap) (hc : Plain c) :
    Plain (withPreservedCase env.ucd c cap) := by
  cases cap
  · exact hc
  · exact hc
  · exact hk.capitalize _ hc
  · exact hk.upper _ hc

theorem plain_subStr {env : Env} (hk : KeepsPlain env) {s : Subtok} (hs : SubPlain s) : Plain (s.str env.ucd) := by
  cases s with
  | underscore => show Plain ['_']; decide
  | word c cap => exact plain_preserved hk cap hs

theorem plain_splitStr {env : Env} (hk : KeepsPlain env) {subs : List Subtok} (h : ∀ s ∈ subs, SubPlain s) :
    Plain (splitStr env.ucd subs) := by
  refine plain_concat ?_
  intro p hp
  obtain ⟨s, hs, rfl⟩ := List.mem_map.mp hp
  exact plain_subStr hk (h s hs)

/-! ## Representation -/

/-- The splitters deliver plain pieces for plain texts. -/
structure PlainRc (rc : ReprConfig) : Prop where
  number : ∀ v l, Plain v → rc.numberSplitter v = .ok l → ∀ p ∈ l, Plain p
  word : ∀ v l, Plain v → rc.splitWord v = .ok l → ∀ p ∈ l, Plain p
  nonEng : Ty.nonEng ∈ rc.types

/-- Texts that are not replaced are plain. -/
def CleanTok : Tok → Prop
  | .number v => Plain v
  | .keyWord s => Plain s
  | .operator s => Plain s
  | .nonCodeChar s => Plain s
  | .specialToken s => Plain s
  | .split subs => ∀ s ∈ subs, SubPlain s
  | _ => True

/-- All pieces of full tokens are plain. -/
def PlainUnits (us : List FullTok) : Prop := ∀ x ∈ us, ∀ p ∈ x.subs, Plain p

section
variable {env : Env} (hk : KeepsPlain env) {rc : ReprConfig} (hrc : PlainRc rc)

theorem plainUnits_one {ty : Ty} {subs np : List Str} (h : ∀ p ∈ subs, Plain p) : PlainUnits [⟨ty, subs, np⟩] := by
  intro x hx
  simp at hx
  subst hx
  exact h

include hk hrc

theorem plain_subRepr {s : Subtok} {l : List Str} (hs : SubPlain s) (h : s.repr env.ucd rc = .ok l) : ∀ p ∈ l, Plain p := by
  cases s with
  | underscore =>
    unfold Subtok.repr at h
    simp only at h
    split at h
    · cases h
    · cases h
      intro p hp
      simp at hp
      subst hp
      decide
  | word c cap =>
    unfold Subtok.repr at h
    simp only at h
    split at h
    · split at h
      · cases hw : rc.splitWord c with
        | error e => simp [hw, bind, Except.bind] at h
        | ok ws =>
          simp only [hw, bind, Except.bind, Except.ok.injEq] at h
          subst h
          have := hrc.word c ws hs hw
          intro p hp
          cases cap
          · exact this p hp
          · exact this p hp
          · rcases List.mem_cons.mp hp with rfl | hp
            · decide
            · exact this p hp
          · rcases List.mem_cons.mp hp with rfl | hp
            · decide
            · exact this p hp
      · exact hrc.word _ _ (plain_preserved hk cap hs) h
    · cases h
      intro p hp
      simp at hp
      subst hp
      exact plain_preserved hk cap hs

theorem plain_subtoksRepr {subs : List Subtok} (acc l : List Str) (hs : ∀ s ∈ subs, SubPlain s) (ha : ∀ p ∈ acc, Plain p)
    (h : subtoksRepr env.ucd rc acc subs = .ok l) : ∀ p ∈ l, Plain p := by
  induction subs generalizing acc with
  | nil => cases h; exact ha
  | cons s r ih =>
    unfold subtoksRepr at h
    cases hx : s.repr env.ucd rc with
    | error e => simp [hx, bind, Except.bind] at h
    | ok x =>
      simp only [hx, bind, Except.bind] at h
      refine ih _ (fun s hs' => hs s (by simp [hs'])) ?_ h
      intro p hp
      rcases List.mem_append.mp hp with hp | hp
      · exact ha p hp
      · exact plain_subRepr hk hrc (hs s (by simp)) hx p hp

theorem plain_subtoksJoin {subs : List Subtok} (t : Str) (hs : ∀ s ∈ subs, SubPlain s)
    (h : subtoksJoin env.ucd rc subs = .ok t) : Plain t := by
  induction subs generalizing t with
  | nil => cases h; exact plain_nil
  | cons s r ih =>
    unfold subtoksJoin at h
    cases hx : s.repr env.ucd rc with
    | error e => simp [hx, bind, Except.bind] at h
    | ok x =>
      simp only [hx, bind, Except.bind] at h
      have hxp := plain_subRepr hk hrc (hs s (by simp)) hx
      cases x with
      | nil => cases h
      | cons a x =>
        simp only at h
        cases ht : subtoksJoin env.ucd rc r with
        | error e => simp [ht] at h
        | ok t' =>
          simp only [ht, Except.ok.injEq] at h
          subst h
          exact plain_append (hxp a (by simp)) (ih t' (fun s hs' => hs s (by simp [hs'])) ht)

theorem plain_splitUnits {subs : List Subtok} {us : List FullTok} (hs : ∀ s ∈ subs, SubPlain s)
    (h : splitUnits env.ucd rc subs = .ok us) : PlainUnits us := by
  unfold splitUnits at h
  split at h
  · split at h
    · cases hw : rc.splitWord (splitStr env.ucd subs) with
      | error e => simp [hw, bind, Except.bind] at h
      | ok ws =>
        simp only [hw, bind, Except.bind, Except.ok.injEq] at h
        subst h
        exact plainUnits_one (hrc.word _ _ (plain_splitStr hk hs) hw)
    · cases hw : subtoksRepr env.ucd rc [] subs with
      | error e => simp [hw, bind, Except.bind] at h
      | ok ws =>
        simp only [hw, bind, Except.bind, Except.ok.injEq] at h
        subst h
        have := plain_subtoksRepr hk hrc [] ws hs (by simp) hw
        refine plainUnits_one ?_
        have wrap : wrapInWordBoundaries ws = ws ∨ wrapInWordBoundaries ws = [Ph.wordStart] ++ ws ++ [Ph.wordEnd] := by
          unfold wrapInWordBoundaries
          generalize (_ || _ : Bool) = b
          cases b <;> simp
        rcases wrap with hb | hb
        · rw [hb]; exact this
        · rw [hb]
          intro p hp
          simp only [List.cons_append, List.nil_append, List.mem_cons, List.mem_append, List.not_mem_nil, or_false] at hp
          rcases hp with rfl | hp | rfl
          · decide
          · exact this p hp
          · decide
  · cases hw : subtoksJoin env.ucd rc subs with
    | error e => simp [hw, bind, Except.bind] at h
    | ok t =>
      simp only [hw, bind, Except.bind, Except.ok.injEq] at h
      subst h
      refine plainUnits_one ?_
      intro p hp
      simp at hp
      subst hp
      exact plain_subtoksJoin hk hrc _ hs hw

theorem plain_nonEngUnits {subs : List Subtok} {us : List FullTok} (h : nonEngUnits env.ucd rc subs = .ok us) : PlainUnits us := by
  unfold nonEngUnits at h
  rw [if_pos hrc.nonEng] at h
  split at h
  · cases hr : replaceNonAsciiSeqs (splitStr env.ucd subs) Ph.nonAsciiSeq with
    | error e => simp [hr, bind, Except.bind] at h
    | ok t =>
      simp only [hr, bind, Except.bind] at h
      cases hf : wordFrom env.ucd t with
      | error e => simp [hf] at h
      | ok w =>
        simp only [hf] at h
        refine plain_splitUnits hk hrc ?_ h
        intro s hs
        simp at hs
        subst hs
        exact plain_wordFrom hk (plain_replace hr) hf
  · cases h
    refine plainUnits_one ?_
    intro p hp
    simp at hp
    subst hp
    decide

omit hk in
theorem plain_numberUnits {ty : Ty} {v : Str} {us : List FullTok} (hv : Plain v) (h : numberUnits rc ty v = .ok us) :
    PlainUnits us := by
  unfold numberUnits at h
  split at h
  · cases hs : rc.numberSplitter v with
    | error e => simp [hs, bind, Except.bind] at h
    | ok l =>
      simp only [hs, bind, Except.bind, Except.ok.injEq] at h
      subst h
      have := hrc.number v l hv hs
      refine plainUnits_one ?_
      split
      · intro p hp
        simp only [List.cons_append, List.nil_append, List.mem_cons, List.mem_append, List.not_mem_nil, or_false] at hp
        rcases hp with rfl | hp | rfl
        · decide
        · exact this p hp
        · decide
      · exact this
  · cases h
    refine plainUnits_one ?_
    intro p hp
    simp at hp
    subst hp
    exact hv

omit hk hrc in
theorem plain_nonProcUnits {ty : Ty} {s : Str} {us : List FullTok} (hs : Plain s) (h : nonProcUnits rc ty s = .ok us) :
    PlainUnits us := by
  unfold nonProcUnits at h
  split at h
  · cases h
  · cases h
    refine plainUnits_one ?_
    intro p hp
    simp at hp
    subst hp
    exact hs

omit hk hrc in
theorem plain_whitespaceUnits {ty : Ty} {s : Str} (hs : Plain s) : PlainUnits (whitespaceUnits rc ty s) := by
  unfold whitespaceUnits
  split
  · intro x hx; cases hx
  · refine plainUnits_one ?_
    intro p hp
    simp at hp
    subst hp
    exact hs

omit hk hrc in
theorem plain_retype {ty : Ty} {us : List FullTok} (h : PlainUnits us) : PlainUnits (retype ty us) := by
  intro x hx
  obtain ⟨y, hy, rfl⟩ := List.mem_map.mp hx
  exact h y hy

omit hk hrc in
theorem plainUnits_append {us vs : List FullTok} (h1 : PlainUnits us) (h2 : PlainUnits vs) : PlainUnits (us ++ vs) := by
  intro x hx
  rcases List.mem_append.mp hx with hx | hx
  · exact h1 x hx
  · exact h2 x hx

mutual
theorem plain_units : (t : Tok) → Everywhere CleanTok t → ∀ us, t.units env.ucd rc = .ok us → PlainUnits us
  | .number v, hv, _, h => plain_numberUnits hrc hv h
  | .one, _, _, h => plain_numberUnits hrc (by decide) h
  | .zero, _, _, h => plain_numberUnits hrc (by decide) h
  | .newLine, _, us, h => by cases h; exact plain_whitespaceUnits (by decide)
  | .tab, _, us, h => by cases h; exact plain_whitespaceUnits (by decide)
  | .spaceInString n, _, us, h => by
    unfold Tok.units at h
    split at h
    · cases h
    · cases h
      refine plainUnits_one ?_
      intro p hp
      simp at hp
      subst hp
      intro c hc
      obtain ⟨l, hl, hcl⟩ := List.mem_flatten.mp hc
      have := List.eq_of_mem_replicate hl
      subst this
      simp [Ph.spaceInStr] at hcl
      subst hcl
      decide
  | .keyWord s, hs, _, h => plain_nonProcUnits hs h
  | .operator s, hs, _, h => plain_nonProcUnits hs h
  | .semicolon, _, _, h => plain_nonProcUnits (by decide) h
  | .openingCurly, _, _, h => plain_nonProcUnits (by decide) h
  | .closingCurly, _, _, h => plain_nonProcUnits (by decide) h
  | .openingBracket, _, _, h => plain_nonProcUnits (by decide) h
  | .closingBracket, _, _, h => plain_nonProcUnits (by decide) h
  | .nonCodeChar s, hs, _, h => plain_nonProcUnits hs h
  | .specialToken s, hs, _, h => plain_nonProcUnits hs h
  | .split subs, hs, _, h => plain_splitUnits hk hrc hs h
  | .nonEng subs, _, _, h => plain_nonEngUnits hk hrc h
  | .oneLineComment ts, hv, us, h => by
    have ih := plain_unitsList false ts hv.2
    unfold Tok.units at h
    split at h
    · cases h
      exact plainUnits_one (by decide)
    · cases hl : unitsList env.ucd rc false ts with
      | error e => simp [hl, bind, Except.bind] at h
      | ok vs =>
        simp only [hl, bind, Except.bind, Except.ok.injEq] at h
        subst h
        exact plainUnits_append (plain_retype (ih vs hl)) (plainUnits_one (by decide))
  | .multilineComment ts, hv, us, h => by
    have ih := plain_unitsList false ts hv.2
    unfold Tok.units at h
    split at h
    · cases h
      exact plainUnits_one (by decide)
    · cases hl : unitsList env.ucd rc false ts with
      | error e => simp [hl, bind, Except.bind] at h
      | ok vs =>
        simp only [hl, bind, Except.bind, Except.ok.injEq] at h
        subst h
        exact plain_retype (ih vs hl)
  | .stringLiteral ts len, hv, us, h => by
    have ih := plain_unitsList true ts hv.2
    unfold Tok.units at h
    split at h
    · cases h
      exact plainUnits_one (by decide)
    · split at h
      · cases h
      · split at h
        · split at h
          · cases h; exact plainUnits_one (by decide)
          · cases h; exact plainUnits_one (by decide)
        · split at h
          · cases hr : replaceInString rc (strList env.ucd ts) with
            | error e => simp [hr, bind, Except.bind] at h
            | ok s =>
              simp only [hr, bind, Except.bind] at h
              cases hs : rc.splitWord s with
              | error e => simp [hs] at h
              | ok l =>
                simp only [hs, Except.ok.injEq] at h
                subst h
                exact plainUnits_one (hrc.word _ _ (plain_replaceInString hrc.nonEng hr) hs)
          · split at h
            · cases hr : replaceInString rc (strList env.ucd ts) with
              | error e => simp [hr, bind, Except.bind] at h
              | ok s =>
                simp only [hr, bind, Except.bind, Except.ok.injEq] at h
                subst h
                refine plainUnits_one ?_
                intro p hp
                simp at hp
                subst hp
                exact plain_replaceInString hrc.nonEng hr
            · cases hl : unitsList env.ucd rc true ts with
              | error e => simp [hl, bind, Except.bind] at h
              | ok vs =>
                simp only [hl, bind, Except.bind, Except.ok.injEq] at h
                subst h
                exact plain_retype (ih vs hl)

theorem plain_unitsList (skip : Bool) : (ts : List Tok) → EverywhereList CleanTok ts →
    ∀ us, unitsList env.ucd rc skip ts = .ok us → PlainUnits us
  | [], _, us, h => by simp [unitsList] at h; subst h; intro x hx; cases hx
  | t :: r, hv, us, h => by
    have ih1 := plain_units t hv.1
    have ih2 := plain_unitsList skip r hv.2
    have main : (do
        let a ← Tok.units env.ucd rc t
        let b ← unitsList env.ucd rc skip r
        Except.ok (a ++ b) : Except PyErr _) = .ok us → PlainUnits us := by
      intro h
      cases ha : Tok.units env.ucd rc t with
      | error e => simp [ha, bind, Except.bind] at h
      | ok a =>
        cases hb : unitsList env.ucd rc skip r with
        | error e => simp [ha, hb, bind, Except.bind] at h
        | ok b =>
          simp only [ha, hb, bind, Except.bind, Except.ok.injEq] at h
          subst h
          exact plainUnits_append (ih1 a ha) (ih2 b hb)
    cases skip
    · exact main (by simpa only [unitsList] using h)
    · cases t <;> first
        | (simp only [unitsList] at h; exact ih2 us h)
        | (simp only [unitsList] at h; exact main h)
end

end

/-! ## Configurations -/

theorem plain_stem {env : Env} (hk : KeepsPlain env) {w : Str} (hw : Plain w) : Plain (stem env w) := by
  unfold stem
  split
  · exact hw
  · simp only
    split
    · exact hk.upper _ (hk.porter _ hw)
    · split
      · exact hk.capitalize _ (hk.porter _ hw)
      · exact hk.porter _ hw

theorem plain_chars {v : Str} (hv : Plain v) : ∀ p ∈ v.map fun ch => [ch], Plain p := by
  intro p hp
  obtain ⟨c, hc, rfl⟩ := List.mem_map.mp hp
  exact plain_cons (hv c hc) plain_nil

theorem plainRc {env : Env} (hk : KeepsPlain env) {c : PrepConfig} {bd : Option BpeData} {rc : ReprConfig}
    (hd : ∀ d, bd = some d → PlainCache d) (hu : c.enOnly = ['U']) (hok : RcOk env c bd rc) : PlainRc rc where
  nonEng := by
    rw [hok.types, typesToBeRepr_mem]
    simp [hu]
  number := by
    intro v l hv hl
    have hn := hok.number
    unfold PrepConfig.numberSplitter at hn
    split at hn
    · have := Except.ok.inj ((congrFun (Except.ok.inj hn) v).trans hl)
      subst this
      simpa using hv
    · split at hn
      · have := Except.ok.inj ((congrFun (Except.ok.inj hn) v).trans hl)
        subst this
        exact plain_chars hv
      · split at hn
        · have h := (congrFun (Except.ok.inj hn) v).trans hl
          unfold bpeSplitter at h
          split at h
          · cases h
          · next d he =>
            refine plain_bpe (hd d ?_) hv h
            split at he
            · exact he
            · cases he
        · cases hn
  word := by
    intro v l hv hl
    have hn := hok.word
    unfold PrepConfig.wordSplitter at hn
    unfold ReprConfig.splitWord at hl
    split at hn
    · rw [← Except.ok.inj hn] at hl
      have h := hl
      simp only at h
      unfold bpeSplitter at h
      split at h
      · cases h
      · next d he =>
        refine plain_bpe (hd d ?_) hv h
        split at he
        · exact he
        · cases he
    · split at hn
      · rw [← Except.ok.inj hn] at hl
        have := Except.ok.inj hl
        subst this
        simpa using hv
      · split at hn
        · rw [← Except.ok.inj hn] at hl
          have := Except.ok.inj hl
          subst this
          exact hk.ronin v hv
        · split at hn
          · rw [← Except.ok.inj hn] at hl
            have := Except.ok.inj hl
            subst this
            intro p hp
            obtain ⟨q, hq, rfl⟩ := List.mem_map.mp hp
            exact plain_stem hk (hk.ronin v hv q hq)
          · split at hn
            · rw [← Except.ok.inj hn] at hl
              cases hl
            · cases hn

theorem plain_markLast {l : List Str} (h : ∀ p ∈ l, Plain p) : ∀ p ∈ markLast l, Plain p := by
  induction l with
  | nil => simp [markLast]
  | cons a r ih =>
    cases r with
    | nil =>
      intro p hp
      simp [markLast] at hp
      subst hp
      exact plain_append (h a (by simp)) (by decide)
    | cons b r =>
      intro p hp
      unfold markLast at hp
      rcases List.mem_cons.mp hp with rfl | hp
      · exact h p (by simp)
      · exact ih (fun x hx => h x (by simp [hx])) p hp

theorem plain_toRepr {env : Env} (hk : KeepsPlain env) {c : PrepConfig} (hv : c.Valid) (hu : c.enOnly = ['U'])
    {bd : Option BpeData} (hd : ∀ d, bd = some d → PlainCache d) {ts : List Tok} (hts : EverywhereList CleanTok ts)
    {out : List Str} {md : Meta} (h : toRepr env c ts bd = .ok (out, md)) : ∀ p ∈ out, Plain p := by
  obtain ⟨rc, hok, he⟩ := toRepr_eq (env := env) hv ts bd
  rw [he] at h
  cases hl : unitsList env.ucd rc false ts with
  | error e => rw [hl] at h; cases h
  | ok us =>
    rw [hl] at h
    have h1 := congrArg Prod.fst (Except.ok.inj h)
    simp only at h1
    subst h1
    have hp := plain_unitsList hk (plainRc hk hd hu hok) false ts hts us hl
    split
    · intro p hp'
      obtain ⟨g, hg, hpg⟩ := List.mem_flatten.mp hp'
      obtain ⟨g', hg', rfl⟩ := List.mem_map.mp hg
      obtain ⟨x, hx, rfl⟩ := List.mem_map.mp hg'
      exact plain_markLast (hp x hx) p hpg
    · intro p hp'
      obtain ⟨g, hg, hpg⟩ := List.mem_flatten.mp hp'
      obtain ⟨x, hx, rfl⟩ := List.mem_map.mp hg
      exact hp x hx p hpg

/-! ## Parsing -/

theorem everywhereList_mem {P : Tok → Prop} {ts : List Tok} : EverywhereList P ts ↔ ∀ t ∈ ts, Everywhere P t := by
  induction ts with
  | nil => simp [EverywhereList]
  | cons t r ih => simp [EverywhereList, ih]

theorem identSplit_sub {u : Ucd} {s : Str} {ps : List Str} (h : IdentSplit u s ps) : ∀ p ∈ ps, ∀ c ∈ p, c ∈ s := by
  induction h with
  | nil => simp
  | space _ ih => intro p hp c hc; exact List.mem_cons_of_mem _ (ih p hp c hc)
  | underscore _ ih =>
    intro p hp c hc
    rcases List.mem_cons.mp hp with rfl | hp
    · simp at hc; simp [hc]
    · exact List.mem_cons_of_mem _ (ih p hp c hc)
  | other _ _ _ _ _ _ ih =>
    intro p hp c hc
    rcases List.mem_cons.mp hp with rfl | hp
    · simp at hc; simp [hc]
    · exact List.mem_cons_of_mem _ (ih p hp c hc)
  | _ =>
    rename_i ih
    intro p hp c hc
    rcases List.mem_cons.mp hp with rfl | hp
    · exact List.mem_append_left _ hc
    · exact List.mem_append_right _ (ih p hp c hc)

theorem clean_splitIdentifier {env : Env} (hl : env.ucd.Laws) (hk : KeepsPlain env) {s : Str} {t : Tok}
    (h : splitIdentifier env.ucd s = .ok t) : Everywhere CleanTok t := by
  unfold splitIdentifier at h
  cases hm : (identParts env.ucd s).mapM (partToSubtok env.ucd) with
  | error e => simp [hm, bind, Except.bind] at h
  | ok subs =>
    simp only [hm, bind, Except.bind, Except.ok.injEq] at h
    subst h
    split
    · trivial
    · next hne =>
      show ∀ x ∈ subs, SubPlain x
      intro x hx
      obtain ⟨p, hp, hpx⟩ := mapM_mem hm x hx
      have hs : Plain s := by
        refine plain_ascii fun c hc => ?_
        simp only [isNonEng, Bool.not_eq_true', Bool.not_eq_false, List.all_eq_true] at hne
        exact hne c hc
      have hpp : Plain p := hs.sub (identSplit_sub ((identSplit_iff hl s _).mpr rfl) p hp)
      unfold partToSubtok at hpx
      split at hpx
      · exact plain_wordFrom hk hpp hpx
      · cases hpx; trivial

theorem clean_toParsed {env : Env} (hl : env.ucd.Laws) (hk : KeepsPlain env) {s : Str} {t : Tok}
    (hs : isWordText env.ucd s = true ∨ ∀ c ∈ s, isAscii c = true) (h : toParsedToken env.ucd s = .ok t) :
    Everywhere CleanTok t := by
  unfold toParsedToken at h
  split at h
  · cases h; trivial
  split at h
  · cases h; trivial
  split at h
  · next hn =>
    cases h
    exact hk.lower _ (plain_ascii (isNumber_ascii ((isNumber_iff s).mp hn)).2)
  split at h
  · exact clean_splitIdentifier hl hk h
  · next hw =>
    cases h
    rcases hs with hs | hs
    · exact absurd hs hw
    · exact plain_ascii hs

/-- Pieces are runs of word characters or ASCII. -/
def PieceOk (u : Ucd) (p : Str) : Prop := isWordText u p = true ∨ ∀ c ∈ p, isAscii c = true

theorem isWordText_iff {u : Ucd} {w : Str} (h1 : w ≠ []) (h2 : ∀ c ∈ w, u.reWord c = true) : isWordText u w = true := by
  unfold isWordText
  simp only [Bool.and_eq_true, List.all_eq_true]
  exact ⟨by simpa using h1, h2⟩

theorem textSplit_pieces {u : Ucd} {s : Str} {ps : List Str} (h : TextSplit u s ps)
    (hs : ∀ c ∈ s, u.reWord c = true ∨ isAscii c = true) : ∀ p ∈ ps, PieceOk u p := by
  induction h with
  | nil => simp
  | word h1 h2 _ _ ih =>
    intro p hp
    rcases List.mem_cons.mp hp with rfl | hp
    · exact .inl (isWordText_iff h1 h2)
    · exact ih (fun c hc => hs c (List.mem_append_right _ hc)) p hp
  | char _ h2 _ ih =>
    intro p hp
    rcases List.mem_cons.mp hp with rfl | hp
    · refine .inr fun c hc => ?_
      simp at hc
      subst hc
      rcases hs c (by simp) with h | h
      · rw [h2] at h; cases h
      · exact h
    · exact ih (fun c hc => hs c (List.mem_cons_of_mem _ hc)) p hp
  | fourSpaces _ ih =>
    intro p hp
    rcases List.mem_cons.mp hp with rfl | hp
    · right; decide
    · exact ih (fun c hc => hs c (by simp [hc])) p hp
  | space _ _ ih => exact ih fun c hc => hs c (List.mem_cons_of_mem _ hc)

theorem literalSplit_pieces {u : Ucd} {s : Str} {ps : List Str} (h : LiteralSplit u s ps)
    (hs : ∀ c ∈ s, u.reWord c = true ∨ isAscii c = true) : ∀ p ∈ ps, PieceOk u p := by
  induction h with
  | nil => simp
  | word h1 h2 _ _ ih =>
    intro p hp
    rcases List.mem_cons.mp hp with rfl | hp
    · exact .inl (isWordText_iff h1 h2)
    · exact ih (fun c hc => hs c (List.mem_append_right _ hc)) p hp
  | char _ h2 _ ih =>
    intro p hp
    rcases List.mem_cons.mp hp with rfl | hp
    · refine .inr fun c hc => ?_
      simp at hc
      subst hc
      rcases hs c (by simp) with h | h
      · rw [h2] at h; cases h
      · exact h
    · exact ih (fun c hc => hs c (List.mem_cons_of_mem _ hc)) p hp
  | spaces _ _ ih =>
    intro p hp
    rcases List.mem_cons.mp hp with rfl | hp
    · refine .inr fun c hc => ?_
      rw [List.eq_of_mem_replicate hc]; decide
    · exact ih (fun c hc => hs c (List.mem_append_right _ hc)) p hp

theorem clean_words {env : Env} (hl : env.ucd.Laws) (hk : KeepsPlain env) {s : Str} {ts : List Tok}
    (hs : ∀ c ∈ s, env.ucd.reWord c = true ∨ isAscii c = true) (h : splitIntoWords env.ucd s = .ok ts) :
    ∀ t ∈ ts, Everywhere CleanTok t := by
  intro t ht
  obtain ⟨p, hp, hpt⟩ := mapM_mem h t ht
  have := textSplit_pieces ((textSplit_iff hl s _).mpr rfl) hs p hp
  unfold wordPiece at hpt
  split at hpt
  · cases hpt; trivial
  · exact clean_toParsed hl hk this hpt

theorem clean_string {env : Env} (hl : env.ucd.Laws) (hk : KeepsPlain env) {s : Str} {ts : List Tok}
    (hs : ∀ c ∈ s, env.ucd.reWord c = true ∨ isAscii c = true) (h : splitString env.ucd s = .ok ts) :
    ∀ t ∈ ts, Everywhere CleanTok t := by
  intro t ht
  obtain ⟨p, hp, hpt⟩ := mapM_mem h t ht
  have := literalSplit_pieces ((literalSplit_iff hl s _).mpr rfl) hs p hp
  unfold stringPiece at hpt
  split at hpt
  · cases hpt; trivial
  · exact clean_toParsed hl hk this hpt

theorem clean_convert {env : Env} (hl : env.ucd.Laws) (hk : KeepsPlain env) {e : TokType × Str} {ts : List Tok}
    (he : OnlyWordsNonAscii env.ucd e) (h : convert env.ucd e.1 e.2 = .ok ts) : ∀ t ∈ ts, Everywhere CleanTok t := by
  by_cases h1 : e.2 = ['\n']
  · rw [h1, convert_newline] at h
    cases h
    intro t ht; simp at ht; subst ht; trivial
  by_cases h2 : e.2 = ['\t']
  · rw [h2, convert_tab] at h
    cases h
    intro t ht; simp at ht; subst ht; trivial
  cases hb : env.ucd.isBlank e.2 with
  | true =>
    rw [convert_blank _ _ _ hb h1 h2] at h
    cases h
    intro t ht
    obtain ⟨-, rfl⟩ := List.mem_replicate.mp ht
    trivial
  | false =>
    rw [convert_kind _ _ _ hb h1 h2] at h
    have ha := he.2
    cases hkd : kindOf e.1 with
    | operator =>
      rw [hkd] at h
      cases h
      intro t ht
      simp at ht
      subst ht
      unfold operatorToken
      repeat' split
      all_goals first | trivial | exact plain_ascii (ha (.inl hkd))
    | number =>
      rw [hkd] at h
      cases h
      intro t ht
      simp at ht
      subst ht
      unfold numberToken
      repeat' split
      all_goals first | trivial | exact hk.lower _ (plain_ascii (ha (.inr (.inl hkd))))
    | keyword =>
      rw [hkd] at h
      cases h
      intro t ht
      simp at ht
      subst ht
      exact plain_ascii (ha (.inr (.inr hkd)))
    | words =>
      rw [hkd] at h
      exact clean_words hl hk he.1 h
    | string =>
      rw [hkd] at h
      simp only [tokensOf] at h
      cases hs : splitString env.ucd e.2 with
      | error e => rw [hs] at h; cases h
      | ok ts' =>
        rw [hs] at h
        cases h
        intro t ht
        simp at ht
        subst ht
        exact ⟨trivial, everywhereList_mem.mpr (clean_string hl hk he.1 hs)⟩
    | lineComment =>
      rw [hkd] at h
      simp only [tokensOf] at h
      cases hs : splitIntoWords env.ucd e.2 with
      | error e => rw [hs] at h; cases h
      | ok ts' =>
        rw [hs] at h
        cases h
        intro t ht
        simp at ht
        subst ht
        exact ⟨trivial, everywhereList_mem.mpr (clean_words hl hk he.1 hs)⟩
    | blockComment =>
      rw [hkd] at h
      simp only [tokensOf] at h
      cases hs : splitIntoWords env.ucd e.2 with
      | error e => rw [hs] at h; cases h
      | ok ts' =>
        rw [hs] at h
        cases h
        intro t ht
        simp at ht
        subst ht
        exact ⟨trivial, everywhereList_mem.mpr (clean_words hl hk he.1 hs)⟩

theorem clean_convertText {env : Env} (hl : env.ucd.Laws) (hk : KeepsPlain env) {lexed : List (TokType × Str)} {ts : List Tok}
    (he : ∀ e ∈ lexed, OnlyWordsNonAscii env.ucd e) (h : convertText env.ucd lexed = .ok ts) :
    ∀ t ∈ ts, Everywhere CleanTok t := by
  induction lexed generalizing ts with
  | nil => cases h; simp
  | cons e r ih =>
    obtain ⟨ty, s⟩ := e
    unfold convertText at h
    cases h1 : convert env.ucd ty s with
    | error e => simp [h1, bind, Except.bind] at h
    | ok a =>
      cases h2 : convertText env.ucd r with
      | error e => simp [h1, h2, bind, Except.bind] at h
      | ok b =>
        simp only [h1, h2, bind, Except.bind, Except.ok.injEq] at h
        subst h
        intro t ht
        rcases List.mem_append.mp ht with ht | ht
        · exact clean_convert hl hk (he (ty, s) (by simp)) h1 t ht
        · exact ih (fun e hh => he e (by simp [hh])) h2 t ht

theorem clean_finish {ts : List Tok} (b : Bool) (h : ∀ t ∈ ts, Everywhere CleanTok t) :
    ∀ t ∈ finishParsed ts b, Everywhere CleanTok t := by
  have hr : ∀ t ∈ removeTrailingNewline ts, Everywhere CleanTok t := by
    intro t ht
    unfold removeTrailingNewline at ht
    split at ht
    · split at ht
      · exact h t (List.dropLast_subset _ ht)
      · exact h t ht
    · exact h t ht
  intro t ht
  unfold finishParsed at ht
  simp only at ht
  split at ht
  · rcases List.mem_append.mp ht with ht | ht
    · exact hr t ht
    · simp at ht
      subst ht
      show Plain Ph.ect
      decide
  · exact hr t ht

end Verif
