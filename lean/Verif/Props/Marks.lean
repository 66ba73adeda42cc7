import Verif.Proofs.Marks
import Verif.Proofs.Congr
import Verif.Props.Preprocess
import Verif.Props.BpeEncode
/-!
# End-of-token marks (C19)
-/
namespace Verif.Props
open Verif Spec

/-- What is needed about a text: no space (the tokeniser turns spaces in literals into non-breaking spaces), and the mark
itself does not occur in it. -/
def MarkFree (s : Str) : Prop := ' ' ∉ s ∧ ¬ "</t>".toList <:+: s

theorem toRepr_bpe {env : Env} {c : PrepConfig} (hv : c.Valid) (hb : c.isBpe = true) {ts : List Tok} {bd : Option BpeData}
    {l : List Str} {md : Meta} (h : toRepr env c ts bd = .ok (l, md)) :
    ∃ rc us, RcOk env c bd rc ∧ unitsList env.ucd rc false ts = .ok us ∧
      l = ((us.map (·.subs)).map markLast).flatten ∧ md = (flatForm us).2 ∧ ∀ g ∈ us.map (·.subs), g ≠ [] := by
  obtain ⟨rc, hok, heq⟩ := toRepr_eq hv ts bd
  rw [heq] at h
  cases hu : unitsList env.ucd rc false ts with
  | error e => simp [hu, Except.map] at h
  | ok us =>
    simp only [hu, Except.map, Except.ok.injEq, hb, if_true] at h
    obtain ⟨h1, h2⟩ := Prod.mk.inj h
    refine ⟨rc, us, hok, hu, h1.symm, h2.symm, ?_⟩
    have := unitsList_ne env.ucd (N := fun _ => True) (fun v l _ hl => number_ne hv hok v l (.inr hb) hl) trivial trivial
      (word_ne hok) false ts (everywhereList_of_forall (fun _ _ _ => trivial) ts) us hu
    intro g hg
    obtain ⟨x, hx, rfl⟩ := List.mem_map.mp hg
    exact this x hx

/-- **C19** In BPE and chars mode the last subtoken of every full token ends with the end-of-token mark (for all merges,
caches and tokens). -/
theorem C19_last_marked (env : Env) (c : PrepConfig) (hv : c.Valid) (hb : c.isBpe = true) (ts : List Tok)
    (bd : Option BpeData) (l : List Str) (md : Meta) (h : toRepr env c ts bd = .ok (l, md))
    (i : Nat) (hi : i < l.length) (hm : i + 1 ∈ md.bounds) : ∃ p, l[i] = p ++ "</t>".toList := by
  obtain ⟨rc, us, -, -, rfl, rfl, hne⟩ := toRepr_bpe hv hb h
  refine ends_marked 0 _ hne i _ (List.getElem?_eq_getElem hi) ?_
  simpa [flatForm] using hm

/-- Both parts of C19, for splits that satisfy `NoInnerMark`. -/
theorem marksAgree_of {env : Env} {c : PrepConfig} (hv : c.Valid) (hb : c.isBpe = true) {ts : List Tok} {d : BpeData}
    {l : List Str} {md : Meta} (h : toRepr env c ts (some d) = .ok (l, md)) (good : Str → Prop)
    (hgood : ∀ s, good s → ∀ l, getBpeSubwords s d = .ok l → NoInnerMark l)
    (ht : EverywhereList (fun t => ∀ s, BpeText env.ucd (c.enOnly = ['U']) t s → good s) ts) :
    MarksAgree l md.bounds := by
  obtain ⟨rc, us, hok, hu, rfl, rfl, hne⟩ := toRepr_bpe hv hb h
  have hbpe : rc.bpe = true := by rw [hok.bpe, hb]; rfl
  have hword : ∀ s, rc.splitWord s = getBpeSubwords s d := by
    intro s
    have hw := hok.word
    have hs : c.split ∈ [['4'], ['5'], ['6'], ['7'], ['8'], ['9']] := by simpa [PrepConfig.isBpe] using hb
    rw [PrepConfig.wordSplitter, if_pos hs] at hw
    simp only [Except.ok.injEq] at hw
    rw [ReprConfig.splitWord, ← hw]
    simp [hb, bpeSplitter]
  have hnum : ∀ s, rc.numberSplitter s = getBpeSubwords s d := by
    intro s
    have hw := hok.number
    have hs : c.split ∈ [['4'], ['5'], ['6'], ['7'], ['8'], ['9']] := by simpa [PrepConfig.isBpe] using hb
    rw [PrepConfig.numberSplitter, if_neg, if_neg, if_pos hs] at hw
    · simp only [Except.ok.injEq] at hw
      rw [← hw]
      simp [hb, bpeSplitter]
    · simp only [List.mem_cons, List.not_mem_nil, or_false] at hs
      rcases hs with hs | hs | hs | hs | hs | hs <;> rw [hs] <;> decide
    · simp only [List.mem_cons, List.not_mem_nil, or_false] at hs
      rcases hs with hs | hs | hs | hs | hs | hs <;> rw [hs] <;> decide
  have hone : Ty.one ∉ rc.types := by rw [hok.types, typesToBeRepr_mem]; simp
  have hzero : Ty.zero ∉ rc.types := by rw [hok.types, typesToBeRepr_mem]; simp
  have hsc : Ty.splitContainer ∈ rc.types := by
    rw [hok.types, typesToBeRepr_mem]
    refine .inl ⟨by simp, ?_⟩
    have hs : c.split ∈ [['4'], ['5'], ['6'], ['7'], ['8'], ['9']] := by simpa [PrepConfig.isBpe] using hb
    simp only [List.mem_cons, List.not_mem_nil, or_false] at hs ⊢
    rcases hs with hs | hs | hs | hs | hs | hs <;> simp [hs]
  have hne' : Ty.nonEng ∈ rc.types ↔ c.enOnly = ['U'] := by
    rw [hok.types, typesToBeRepr_mem]; simp
  have hall : EverywhereList (BpeForall env.ucd rc NoInnerMark) ts := by
    refine everywhereList_imp (fun t hg => ?_) ts ht
    refine ⟨?_, ?_, ?_, ?_, ?_⟩
    · rintro v rfl l hl
      rw [hnum] at hl
      exact hgood _ (hg _ (.number v)) _ hl
    · rintro subs rfl l hl
      rw [hword] at hl
      exact hgood _ (hg _ (.identifier subs)) _ hl
    · rintro subs rfl hno l hl
      rw [hword] at hl
      exact hgood _ (hg _ (.nonEnglish subs (by simpa [hne'] using hno))) _ hl
    · rintro subs rfl hyes token w h1 h2 l hl
      rw [hword] at hl
      have : splitStr env.ucd [w] = w.str env.ucd := by simp [splitStr, concat]
      rw [this] at hl
      exact hgood _ (hg _ (.replaced subs token w (by simpa [hne'] using hyes) h1 h2)) _ hl
    · rintro ts' n rfl s hs l hl
      rw [hword] at hl
      unfold replaceInString at hs
      split at hs
      · rename_i hyes
        cases hp : (pySplit ' ' (strList env.ucd ts')).mapM fun t => replaceNonAsciiSeqs t Ph.nonAsciiSeq with
        | error e => simp [hp, bind, Except.bind] at hs
        | ok parts =>
          simp only [hp, bind, Except.bind, Except.ok.injEq] at hs
          subst hs
          exact hgood _ (hg _ (.literalReplaced ts' n parts (by simpa [hne'] using hyes) hp)) _ hl
      · rename_i hno
        cases hs
        exact hgood _ (hg _ (.literal ts' n (by simpa [hne'] using hno))) _ hl
  have hin : ∀ g ∈ us.map (·.subs), NoInnerMark g := by
    intro g hg
    obtain ⟨x, hx, rfl⟩ := List.mem_map.mp hg
    refine unitsList_forall hbpe (Q := NoInnerMark) (by simp [NoInnerMark]) ?_ hone hzero hsc false ts hall us hu x hx
    rintro p hp ⟨q, hq⟩
    simp at hp
    subst hp
    have := congrArg List.length hq
    simp [Ph.compoundWordEnd] at this
  intro i hi
  have := marks_agree 0 _ hne hin i _ (List.getElem?_eq_getElem hi)
  simpa [flatForm, Ph.compoundWordEnd] using this

/-- **C19** (partial: for texts in which the mark does not occur) Exactly the last subtoken of every full token ends with the
end-of-token mark, for all merges. -/
theorem C19_marks_agree_partial (env : Env) (c : PrepConfig) (hv : c.Valid) (hb : c.isBpe = true) (ts : List Tok)
    (d : BpeData) (hd : CacheSplits d)
    (ht : EverywhereList (fun t => ∀ s, BpeText env.ucd (c.enOnly = ['U']) t s → MarkFree s) ts)
    (l : List Str) (md : Meta) (h : toRepr env c ts (some d) = .ok (l, md)) : MarksAgree l md.bounds := by
  refine marksAgree_of hv hb h MarkFree ?_ ht
  intro s hs l hl
  refine noInnerMark_of_flatten ?_
  suffices hf : l.flatten = s by rw [hf]; exact hs.2
  cases hc : d.cache.get? (escape s true) with
  | none =>
    obtain ⟨v, hv, hf, -⟩ := C01_bpe_lossless s d hs.1 hc
    rw [hl] at hv
    cases hv
    exact hf
  | some e =>
    obtain ⟨r, hr, hf⟩ := hd s e hc
    simp [getBpeSubwords, getBpeSubwordsSt, hc, hr, bind, Except.bind, Except.map] at hl
    rw [← hl]
    exact hf

/-- **C19** In chars mode (no merges, nothing cached) the marks agree whatever the text is. -/
theorem C19_chars_marks_agree (env : Env) (c : PrepConfig) (hv : c.Valid) (hb : c.isBpe = true) (ts : List Tok)
    (ht : EverywhereList (fun t => ∀ s, BpeText env.ucd (c.enOnly = ['U']) t s → ' ' ∉ s) ts)
    (l : List Str) (md : Meta) (h : toRepr env c ts (some ⟨[], []⟩) = .ok (l, md)) : MarksAgree l md.bounds := by
  refine marksAgree_of hv hb h (' ' ∉ ·) ?_ ht
  intro s hs l hl
  rw [C03_chars_split s hs [] rfl] at hl
  cases hl
  rintro p hp ⟨q, hq⟩
  simp only [List.dropLast_concat, List.mem_map] at hp
  obtain ⟨c, -, rfl⟩ := hp
  have := congrArg List.length hq
  simp [Ph.compoundWordEnd] at this

/-- **C19** Whenever the marks agree with the metadata the validity check passes, and only then. -/
theorem C19_check_iff (env : Env) (c : PrepConfig) (hv : c.Valid) (ts : List Tok)
    (bd : Option BpeData) (l : List Str) (md : Meta) (h : toRepr env c ts bd = .ok (l, md)) :
    checkMetadataValidity l md true = .ok () ↔ MarksAgree l md.bounds := by
  have hwf := C15_to_repr_wellformed env c hv ts bd l md h
  have : validateBoundaries l.length md.bounds = .ok () := by
    unfold validateBoundaries
    rw [hwf.starts, hwf.ends]
    simp
  unfold checkMetadataValidity
  simp only [this, bind, Except.bind, if_true]
  rw [checkTerminals_ok_iff]
  simp [MarksAgree, Ph.compoundWordEnd]

/-- Without end-of-token marks the check passes on every output. -/
theorem C19_check_without_marks (env : Env) (c : PrepConfig) (hv : c.Valid) (ts : List Tok)
    (bd : Option BpeData) (l : List Str) (md : Meta) (h : toRepr env c ts bd = .ok (l, md)) :
    checkMetadataValidity l md false = .ok () := by
  have hwf := C15_to_repr_wellformed env c hv ts bd l md h
  unfold checkMetadataValidity validateBoundaries
  rw [hwf.starts, hwf.ends]
  simp [bind, Except.bind]

/-- **C19** is violated by texts with the mark in them: after merges that build `</t>`, the literal `"</t>"` has three
subtokens, of which the second one ends with the mark, and the check fails. -/
theorem C19_violated :
    ∃ (c : PrepConfig) (ts : List Tok) (d : BpeData) (l : List Str) (md : Meta), c.Valid ∧ c.isBpe = true ∧ CacheSplits d ∧
      toRepr demoEnv c ts (some d) = .ok (l, md) ∧ l = ["\"".toList, "</t>".toList, "\"</t>".toList] ∧ md.bounds = [0, 3] ∧
      checkMetadataValidity l md true = .error .assertionError := by
  refine ⟨demoConfig "uc19su", [.stringLiteral [.nonCodeChar "\"".toList, .operator "<".toList, .operator "/".toList,
      .split [.word "t".toList .none], .operator ">".toList, .nonCodeChar "\"".toList] 6],
    ⟨[], [(("<".toList, "/".toList), (none, 0)), (("</".toList, "t".toList), (none, 1)), (("</t".toList, ">".toList), (none, 2)),
      (("\"".toList, "@".toList), (none, 3))]⟩, _, _, demo_valid (s := "uc19su") (by decide +kernel), by decide +kernel, ?_, by rfl, ?_⟩
  · intro w l h; cases h
  · decide +kernel

/-- Non-vacuity of C19: BPE and chars mode. -/
example : (toRepr demoEnv (demoConfig "uc19su") demoTokens (some ⟨[], [(("f".toList, "o".toList), (none, 0))]⟩)).toOption.isSome = true ∧
    (toRepr demoEnv (demoConfig "uc18su") demoTokens (some ⟨[], []⟩)).toOption.isSome = true := by
  decide +kernel

example : EverywhereList (fun t => ∀ s, BpeText asciiUcd false t s → MarkFree s) demoTokens := by
  simp only [demoTokens, EverywhereList, Everywhere, and_true]
  refine ⟨?_, ?_, ?_, ?_, ⟨?_, ?_, ?_, ?_, ?_⟩, ⟨?_, ?_, ?_, ?_, ?_, ?_⟩⟩ <;> (intro s hs; cases hs <;> first | contradiction | (unfold MarkFree; decide +kernel))

end Verif.Props
