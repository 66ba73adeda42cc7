import Verif.Proofs.Fewer
import Verif.Props.LearnDisk
/-!
# More merges split less (C86)
-/
namespace Verif.Props
open Verif Spec

/-- **C86** Splitting a text with more merges of the same list only glues together neighbouring subtokens of the splitting with fewer
merges: the full tokens correspond to each other, and within a full token every subtoken consists of whole subtokens of the other
splitting.  So the number of subtokens never grows with the number of merges. -/
theorem C86_text_partial (env : Env) (hu : env.ucd.Laws) (hk : KeepsWhite env.ucd) (load : Str → Except PyErr BpeData) (a b : ApiCall)
    {i j : Str} {d d' : BpeData} (hi : apiBpeCodesId a = some i) (h0 : i ≠ []) (hd : load i = .ok d) (hc : CacheOk d)
    (hg : GenuineWords d) (hj : apiBpeCodesId b = some j) (h0' : j ≠ []) (hd' : load j = .ok d') (hc' : CacheOk d')
    (hg' : GenuineWords d') (hf : FirstOf d'.merges d.merges) (hm : RanksOk d.merges) (ho : optsOf a = optsOf b)
    (lexed : List (TokType × Str)) (hp : ∀ e ∈ lexed, PlainNumber e) (eof : Bool) :
    ∃ gs md hs md', textApi env load a lexed eof = .ok (gs.flatten, md) ∧ textApi env load b lexed eof = .ok (hs.flatten, md') ∧
      md.bounds = boundsFrom 0 gs ∧ md'.bounds = boundsFrom 0 hs ∧ gs.length = hs.length ∧
      (∀ x ∈ gs.zip hs, Coarsens x.1 x.2) ∧ gs.flatten.length ≤ hs.flatten.length := by
  obtain ⟨m, ps, us, h1, h2, h3, h4⟩ := C56_any env hu load a
    (fun k hk => by rw [hi] at hk; cases hk; exact ⟨h0, d, hd, hc⟩) lexed eof
  obtain ⟨m', ps', vs, g1, g2, g3, g4⟩ := C56_any env hu load b
    (fun k hk => by rw [hj] at hk; cases hk; exact ⟨h0', d', hd', hc'⟩) lexed eof
  have mode : ∀ {c : ApiCall} {k : Str} {e : BpeData} {m : Mode}, apiBpeCodesId c = some k → load k = .ok e → ModeOf env load c m →
      m = .bpe e ∧ usesBpe c = true ∧ (pieceOpts c).literals = .bpe := by
    intro c k e m hi hd h1
    cases h1 with
    | nosplit => cases hi
    | basic => cases hi
    | chars h => cases hi; rw [hd] at h; cases h; exact ⟨rfl, rfl, rfl⟩
    | bpe h => cases hi; rw [hd] at h; cases h; exact ⟨rfl, rfl, rfl⟩
  obtain ⟨rfl, hb, hl⟩ := mode hi hd h1
  obtain ⟨rfl, hb', hl'⟩ := mode hj hd' g1
  have hpo : pieceOpts a = pieceOpts b := by
    have : pieceOpts a = ⟨(optsOf a).noCom, (optsOf a).noStr, limitOf (optsOf a).maxStrLength, (pieceOpts a).literals⟩ := rfl
    rw [this, ho, hl, ← hl']
    rfl
  rw [ho, hpo] at h2
  obtain rfl := describedAnyAll_unique hu h2 g2
  rw [ho] at h3
  have hfit : ∀ p ∈ finishPieces eof ps, Fit p := by
    intro p hq
    rcases finish_mem hq with hq | rfl
    · exact describedAnyAll_fits hu hk hp h2 p hq
    · exact ⟨by simp, by simp⟩
  obtain ⟨k1, k2⟩ := spelledAnyAll_fewer hu hk hg hg' hf hm hfit h3 g3
  have hlen : (us.map fun x => markEnd x.subs).length = (vs.map fun x => markEnd x.subs).length := by simp [k1]
  have hzip : ∀ x ∈ (us.map fun x => markEnd x.subs).zip (vs.map fun x => markEnd x.subs), Coarsens x.1 x.2 := by
    intro x hx
    rw [List.zip_map] at hx
    obtain ⟨y, hy, rfl⟩ := List.mem_map.mp hx
    exact coarsens_markEnd (k2 y hy)
  refine ⟨us.map fun x => markEnd x.subs, (flatForm us).2, vs.map fun x => markEnd x.subs, (flatForm vs).2, ?_, ?_,
    boundsFrom_len (by simp [markEnd_len]) 0, boundsFrom_len (by simp [markEnd_len]) 0, hlen, hzip, coarse_total hlen hzip⟩
  · rw [h4]
    unfold outputOf
    simp only [hb, if_true, List.flatMap_def]
  · rw [g4]
    unfold outputOf
    simp only [hb', if_true, List.flatMap_def]

/-- **C86** The same for single words without spaces. -/
theorem C86_word_partial {d d' : BpeData} (hg : GenuineWords d) (hg' : GenuineWords d') (hf : FirstOf d'.merges d.merges)
    (hm : RanksOk d.merges) (w : Str) (hs : ' ' ∉ w) {l l' : List Str} (hl : getBpeSubwords w d = .ok l)
    (hl' : getBpeSubwords w d' = .ok l') : Coarsens l l' ∧ l.length ≤ l'.length :=
  have h := subwords_fewer hg hg' hf hm hs hl hl'
  ⟨h, coarsens_length h⟩

/-- **C86** No merges at all, as for `chars`, are the first ones of every list. -/
theorem C86_none (many : MergeList) : FirstOf [] many := by
  refine ⟨0, fun p r => ⟨fun h => ?_, fun h => absurd h.2 (by omega)⟩⟩
  cases h

/-- **C86** Reading fewer lines of a file with merges gives the first of its merges, if no pair is repeated in the file. -/
theorem C86_file (text : Str) {m n : Nat} (hm : 1 ≤ m) (hmn : m ≤ n) {many : MergeList} (h : readMerges text (some n) = .ok many)
    (hr : NoneRepeated text n many) (hl : many.length ≤ sysMaxsize) :
    ∃ few, readMerges text (some m) = .ok few ∧ NoneRepeated text m few ∧ FirstOf few many ∧ RanksOk many := by
  obtain ⟨few, h1, h2, h3, h4⟩ := read_fewer hm hmn h hr
  exact ⟨few, h1, h2, h3, numbered_ranksOk h4 hl⟩

/-- The first merges of a list that begins another one. -/
theorem ranked_firstOf {ms ms' : List ((Str × Str) × Int)} (h : ms <+: ms') {a b : Nat} (ha : a ≤ ms.length) (hab : a ≤ b) :
    FirstOf (ranked 0 (ms.take a)) (ranked 0 (ms'.take b)) := by
  refine ⟨a, fun p r => ?_⟩
  rw [ranked_posRank, ranked_posRank, posRank, posRank]
  have e : ms.take a = (ms'.take b).take a := by
    obtain ⟨t, rfl⟩ := h
    rw [List.take_take, Nat.min_eq_left hab, List.take_append_of_le_length ha]
  rw [e, List.map_take]
  generalize (ms'.take b).map (·.1) = l
  have same : p ∈ l.take a → l.idxOf p = (l.take a).idxOf p := by
    intro hp
    conv => lhs; rw [← List.take_append_drop a l]
    rw [List.idxOf_append_of_mem hp]
  have hiff : p ∈ l.take a ↔ p ∈ l ∧ l.idxOf p < a := by
    constructor
    · intro hp
      refine ⟨List.mem_of_mem_take hp, ?_⟩
      have h1 := List.idxOf_lt_length_iff.2 hp
      rw [List.length_take] at h1
      have := same hp
      omega
    · rintro ⟨hp, hi⟩
      have hlt := List.idxOf_lt_length_iff.2 hp
      have := List.getElem_idxOf hlt
      rw [← this]
      exact List.mem_take_iff_getElem.2 ⟨l.idxOf p, by omega, rfl⟩
  by_cases hp : p ∈ l.take a
  · obtain ⟨g1, g2⟩ := hiff.1 hp
    rw [if_pos hp, if_pos g1, ← same hp]
    constructor
    · intro e; cases e; exact ⟨rfl, g2⟩
    · exact And.left
  · rw [if_neg hp]
    constructor
    · intro e; cases e
    · rintro ⟨e, hr⟩
      split at e
      · next g => cases e; exact absurd (hiff.2 ⟨g, hr⟩) hp
      · cases e

theorem runs_history {b : BpeConfig} {d0 d d' : LearnDisk} {ns : List Int} (h : History b d0 [] d) (hr : Runs b d ns d') :
    History b d0 [] d' := by
  induction hr with
  | nil => exact h
  | @cons d n r ns d' hl _ ih =>
    have := History.run h hl
    have e : taint [] d n r = [] := by unfold taint; split <;> simp
    rw [e] at this
    exact ih this

/-- **C86** If the numbers of merges asked for when learning from a dataset never decrease, the merges meant by the identifier with
`a` merges are the first ones of those meant by the identifier with `b` merges, for all `a ≤ b`: so the theorems above apply to them. -/
theorem C86_runs_partial {all : List (Str × Nat)} {nonBpe : List Str} {s : BpeConfig} (hs : Supported s) {d0 d : LearnDisk}
    (hr : Ready all nonBpe d0) (ns : List Int) (hns : ns.Pairwise (· ≤ ·)) (h : Runs s d0 ns d) {a b : Nat} (ha : 1 ≤ a) (hab : a ≤ b)
    (hb : b ≤ sysMaxsize) {few many : MergeList} (hf : d.load a = .ok few) (hm : d.load b = .ok many) :
    FirstOf few many ∧ RanksOk many := by
  have hh := runs_history History.start h
  rcases C59_load hs hr hh a ha with ⟨x, hx, ms, v, g1, g2, g3, g4⟩ | ⟨g, -⟩
  · rcases C59_load hs hr hh b (by omega) with ⟨y, hy, ms', v', k1, k2, -, k4⟩ | ⟨k, -⟩
    · rw [hf] at g4
      rw [hm] at k4
      cases g4
      cases k4
      exact ⟨ranked_firstOf (C59_ascending_partial hs hr ns hns h x hx y hy ms v ms' v' g1 k1 (g3 y hy ms' v' k1 (by omega))) g2 hab,
        ranked_ok (by rw [List.length_take]; omega)⟩
    · rw [hm] at k; cases k
  · rw [hf] at g; cases g

/-! ## Examples -/

/-- Fewer codes than `modesCodes`. -/
def fewerCodes : BpeData := ⟨[], [((['s'], ['i']), (none, 0))]⟩

theorem modes_numbered : Numbered modesCodes.merges := by
  refine ⟨by unfold Dict.WF; decide, ?_⟩
  intro i hi
  match i, hi with
  | 0, _ => rfl
  | 1, _ => rfl

theorem fewer_first : FirstOf fewerCodes.merges modesCodes.merges :=
  numbered_firstOf (few := fewerCodes.merges) (rest := [((['s', 'i'], ['z']), (none, 1))])
    ⟨by unfold Dict.WF; decide, fun i hi => match i, hi with | 0, _ => rfl⟩ modes_numbered

/-- Non-vacuity of C86 for texts. -/
example := C86_text_partial demoEnv asciiUcd_laws demoEnv_keepsLines.white
  (fun i => if i = "few".toList then .ok fewerCodes else .ok modesCodes) (.bpe "many".toList {}) (.bpe "few".toList {})
  rfl (by decide) rfl modes_cacheOk (fun w l h => modes_genuine _ _ h) rfl (by decide) rfl (by intro w l h; cases h)
  (by intro w l h; cases h) fewer_first (numbered_ranksOk modes_numbered (by decide)) rfl modesTokens modes_plain true

/-- Non-vacuity of C86 for `chars`. -/
example := C86_text_partial demoEnv asciiUcd_laws demoEnv_keepsLines.white
  (fun i => if i = "0".toList then .ok ⟨[], []⟩ else .ok modesCodes) (.bpe "many".toList { noUnicode := true })
  (.chars { noUnicode := true })
  rfl (by decide) rfl modes_cacheOk (fun w l h => modes_genuine _ _ h) rfl (by decide) rfl (by intro w l h; cases h)
  (by intro w l h; cases h) (C86_none _) (numbered_ranksOk modes_numbered (by decide)) rfl modesTokens modes_plain true

/-- Non-vacuity of C86 for words: three subtokens become two. -/
example : getBpeSubwords "siz".toList modesCodes = .ok ["siz".toList, []] ∧
    getBpeSubwords "siz".toList fewerCodes = .ok ["si".toList, ['z'], []] ∧
    Coarsens ["siz".toList, []] ["si".toList, ['z'], []] ∧ ¬ Coarsens ["si".toList, ['z'], []] ["siz".toList, []] := by
  have h1 : getBpeSubwords "siz".toList modesCodes = .ok ["siz".toList, []] := by decide +kernel
  have h2 : getBpeSubwords "siz".toList fewerCodes = .ok ["si".toList, ['z'], []] := by decide +kernel
  refine ⟨h1, h2, (C86_word_partial (fun w l h => modes_genuine _ _ h) (by intro w l h; cases h) fewer_first
    (numbered_ranksOk modes_numbered (by decide)) "siz".toList (by decide) h1 h2).1, fun h => ?_⟩
  exact absurd (coarsens_length h) (by decide)

/-- A file with three merges. -/
def fewerFile : Str := "a b 5\nb c 4\nab c 3\n".toList

/-- Non-vacuity of C86 for files. -/
example : ∃ few, readMerges fewerFile (some 2) = .ok few ∧ NoneRepeated fewerFile 2 few ∧
    FirstOf few [((['a'], ['b']), (some 5, 0)), ((['b'], ['c']), (some 4, 1)), ((['a', 'b'], ['c']), (some 3, 2))] ∧ few.length = 2 := by
  obtain ⟨few, h1, h2, h3, -⟩ := C86_file fewerFile (m := 2) (n := 7) (by decide) (by decide)
    (many := [((['a'], ['b']), (some 5, 0)), ((['b'], ['c']), (some 4, 1)), ((['a', 'b'], ['c']), (some 3, 2))])
    (by decide +kernel) (by unfold NoneRepeated; decide +kernel) (by decide)
  exact ⟨few, h1, h2, h3, h2.trans (by decide +kernel)⟩

/-- The last line of this file repeats the first pair. -/
def repeatedFile : Str := "a b\nb c\na b\n".toList

/-- **C86** A pair that is repeated in the last line of a file loses its priority: then splitting with one merge more is not a coarser
splitting. -/
theorem C86_repeated : ∃ few many, readMerges repeatedFile (some 2) = .ok few ∧ readMerges repeatedFile (some 3) = .ok many ∧
    getBpeSubwords "abc".toList ⟨[], few⟩ = .ok ["ab".toList, ['c'], []] ∧
    getBpeSubwords "abc".toList ⟨[], many⟩ = .ok [['a'], "bc".toList, []] ∧
    ¬ Coarsens [['a'], "bc".toList, []] ["ab".toList, ['c'], []] := by
  refine ⟨[((['a'], ['b']), (none, 0)), ((['b'], ['c']), (none, 1))], [((['a'], ['b']), (none, 2)), ((['b'], ['c']), (none, 1))],
    by decide +kernel, by decide +kernel, by decide +kernel, by decide +kernel, ?_⟩
  rintro ⟨g, h1, h2, h3⟩
  match g, h3 with
  | x :: _, h3 =>
    injection h3 with h3 _
    match x, h2 x (by simp) with
    | y :: _, _ =>
      rw [List.flatten_cons, List.cons_append] at h1
      injection h1 with h1 _
      subst h1
      have := congrArg List.length h3
      simp at this

set_option synthInstance.maxSize 1000 in
/-- Non-vacuity of C86 for runs. -/
example : ∃ few many, (abcDisk.save (some abc3)).load 2 = .ok few ∧ (abcDisk.save (some abc3)).load 3 = .ok many ∧ FirstOf few many := by
  have h2 : (abcDisk.save (some abc3)).load 2 = .ok [((['a'], ['b']), (some 1, 0)), ((['c'], ['@']), (some 1, 1))] := by decide +kernel
  have h3 : (abcDisk.save (some abc3)).load 3 =
    .ok [((['a'], ['b']), (some 1, 0)), ((['c'], ['@']), (some 1, 1)), ((['a', 'b'], ['c', '@']), (some 1, 2))] := by decide +kernel
  exact ⟨_, _, h2, h3, (C86_runs_partial (by unfold Supported; decide +kernel) abc_ready [3, 3] (by decide)
    (Runs.cons abc_run3 (Runs.cons (r := none) (by decide +kernel) (Runs.nil _))) (by decide) (by decide) (by decide) h2 h3).1⟩

set_option synthInstance.maxSize 1000 in
/-- **C86** fails if fewer merges are learnt from a dataset after more: here three merges split `abcd` into more subtokens than two. -/
theorem C86_decreasing_violated : ∃ d few many, Ready [("abc".toList, 1)] [] abcDisk ∧ Runs plainSettings abcDisk [3, 1, 2] d ∧
    d.load 2 = .ok few ∧ d.load 3 = .ok many ∧ getBpeSubwords "abcd".toList ⟨[], few⟩ = .ok ["abc".toList, ['d'], []] ∧
    getBpeSubwords "abcd".toList ⟨[], many⟩ = .ok ["ab".toList, ['c'], ['d'], []] :=
  ⟨((abcDisk.save (some abc3)).save (some abc1)).save (some abc2), [((['a'], ['b']), (some 1, 0)), ((['a', 'b'], ['c']), (some 1, 1))],
    [((['a'], ['b']), (some 1, 0)), ((['c'], ['@']), (some 1, 1)), ((['a', 'b'], ['c', '@']), (some 1, 2))], abc_ready,
    Runs.cons abc_run3 (Runs.cons abc_run1 (Runs.cons abc_run2 (Runs.nil _))),
    by decide +kernel, by decide +kernel, by decide +kernel, by decide +kernel⟩

end Verif.Props
