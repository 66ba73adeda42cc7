import Verif.Proofs.Occurs
import Verif.Proofs.Files
import Verif.Props.BpeEncode
import Verif.Props.BpeLearn
/-!
# C94: Only merges that occur in a word matter for it
-/
namespace Verif.Props
open Verif Spec

/-- **C94** Two lists of merges that agree on the merges which occur in a word split it alike, whatever else they contain. -/
theorem C94_word {m m' : MergeList} (cache : BpeCache) (w : Str) (h : ∀ p, OccursIn p w → m.priority? p = m'.priority? p) :
    getBpeSubwords w ⟨cache, m⟩ = getBpeSubwords w ⟨cache, m'⟩ := by
  have e := encodeWord_same (m := m) (m' := m') w fun a b hab => h (a, b) hab
  unfold getBpeSubwords getBpeSubwordsSt
  cases hc : cache.get? (escape w true) with
  | some r =>
    simp only [hc, bind, Except.bind]
    cases unescape r with
    | error e => rfl
    | ok x => rfl
  | none =>
    simp only [hc, e, bind, Except.bind]
    cases encodeWord (escape w true) m' with
    | error e => rfl
    | ok x =>
      simp only
      cases unescape x with
      | error e => rfl
      | ok y => rfl

theorem priority_filter (m : MergeList) (q : Str × Str → Bool) {p : Str × Str} (hp : q p = true) :
    MergeList.priority? (m.filter fun e => q e.1) p = m.priority? p := by
  unfold MergeList.priority?
  congr 1
  induction m with
  | nil => rfl
  | cons e m ih =>
    obtain ⟨a, v⟩ := e
    by_cases h : a = p
    · subst h
      rw [List.filter_cons_of_pos (by exact hp)]
      simp [Dict.get?]
    · by_cases hq : q a = true
      · rw [List.filter_cons_of_pos (by exact hq)]
        simp only [Dict.get?, if_neg h, ih]
      · rw [List.filter_cons_of_neg (by exact hq)]
        simp only [Dict.get?, if_neg h, ih]

/-- **C94** Leaving out merges that do not occur in a word does not change how the word is split. -/
theorem C94_without (m : MergeList) (cache : BpeCache) (w : Str) (keep : Str × Str → Bool) (h : ∀ p, OccursIn p w → keep p = true) :
    getBpeSubwords w ⟨cache, m.filter fun e => keep e.1⟩ = getBpeSubwords w ⟨cache, m⟩ :=
  C94_word cache w fun p hp => priority_filter m keep (h p hp)

theorem get_mem {m : MergeList} {p : Str × Str} {v : Option Int × Nat} (h : m.get? p = some v) : (p, v) ∈ m := by
  induction m with
  | nil => cases h
  | cons e m ih =>
    obtain ⟨a, x⟩ := e
    by_cases ha : a = p
    · subst ha
      simp only [Dict.get?, if_true, Option.some.injEq] at h
      subst h
      exact List.mem_cons_self
    · simp only [Dict.get?, if_neg ha] at h
      exact List.mem_cons_of_mem _ (ih h)

/-- **C94** More merges change nothing for the words in which none of them occurs. -/
theorem C94_more (m more : MergeList) (cache : BpeCache) (w : Str) (h : ∀ e ∈ more, ¬ OccursIn e.1 w) :
    getBpeSubwords w ⟨cache, m ++ more⟩ = getBpeSubwords w ⟨cache, m⟩ := by
  refine C94_word cache w fun p hp => ?_
  have hn : more.get? p = none := by
    cases hg : more.get? p with
    | none => rfl
    | some v => exact absurd hp (h _ (get_mem hg))
  unfold MergeList.priority?
  congr 1
  induction m with
  | nil => exact hn
  | cons e m ih =>
    obtain ⟨a, v⟩ := e
    simp only [List.cons_append, Dict.get?, ih]

/-- **C94** A word in which no merge occurs is split into its characters. -/
theorem C94_none (m : MergeList) (cache : BpeCache) (w : Str) (hs : ' ' ∉ w) (hc : cache.get? (escape w true) = none)
    (h : ∀ e ∈ m, ¬ OccursIn e.1 w) : getBpeSubwords w ⟨cache, m⟩ = .ok (w.map (fun c => [c]) ++ [[]]) := by
  rw [← C03_chars_split w hs cache hc]
  exact C94_more [] m cache w h

/-- **C94** If learning goes on, the words in which none of the further merges occurs are split as before. -/
theorem C94_learnt (words : Dict Str Nat) (hw : words.WF) (hp : ∀ e ∈ words, 0 < e.2) (n k : Nat) :
    ∃ v v' few many, doMerges (trainingVocab words) n = .ok (v, few) ∧ doMerges (trainingVocab words) (n + k) = .ok (v', many) ∧
      ∀ cache w, (∀ e ∈ many.drop n, ¬ OccursIn e.1 w) → getBpeSubwords w ⟨cache, many⟩ = getBpeSubwords w ⟨cache, few⟩ := by
  obtain ⟨v, v', few, many, h1, h2, rfl⟩ := C07_fewer_merges_prefix words hw hp n k
  refine ⟨v, v', _, many, h1, h2, fun cache w h => ?_⟩
  have := C94_more (many.take n) (many.drop n) cache w h
  rwa [List.take_append_drop] at this

/-- The merges of `ab` and `cd`: the second one does not occur in `abc`, so it may be left out, but it occurs in `abcd`. -/
example : (∀ e ∈ ([((['c'], ['d']), (some 1, 1))] : MergeList), ¬ OccursIn e.1 "abc".toList) ∧
    getBpeSubwords "abc".toList ⟨[], [((['a'], ['b']), (some 2, 0)), ((['c'], ['d']), (some 1, 1))]⟩ = .ok [['a', 'b'], ['c'], []] ∧
    getBpeSubwords "abc".toList ⟨[], [((['a'], ['b']), (some 2, 0))]⟩ = .ok [['a', 'b'], ['c'], []] ∧
    getBpeSubwords "abcd".toList ⟨[], [((['a'], ['b']), (some 2, 0)), ((['c'], ['d']), (some 1, 1))]⟩ = .ok [['a', 'b'], ['c', 'd'], []] ∧
    getBpeSubwords "abcd".toList ⟨[], [((['a'], ['b']), (some 2, 0))]⟩ = .ok [['a', 'b'], ['c'], ['d'], []] := by
  refine ⟨?_, by decide +kernel, by decide +kernel, by decide +kernel, by decide +kernel⟩
  intro e he ⟨u, v, h⟩
  obtain rfl := List.mem_singleton.1 he
  have hd : 'd' ∈ searched "abc".toList := by rw [h]; simp
  exact absurd hd (by decide)

/-- The mark of the end can be part of an occurrence, and spaces are left out. -/
example : OccursIn (['b'], ['@']) "ab".toList ∧ OccursIn (['a'], ['b']) "a b".toList ∧
    getBpeSubwords "ab".toList ⟨[], [((['b'], ['@']), (some 2, 0))]⟩ = .ok [['a'], ['b']] :=
  ⟨⟨['a'], [], by decide⟩, ⟨[], ['@'], by decide⟩, by decide +kernel⟩

end Verif.Props
