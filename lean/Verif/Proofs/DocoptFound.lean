import Verif.Proofs.DocoptRun
/-!
# What is found on a command line
-/
namespace Verif.Props

open Verif Verif.Docopt Verif.Spec Verif.Spec.Line Line

namespace Line

abbrev path : Str := "--path".toList
abbrev out : Str := "--output-path".toList

theorem docopt_iff {t : List OptDef} {u : Usage} {argv : List Str} {c : Found} : docopt t u argv = some c ↔
    ∃ is, parseArgv t argv = some is ∧ u.run (is, []) = some ([], c) := by
  unfold docopt
  cases hp : parseArgv t argv with
  | none => exact ⟨fun h => (nomatch h), fun ⟨_, h, _⟩ => (nomatch h)⟩
  | some is =>
    change (match u.run (is, []) with
      | some ([], c) => some c
      | _ => none) = some c ↔ _
    constructor
    · intro h
      refine ⟨is, rfl, ?_⟩
      match hr : u.run (is, []) with
      | none => rw [hr] at h; cases h
      | some ([], c') => rw [hr] at h; cases h; rfl
      | some (_ :: _, c') => rw [hr] at h; cases h
    · rintro ⟨is', h1, h2⟩
      cases h1
      rw [h2]

theorem command_run {w : Str} {s s' : St} (h : (Usage.command w).run s = some s') :
    ∃ r, words s.1 = w :: r ∧ words s'.1 = r ∧ named s'.1 = named s.1 ∧ (∀ n, optOf n s'.1 = optOf n s.1) ∧ s'.2 = s.2 ++ [(w, none)] := by
  change (takeArg s.1).bind (fun p => if p.1 = w then some (p.2, s.2 ++ [(w, none)]) else none) = some s' at h
  obtain ⟨p, hp, h1⟩ := Option.bind_eq_some_iff.mp h
  by_cases e : p.1 = w
  · rw [if_pos e] at h1
    cases h1
    obtain ⟨a, b, d⟩ := takeArg_some hp
    exact ⟨_, by rw [a, e], rfl, b, d, rfl⟩
  · rw [if_neg e] at h1
    cases h1

theorem command_ok {w : Str} {s : St} {r : List Str} (h : words s.1 = w :: r) : ∃ s', (Usage.command w).run s = some s' := by
  obtain ⟨is', h1, _⟩ := takeArg_cons h
  refine ⟨(is', s.2 ++ [(w, none)]), ?_⟩
  change (takeArg s.1).bind (fun p => if p.1 = w then some (p.2, s.2 ++ [(w, none)]) else none) = _
  rw [h1]
  exact if_pos rfl

theorem argument_run {n : Str} {s s' : St} (h : (Usage.argument n).run s = some s') :
    ∃ v r, words s.1 = v :: r ∧ words s'.1 = r ∧ named s'.1 = named s.1 ∧ (∀ m, optOf m s'.1 = optOf m s.1) ∧ s'.2 = s.2 ++ [(n, some v)] := by
  change (takeArg s.1).map (fun p => (p.2, s.2 ++ [(n, some p.1)])) = some s' at h
  obtain ⟨p, hp, rfl⟩ := Option.map_eq_some_iff.mp h
  obtain ⟨a, b, d⟩ := takeArg_some hp
  exact ⟨_, _, a, rfl, b, d, rfl⟩

theorem argument_ok {n v : Str} {s : St} {r : List Str} (h : words s.1 = v :: r) : ∃ s', (Usage.argument n).run s = some s' := by
  obtain ⟨is', h1, _⟩ := takeArg_cons h
  refine ⟨(is', s.2 ++ [(n, some v)]), ?_⟩
  change (takeArg s.1).map (fun p => (p.2, s.2 ++ [(n, some p.1)])) = _
  rw [h1]
  rfl

theorem takeArg_length {is : List Item} {p : Str × List Item} (h : takeArg is = some p) : p.2.length + 1 = is.length := by
  obtain ⟨a, b, _⟩ := takeArg_some h
  rw [length_items, length_items is, a, b, List.length_cons]
  omega

/-- `(-p <path> [-o <path-out>] | <text>)` -/
theorem input_run (s : St) : input.run s = if path ∈ named s.1 then some (steps [path, out] s) else (Usage.argument "<text>".toList).run s := by
  change (match ((Usage.option path).run s).bind (Usage.optional (.option out)).run, (Usage.argument "<text>".toList).run s with
    | some x, some y => if y.1.length < x.1.length then some y else some x
    | some x, none => some x
    | none, r => r) = _
  rw [run_option]
  by_cases h : path ∈ named s.1
  · rw [if_pos h, if_pos h]
    change (match (Usage.optional (.option out)).run (step s path), (Usage.argument "<text>".toList).run s with
      | some x, some y => if y.1.length < x.1.length then some y else some x
      | some x, none => some x
      | none, r => r) = _
    rw [run_optional]
    cases ha : (Usage.argument "<text>".toList).run s with
    | none => rfl
    | some y =>
      simp only
      rw [if_neg]
      · rfl
      · have h1 := step_length h
        have h2 := step_length_le out (step s path)
        change (takeArg s.1).map (fun p => (p.2, s.2 ++ [("<text>".toList, some p.1)])) = some y at ha
        obtain ⟨p, hp, rfl⟩ := Option.map_eq_some_iff.mp ha
        have h3 := takeArg_length hp
        change ¬ p.2.length < (step (step s path) out).1.length
        omega
  · rw [if_neg h, if_neg h]
    rfl

/-- What is found for the words after the command. -/
def texts (r : List Str) : Found := r.map fun t => ("<text>".toList, some t)

/-- The text or the files, and the options. -/
structure Reading (A : List Str) (ex : List (Str × Str)) (s : St) (r : List Str) : Prop where
  words : words s.1 = r
  source : Source s.1 r
  once : (named s.1).Nodup
  allowed : ∀ n ∈ named s.1, n ∈ path :: out :: A
  apart : Apart ex (named s.1)

theorem takes_files {u : Usage} {A : List Str} {ex : List (Str × Str)} (h : Takes u A ex) (hp : path ∉ A) (ho : out ∉ A) :
    Takes (.seq (.seq (.optional (.option path)) (.optional (.option out))) u) (path :: out :: A) ex :=
  takes_seq (takes_seq (takes_optional path) (takes_optional out) (by decide)) h (by
    intro n hn
    simp only [List.cons_append, List.nil_append, List.mem_cons, List.not_mem_nil, or_false] at hn
    rcases hn with rfl | rfl
    · exact hp
    · exact ho)

theorem files_run (u : Usage) (s : St) : (Usage.seq (.seq (.optional (.option path)) (.optional (.option out))) u).run s = u.run (steps [path, out] s) := by
  change (((Usage.optional (.option path)).run s).bind (Usage.optional (.option out)).run).bind u.run = _
  rw [run_optional]
  change ((Usage.optional (.option out)).run (step s path)).bind u.run = _
  rw [run_optional]
  rfl

theorem input_all {u : Usage} {A : List Str} {ex : List (Str × Str)} (h : Takes u A ex) (hp : path ∉ A) (ho : out ∉ A) {s : St} {c : Found}
    (hr : (Usage.seq input u).run s = some ([], c)) : ∃ r, Reading A ex s r ∧
      ∃ ns, (∀ n ∈ named s.1, n ∈ ns) ∧ (∀ n ∈ ns, n ∈ path :: out :: A) ∧ c = s.2 ++ texts r ++ flat ns s.1 := by
  change (input.run s).bind u.run = _ at hr
  rw [input_run] at hr
  by_cases hin : path ∈ named s.1
  · rw [if_pos hin] at hr
    change u.run (steps [path, out] s) = _ at hr
    rw [← files_run] at hr
    obtain ⟨h1, h2, h3, h4, ns, h5, h6, h7⟩ := takes_all (takes_files h hp ho) hr
    exact ⟨[], ⟨h1, .inl ⟨rfl, hin⟩, h2, h3, h4⟩, ns, h5, h6, by rw [h7]; exact congrArg (· ++ _) (List.append_nil s.2).symm⟩
  · rw [if_neg hin] at hr
    obtain ⟨s', ha, hr⟩ := Option.bind_eq_some_iff.mp hr
    obtain ⟨v, r, e1, e2, e3, e4, e5⟩ := argument_run ha
    obtain ⟨h1, h2, h3, h4, ns, h5, h6, h7⟩ := takes_all h hr
    rw [e2] at h1
    subst h1
    rw [e3] at h2 h3 h4 h5
    refine ⟨[v], ⟨e1, .inr ⟨⟨v, rfl⟩, hin, fun h => ho (h3 _ h)⟩, h2, fun n hn => List.mem_cons_of_mem _ (List.mem_cons_of_mem _ (h3 n hn)), h4⟩, ns, h5,
      fun n hn => List.mem_cons_of_mem _ (List.mem_cons_of_mem _ (h6 n hn)), ?_⟩
    rw [h7, e5, flat_congr fun n _ => e4 n]
    rfl

theorem input_accepts {u : Usage} {A : List Str} {ex : List (Str × Str)} (h : Takes u A ex) (hp : path ∉ A) (ho : out ∉ A) {s : St} {r : List Str}
    (hr : Reading A ex s r) : ∃ c, (Usage.seq input u).run s = some ([], c) := by
  change ∃ c, (input.run s).bind u.run = _
  rw [input_run]
  rcases hr.source with ⟨e, hin⟩ | ⟨⟨t, e⟩, hin, hout⟩
  · have hin' : path ∈ named s.1 := hin
    rw [if_pos hin']
    change ∃ c, u.run (steps [path, out] s) = _
    rw [← files_run]
    exact takes_accepts (takes_files h hp ho) (by rw [hr.words, e]) hr.once hr.allowed hr.apart
  · have hin' : path ∉ named s.1 := hin
    rw [if_neg hin']
    obtain ⟨s', hs'⟩ := argument_ok (n := "<text>".toList) (hr.words.trans e)
    obtain ⟨v, q, e1, e2, e3, e4, e5⟩ := argument_run hs'
    rw [hs']
    have hq : q = [] := by
      have := e1.symm.trans (hr.words.trans e)
      injection this
    refine takes_accepts h (by rw [e2, hq]) (by rw [e3]; exact hr.once) ?_ (by rw [e3]; exact hr.apart)
    intro n hn
    rw [e3] at hn
    have := hr.allowed n hn
    rcases List.mem_cons.mp this with rfl | h'
    · exact absurd hn hin'
    · rcases List.mem_cons.mp h' with rfl | h''
      · exact absurd hn hout
      · exact h''

/-! ## What is found -/

/-- What has been found: options, and other names. -/
structure Holds (c pre : Found) (is : List Item) : Prop where
  opt : ∀ n, "--".toList <+: n → c.find? (·.1 = n) = (optOf n is).map (n, ·)
  pre : ∀ n, ¬ "--".toList <+: n → c.find? (·.1 = n) = pre.find? (·.1 = n)

theorem holds_of {pre : Found} {ns : List Str} {is : List Item} (hpre : ∀ p ∈ pre, ¬ "--".toList <+: p.1) (hns : ∀ n ∈ ns, "--".toList <+: n)
    (hsub : ∀ n ∈ named is, n ∈ ns) : Holds (pre ++ flat ns is) pre is where
  opt := fun n hn => by
    rw [List.find?_append, find_flat]
    have h1 : pre.find? (fun x => decide (x.1 = n)) = none := by
      rw [List.find?_eq_none]
      intro p hp e
      exact hpre p hp (by rw [of_decide_eq_true e]; exact hn)
    rw [h1]
    by_cases h : n ∈ ns
    · rw [if_pos h]; rfl
    · rw [if_neg h, optOf_none.mpr fun h' => h (hsub n h')]; rfl
  pre := fun n hn => by
    rw [List.find?_append, find_flat, if_neg fun h => hn (hns n h)]
    exact Option.or_none

theorem valueOf_eq (is : List Item) (n : String) : valueOf is n = (optOf n.toList is).join := by
  unfold valueOf
  congr 1
  induction is with
  | nil => rfl
  | cons i r ih =>
    cases i with
    | arg v => rw [optOf_arg]; exact ih
    | opt m v =>
      by_cases h : m = n.toList
      · subst h
        rw [optOf_same, List.findSome?_cons]
        simp only [if_pos]
      · rw [optOf_other h, List.findSome?_cons]
        simp only [if_neg h]
        exact ih

theorem flag_find (c : Found) (n : String) : c.flag n = (c.find? (·.1 = n.toList)).isSome := by
  unfold Found.flag
  induction c with
  | nil => rfl
  | cons p r ih =>
    rw [List.any_cons, List.find?_cons, ih]
    cases decide (p.1 = n.toList) <;> rfl

theorem Holds.said {c pre : Found} {is : List Item} (h : Holds c pre is) (n : String) (hn : "--".toList <+: n.toList) : c.flag n = decide (Said is n) := by
  rw [flag_find, h.opt _ hn]
  by_cases hs : Said is n
  · rw [decide_eq_true hs]
    cases ho : optOf n.toList is with
    | none => exact absurd hs (optOf_none.mp ho)
    | some _ => rfl
  · rw [decide_eq_false hs, optOf_none.mpr hs]
    rfl

theorem Holds.value {c pre : Found} {is : List Item} (h : Holds c pre is) (n : String) (hn : "--".toList <+: n.toList) : c.value n = valueOf is n := by
  unfold Found.value
  rw [h.opt _ hn, valueOf_eq]
  cases optOf n.toList is <;> rfl

theorem Holds.flag' {c pre : Found} {is : List Item} (h : Holds c pre is) (n : String) (hn : ¬ "--".toList <+: n.toList) :
    c.flag n = pre.flag n := by
  rw [flag_find, h.pre _ hn, flag_find]

theorem Holds.value' {c pre : Found} {is : List Item} (h : Holds c pre is) (n : String) (hn : ¬ "--".toList <+: n.toList) :
    c.value n = pre.value n := by
  unfold Found.value
  rw [h.pre _ hn]

/-- What the commands get, if the words are known. -/
theorem Holds.splitArgs {c pre : Found} {is : List Item} (h : Holds c pre is) {cmd : Cmd}
    (h1 : pre.flag "nosplit" = decide (cmd = .nosplit)) (h2 : pre.flag "chars" = decide (cmd = .chars))
    (h3 : pre.flag "basic" = decide (cmd = .basic)) (h4 : pre.flag "bpe" = decide (cmd = .bpe))
    (h5 : pre.flag "1k" = decide (cmd = .bpe ∧ (words is)[1]? = some "1k".toList))
    (h6 : pre.flag "5k" = decide (cmd = .bpe ∧ (words is)[1]? = some "5k".toList))
    (h7 : pre.flag "10k" = decide (cmd = .bpe ∧ (words is)[1]? = some "10k".toList))
    (h8 : pre.value "<bpe-codes-id>" = if cmd = .bpe then (words is)[1]?.filter (· ∉ ["1k".toList, "5k".toList, "10k".toList]) else none)
    (h9 : pre.value "<text>" = if cmd = .bpe then (words is)[2]? else (words is)[1]?) : c.splitArgs = wanted cmd is := by
  unfold Found.splitArgs wanted
  rw [h.said "--no-spaces" (by decide), h.said "--no-unicode" (by decide), h.said "--no-case" (by decide), h.said "--no-com" (by decide),
    h.said "--no-str" (by decide), h.said "--full-strings" (by decide), h.value "--max-str-length" (by decide),
    h.said "--split-numbers" (by decide), h.said "--ronin" (by decide), h.said "--stem" (by decide), h.value "--path" (by decide),
    h.value "--output-path" (by decide), h.value "--ext" (by decide), h.said "--calc-vocab" (by decide),
    h.flag' "nosplit" (by decide), h.flag' "chars" (by decide), h.flag' "basic" (by decide), h.flag' "bpe" (by decide),
    h.flag' "1k" (by decide), h.flag' "5k" (by decide), h.flag' "10k" (by decide), h.value' "<bpe-codes-id>" (by decide),
    h.value' "<text>" (by decide), h1, h2, h3, h4, h5, h6, h7, h8, h9]

theorem texts_plain (r : List Str) : ∀ p ∈ texts r, ¬ "--".toList <+: p.1 := by
  intro p hp
  obtain ⟨t, _, rfl⟩ := List.mem_map.mp hp
  change ¬ "--".toList <+: "<text>".toList
  decide

theorem texts_flag (r : List Str) (n : String) (hn : "<text>".toList ≠ n.toList) : (texts r).flag n = false := by
  unfold Found.flag texts
  rw [List.any_eq_false]
  intro p hp
  obtain ⟨t, _, rfl⟩ := List.mem_map.mp hp
  simpa using hn

theorem flag_cons (p : Str × Option Str) (c : Found) (n : String) : Found.flag (p :: c) n = (decide (p.1 = n.toList) || c.flag n) := rfl

theorem value_other {p : Str × Option Str} (c : Found) {n : String} (h : p.1 ≠ n.toList) : Found.value (p :: c) n = c.value n := by
  unfold Found.value
  rw [List.find?_cons, decide_eq_false h]

theorem value_same (p : Str × Option Str) (c : Found) {n : String} (h : p.1 = n.toList) : Found.value (p :: c) n = p.2 := by
  unfold Found.value
  rw [List.find?_cons, decide_eq_true h]
  rfl

theorem texts_value (r : List Str) : (texts r).value "<text>" = r[0]? := by
  cases r with
  | nil => rfl
  | cons t q => exact value_same _ _ rfl

theorem texts_value_other (r : List Str) {n : String} (h : "<text>".toList ≠ n.toList) : (texts r).value n = none := by
  induction r with
  | nil => rfl
  | cons t q ih => exact (value_other _ h).trans ih

/-! ## The commands -/

theorem writes_named {cmd : Cmd} {argv : List Str} {is : List Item} (h : Writes cmd argv is) : ∀ n ∈ named is, ∃ sw, Has cmd sw ∧ n = sw.long.toList := by
  have app : ∀ a b : List Item, named (a ++ b) = named a ++ named b := fun a b => List.filterMap_append
  have let_ : ∀ {cs js}, Letters cmd cs js → ∀ n ∈ named js, ∃ sw, Has cmd sw ∧ n = sw.long.toList := by
    intro cs js hl
    induction hl with
    | nil => exact fun n hn => nomatch hn
    | cons h _ _ _ ih =>
      intro n hn
      rcases List.mem_cons.mp hn with rfl | hn
      · exact ⟨_, h, rfl⟩
      · exact ih n hn
  induction h with
  | nil => exact fun n hn => nomatch hn
  | word _ _ ih => exact ih
  | dashes rest =>
    intro n hn
    exfalso
    obtain ⟨i, hi, e⟩ := List.mem_filterMap.mp hn
    obtain ⟨v, _, rfl⟩ := List.mem_map.mp hi
    cases e
  | long h _ _ ih | longEq h _ _ ih | longNext h _ _ _ ih =>
    intro n hn
    rcases List.mem_cons.mp hn with rfl | hn
    · exact ⟨_, h.1, rfl⟩
    · exact ih n hn
  | letters h _ _ ih =>
    intro n hn
    rw [app] at hn
    rcases List.mem_append.mp hn with hn | hn
    · exact let_ h n hn
    · exact ih n hn
  | lettersValue h hs _ _ _ _ ih | lettersNext h hs _ _ _ _ ih =>
    intro n hn
    rw [app] at hn
    rcases List.mem_append.mp hn with hn | hn
    · exact let_ h n hn
    · rcases List.mem_cons.mp hn with rfl | hn
      · exact ⟨_, hs, rfl⟩
      · exact ih n hn

theorem names_dash : ∀ sw ∈ switches, "--".toList <+: sw.long.toList := fun sw h => (long_shape sw h).1

end Line

end Verif.Props
