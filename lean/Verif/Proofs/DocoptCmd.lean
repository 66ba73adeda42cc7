import Verif.Proofs.DocoptFound
/-!
# The usage patterns of the commands
-/
namespace Verif.Props

open Verif Verif.Docopt Verif.Spec Verif.Spec.Line Line

namespace Line

/-- The options that exclude each other. -/
def Agree (l : List Str) : Prop :=
  ("--no-str".toList ∈ l → "--max-str-length".toList ∉ l ∧ "--full-strings".toList ∉ l) ∧ ("--no-unicode".toList ∈ l → "--bytes".toList ∉ l)

/-- The options of a command, as they are used in its usage pattern `u`. -/
structure Covers (cmd : Cmd) (u : Usage) (A : List Str) (ex : List (Str × Str)) : Prop where
  takes : Takes u A ex
  path : path ∉ A
  out : out ∉ A
  all : ∀ sw ∈ switches, cmd ∈ sw.cmds → sw.long.toList ∈ Line.path :: Line.out :: A
  dash : ∀ n ∈ Line.path :: Line.out :: A, "--".toList <+: n
  agree : ∀ l, (∀ n ∈ l, n ∈ Line.path :: Line.out :: A) → (Apart ex l ↔ Agree l)

theorem agree_max {A : List Str} (hf : "--full-strings".toList ∉ path :: out :: A) (hb : "--bytes".toList ∉ path :: out :: A) (l : List Str)
    (hl : ∀ n ∈ l, n ∈ path :: out :: A) : Apart [("--no-str".toList, "--max-str-length".toList)] l ↔ Agree l := by
  constructor
  · exact fun h => ⟨fun hs => ⟨h _ List.mem_cons_self hs, fun hm => hf (hl _ hm)⟩, fun _ hm => hb (hl _ hm)⟩
  · intro h p hp h1
    rw [List.mem_singleton.mp hp] at h1 ⊢
    exact (h.1 h1).1

theorem covers_nosplit : ∃ u A ex, Cmd.nosplit.usage = .seq (.command Cmd.nosplit.word) (.seq input u) ∧ Covers .nosplit u A ex := by
  refine ⟨_, _, _, rfl, takes_seq (takes_optional _) (takes_seq (takes_optional _) (takes_seq (takes_optional _) (takes_seq (takes_optional _)
      (takes_seq (takes_group (by decide) (by decide) (by decide)) (takes_seq (takes_optional _) (takes_optional _) (by decide)) (by decide)) (by decide)) (by decide)) (by decide)) (by decide), ?_, ?_, ?_, ?_, ?_⟩
  · decide
  · decide
  · decide +kernel
  · decide
  · intro l hl
    constructor
    · exact fun h => ⟨fun hs => ⟨h ("--no-str".toList, "--max-str-length".toList) (by decide) hs, h ("--no-str".toList, "--full-strings".toList) (by decide) hs⟩,
        fun _ hm => absurd (hl _ hm) (by decide)⟩
    · intro h p hp h1
      have hp' : p ∈ [("--no-str".toList, "--max-str-length".toList), ("--no-str".toList, "--full-strings".toList)] := hp
      rcases List.mem_cons.mp hp' with rfl | hp'
      · exact (h.1 h1).1
      · rw [List.mem_singleton.mp hp'] at h1 ⊢
        exact (h.1 h1).2

theorem covers_chars : ∃ u A ex, Cmd.chars.usage = .seq (.command Cmd.chars.word) (.seq input u) ∧ Covers .chars u A ex := by
  refine ⟨_, _, _, rfl, takes_seq (takes_optional _) (takes_seq (takes_optional _) (takes_seq (takes_optional _) (takes_seq (takes_optional _)
      (takes_seq (takes_either (by decide)) (takes_seq (takes_optional _) (takes_optional _) (by decide)) (by decide)) (by decide)) (by decide)) (by decide)) (by decide), ?_, ?_, ?_, ?_, ?_⟩
  · decide
  · decide
  · decide +kernel
  · decide
  · exact agree_max (by decide) (by decide)

theorem covers_basic : ∃ u A ex, Cmd.basic.usage = .seq (.command Cmd.basic.word) (.seq input u) ∧ Covers .basic u A ex := by
  refine ⟨_, _, _, rfl, takes_seq (takes_optional _) (takes_seq (takes_optional _) (takes_seq (takes_optional' (takes_optional _))
      (takes_seq (takes_optional' (takes_optional' (takes_optional _))) (takes_seq (takes_optional _) (takes_seq (takes_optional _)
      (takes_seq (takes_optional _) (takes_seq (takes_optional _)
      (takes_seq (takes_either (by decide)) (takes_seq (takes_optional _) (takes_optional _) (by decide)) (by decide)) (by decide)) (by decide)) (by decide)) (by decide)) (by decide)) (by decide)) (by decide)) (by decide), ?_, ?_, ?_, ?_, ?_⟩
  · decide
  · decide
  · decide +kernel
  · decide
  · exact agree_max (by decide) (by decide)

/-- `(1k | 5k | 10k | <bpe-codes-id>)` -/
def codes : Usage := .either (.command "1k".toList) (.either (.command "5k".toList) (.either (.command "10k".toList) (.argument "<bpe-codes-id>".toList)))

theorem covers_bpe : ∃ u A ex, Cmd.bpe.usage = .seq (.command Cmd.bpe.word) (.seq codes (.seq input u)) ∧ Covers .bpe u A ex := by
  refine ⟨_, _, _, rfl, takes_seq (takes_optional _) (takes_seq (takes_either (by decide)) (takes_seq (takes_optional _) (takes_seq (takes_optional _)
      (takes_seq (takes_optional _) (takes_seq (takes_optional _) (takes_optional _) (by decide)) (by decide)) (by decide)) (by decide)) (by decide)) (by decide), ?_, ?_, ?_, ?_, ?_⟩
  · decide
  · decide
  · decide +kernel
  · decide
  · exact agree_max (by decide) (by decide)

/-- What is found for the second word of `bpe`. -/
def codeFound (v : Str) : Str × Option Str :=
  if v ∈ ["1k".toList, "5k".toList, "10k".toList] then (v, none) else ("<bpe-codes-id>".toList, some v)

theorem command_word {w v : Str} {s : St} {is' : List Item} (h : takeArg s.1 = some (v, is')) :
    (Usage.command w).run s = if v = w then some (is', s.2 ++ [(w, none)]) else none := by
  change (takeArg s.1).bind (fun p => if p.1 = w then some (p.2, s.2 ++ [(w, none)]) else none) = _
  rw [h]
  rfl

theorem argument_word {n v : Str} {s : St} {is' : List Item} (h : takeArg s.1 = some (v, is')) :
    (Usage.argument n).run s = some (is', s.2 ++ [(n, some v)]) := by
  change (takeArg s.1).map (fun p => (p.2, s.2 ++ [(n, some p.1)])) = _
  rw [h]
  rfl

/-- If both alternatives leave the same, the first one is taken. -/
theorem either_word {a b : Usage} {s : St} {is' : List Item} {x : Option St} {y : Found} (ha : a.run s = x) (hx : ∀ p, x = some p → p.1 = is')
    (hb : b.run s = some (is', y)) : (Usage.either a b).run s = some (x.getD (is', y)) := by
  change (match a.run s, b.run s with
    | some x, some y => if y.1.length < x.1.length then some y else some x
    | some x, none => some x
    | none, r => r) = _
  rw [ha, hb]
  cases x with
  | none => rfl
  | some p =>
    simp only
    rw [hx p rfl, if_neg (Nat.lt_irrefl _)]
    rfl

theorem codes_word {v : Str} {s : St} {is' : List Item} (h : takeArg s.1 = some (v, is')) :
    codes.run s = some (is', s.2 ++ [codeFound v]) := by
  have fst : ∀ w : Str, ∀ p, (if v = w then some (is', s.2 ++ [(w, none)]) else none : Option St) = some p → p.1 = is' := by
    intro w p hp
    split at hp
    · cases hp; rfl
    · cases hp
  have e1 := either_word (b := .argument "<bpe-codes-id>".toList) (command_word (w := "10k".toList) h) (fst _) (argument_word h)
  have f1 : ∀ x : Option St, (∀ p, x = some p → p.1 = is') → ∀ y : Found, x.getD (is', y) = (is', (x.getD (is', y)).2) := by
    intro x hx y
    cases x with
    | none => rfl
    | some p => exact Prod.ext (hx p rfl) rfl
  rw [f1 _ (fst _)] at e1
  have e2 := either_word (command_word (w := "5k".toList) h) (fst _) e1
  rw [f1 _ (fst _)] at e2
  have e3 := either_word (command_word (w := "1k".toList) h) (fst _) e2
  refine e3.trans ?_
  unfold codeFound
  by_cases h1 : v = "1k".toList
  · subst h1; rfl
  · by_cases h2 : v = "5k".toList
    · subst h2; rfl
    · by_cases h3 : v = "10k".toList
      · subst h3; rfl
      · rw [if_neg h1, if_neg h2, if_neg h3, if_neg (by simp only [List.mem_cons, List.not_mem_nil, or_false]; rintro (h | h | h) <;> contradiction)]
        rfl

theorem codes_run {s s' : St} (h : codes.run s = some s') :
    ∃ v r, words s.1 = v :: r ∧ words s'.1 = r ∧ named s'.1 = named s.1 ∧ (∀ m, optOf m s'.1 = optOf m s.1) ∧ s'.2 = s.2 ++ [codeFound v] := by
  cases ht : takeArg s.1 with
  | none =>
    exfalso
    have hc : ∀ w, (Usage.command w).run s = none := fun w => by
      change (takeArg s.1).bind _ = _
      rw [ht]; rfl
    have ha : ∀ w, (Usage.argument w).run s = none := fun w => by
      change (takeArg s.1).map _ = _
      rw [ht]; rfl
    have hn : ∀ a b : Usage, a.run s = none → b.run s = none → (Usage.either a b).run s = none := fun a b e1 e2 => by
      change (match a.run s, b.run s with
        | some x, some y => if y.1.length < x.1.length then some y else some x
        | some x, none => some x
        | none, r => r) = _
      rw [e1, e2]
    have : codes.run s = none := hn _ _ (hc _) (hn _ _ (hc _) (hn _ _ (hc _) (ha _)))
    rw [this] at h
    cases h
  | some p =>
    rw [codes_word (v := p.1) (is' := p.2) ht] at h
    cases h
    obtain ⟨a, b, d⟩ := takeArg_some ht
    exact ⟨_, _, a, rfl, b, d, rfl⟩

theorem codes_ok {v : Str} {s : St} {r : List Str} (h : words s.1 = v :: r) : ∃ s', codes.run s = some s' := by
  obtain ⟨is', h1, _⟩ := takeArg_cons h
  exact ⟨_, codes_word h1⟩

/-! ## What a command accepts, and what it gets -/

theorem fits_plain {cmd : Cmd} (h1 : cmd ≠ .bpe) (h2 : cmd ≠ .learn) (is : List Item) :
    Fits cmd is ↔ (named is).Nodup ∧ (∃ rest, words is = cmd.word :: rest ∧ Source is rest) ∧ Agree (named is) := by
  constructor
  · intro h
    refine ⟨h.once, ?_, h.strings, h.unicode⟩
    have := h.words
    cases cmd <;> first | exact this | exact absurd rfl h1 | exact absurd rfl h2
  · rintro ⟨a, b, c⟩
    refine ⟨a, ?_, c.1, c.2⟩
    cases cmd <;> first | exact b | exact absurd rfl h1 | exact absurd rfl h2

theorem source_congr {is is' : List Item} {r : List Str} (h : named is' = named is) : Source is' r ↔ Source is r := by
  unfold Source Said
  rw [h]

theorem covers_named {cmd : Cmd} {u : Usage} {A : List Str} {ex : List (Str × Str)} (hc : Covers cmd u A ex) {l : List Str}
    (hn : ∀ n ∈ l, ∃ sw, Has cmd sw ∧ n = sw.long.toList) : ∀ n ∈ l, n ∈ path :: out :: A := fun n h => by
  obtain ⟨sw, hs, rfl⟩ := hn n h
  exact hc.all sw hs.1 hs.2

/-- `nosplit`, `chars` and `basic`. -/
theorem plain_accepts {cmd : Cmd} {u : Usage} {A : List Str} {ex : List (Str × Str)} (hu : cmd.usage = .seq (.command cmd.word) (.seq input u))
    (hc : Covers cmd u A ex) (h1 : cmd ≠ .bpe) (h2 : cmd ≠ .learn) {is : List Item} (hn : ∀ n ∈ named is, ∃ sw, Has cmd sw ∧ n = sw.long.toList)
    (hf : Fits cmd is) : ∃ c, cmd.usage.run (is, []) = some ([], c) := by
  obtain ⟨a, ⟨rest, b1, b2⟩, d⟩ := (fits_plain h1 h2 is).mp hf
  obtain ⟨s', hs⟩ := command_ok (s := (is, [])) (w := cmd.word) b1
  obtain ⟨r, e1, e2, e3, e4, e5⟩ := command_run hs
  have hr : r = rest := by
    have := e1.symm.trans b1
    injection this
  have hl := covers_named hc hn
  obtain ⟨c, hcr⟩ := input_accepts hc.takes hc.path hc.out (s := s') (r := rest)
    ⟨by rw [e2, hr], (source_congr e3).mpr b2, by rw [e3]; exact a, by rw [e3]; exact hl, by rw [e3]; exact (hc.agree _ hl).mpr d⟩
  refine ⟨c, ?_⟩
  rw [hu]
  change ((Usage.command cmd.word).run (is, [])).bind (Usage.seq input u).run = _
  rw [hs]
  exact hcr

theorem word_plain : ∀ cmd : Cmd, ¬ "--".toList <+: cmd.word := by
  intro cmd
  cases cmd <;> decide

theorem plain_gives {cmd : Cmd} {u : Usage} {A : List Str} {ex : List (Str × Str)} (hu : cmd.usage = .seq (.command cmd.word) (.seq input u))
    (hc : Covers cmd u A ex) (h1 : cmd ≠ .bpe) (h2 : cmd ≠ .learn) {is : List Item} {c : Found} (h : cmd.usage.run (is, []) = some ([], c)) :
    Fits cmd is ∧ c.splitArgs = wanted cmd is := by
  rw [hu] at h
  obtain ⟨s', hs, h⟩ := Option.bind_eq_some_iff.mp (show ((Usage.command cmd.word).run (is, [])).bind (Usage.seq input u).run = _ from h)
  obtain ⟨r, e1, e2, e3, e4, e5⟩ := command_run hs
  obtain ⟨r', hr, ns, n1, n2, hcc⟩ := input_all hc.takes hc.path hc.out h
  have er : r' = r := hr.words.symm.trans e2
  subst er
  have hso := (source_congr e3).mp hr.source
  have hap := hr.apart
  have hal := hr.allowed
  have hon := hr.once
  rw [e3] at hap hal hon n1
  refine ⟨(fits_plain h1 h2 is).mpr ⟨hon, ⟨r', e1, hso⟩, (hc.agree _ hal).mp hap⟩, ?_⟩
  rw [e5, flat_congr fun n _ => e4 n] at hcc
  have hh : Holds c ([(cmd.word, none)] ++ texts r') is := by
    rw [hcc]
    refine holds_of ?_ (fun n hn => hc.dash n (n2 n hn)) n1
    intro p hp
    rcases List.mem_cons.mp hp with rfl | hp
    · exact word_plain cmd
    · exact texts_plain r' p hp
  have w1 : words is = cmd.word :: r' := e1
  have fl : ∀ n : String, "<text>".toList ≠ n.toList → Found.flag ([(cmd.word, none)] ++ texts r') n = decide (cmd.word = n.toList) := fun n hn => by
    change Found.flag ((cmd.word, none) :: texts r') n = _
    rw [flag_cons, texts_flag r' n hn, Bool.or_false]
  have vl : ∀ n : String, cmd.word ≠ n.toList → Found.value ([(cmd.word, none)] ++ texts r') n = (texts r').value n := fun n hn =>
    value_other _ hn
  refine hh.splitArgs ?_ ?_ ?_ ?_ ?_ ?_ ?_ ?_ ?_
  · rw [fl _ (by decide)]; cases cmd <;> decide
  · rw [fl _ (by decide)]; cases cmd <;> decide
  · rw [fl _ (by decide)]; cases cmd <;> decide
  · rw [fl _ (by decide)]; cases cmd <;> decide
  · rw [fl _ (by decide)]; exact (decide_eq_false (by cases cmd <;> decide)).trans (decide_eq_false (fun h => h1 h.1)).symm
  · rw [fl _ (by decide)]; exact (decide_eq_false (by cases cmd <;> decide)).trans (decide_eq_false (fun h => h1 h.1)).symm
  · rw [fl _ (by decide)]; exact (decide_eq_false (by cases cmd <;> decide)).trans (decide_eq_false (fun h => h1 h.1)).symm
  · rw [if_neg h1, vl _ (by cases cmd <;> decide), texts_value_other r' (by decide)]
  · rw [if_neg h1, vl _ (by cases cmd <;> decide), texts_value, w1]
    rfl

/-- `bpe` -/
theorem fits_bpe (is : List Item) :
    Fits .bpe is ↔ (named is).Nodup ∧ (∃ id rest, words is = Cmd.bpe.word :: id :: rest ∧ Source is rest) ∧ Agree (named is) :=
  ⟨fun h => ⟨h.once, h.words, h.strings, h.unicode⟩, fun ⟨a, b, c⟩ => ⟨a, b, c.1, c.2⟩⟩

theorem bpe_accepts {u : Usage} {A : List Str} {ex : List (Str × Str)} (hu : Cmd.bpe.usage = .seq (.command Cmd.bpe.word) (.seq codes (.seq input u)))
    (hc : Covers .bpe u A ex) {is : List Item} (hn : ∀ n ∈ named is, ∃ sw, Has .bpe sw ∧ n = sw.long.toList)
    (hf : Fits .bpe is) : ∃ c, Cmd.bpe.usage.run (is, []) = some ([], c) := by
  obtain ⟨a, ⟨id, rest, b1, b2⟩, d⟩ := (fits_bpe is).mp hf
  obtain ⟨s', hs⟩ := command_ok (s := (is, [])) (w := Cmd.bpe.word) b1
  obtain ⟨r, e1, e2, e3, e4, e5⟩ := command_run hs
  have hr : r = id :: rest := by
    have := e1.symm.trans b1
    injection this
  subst hr
  obtain ⟨s2, hs2⟩ := codes_ok e2
  obtain ⟨v, q, f1, f2, f3, f4, f5⟩ := codes_run hs2
  have hq : q = rest := by
    have := f1.symm.trans e2
    injection this
  have hl := covers_named hc hn
  have e3' : named s2.1 = named is := f3.trans e3
  obtain ⟨c, hcr⟩ := input_accepts hc.takes hc.path hc.out (s := s2) (r := rest)
    ⟨by rw [f2, hq], (source_congr e3').mpr b2, by rw [e3']; exact a, by rw [e3']; exact hl, by rw [e3']; exact (hc.agree _ hl).mpr d⟩
  refine ⟨c, ?_⟩
  rw [hu]
  change ((Usage.command Cmd.bpe.word).run (is, [])).bind (Usage.seq codes (.seq input u)).run = _
  rw [hs]
  change (codes.run s').bind (Usage.seq input u).run = _
  rw [hs2]
  exact hcr

theorem code_plain (v : Str) (hv : ¬ "--".toList <+: (codeFound v).1) (r : List Str) : ∀ p ∈ (Cmd.bpe.word, none) :: codeFound v :: texts r, ¬ "--".toList <+: p.1 := by
  intro p hp
  rcases List.mem_cons.mp hp with rfl | hp
  · exact word_plain .bpe
  · rcases List.mem_cons.mp hp with rfl | hp
    · exact hv
    · exact texts_plain r p hp

theorem bpe_gives {u : Usage} {A : List Str} {ex : List (Str × Str)} (hu : Cmd.bpe.usage = .seq (.command Cmd.bpe.word) (.seq codes (.seq input u)))
    (hc : Covers .bpe u A ex) {is : List Item} {c : Found} (h : Cmd.bpe.usage.run (is, []) = some ([], c)) :
    Fits .bpe is ∧ c.splitArgs = wanted .bpe is := by
  rw [hu] at h
  obtain ⟨s', hs, h⟩ := Option.bind_eq_some_iff.mp (show ((Usage.command Cmd.bpe.word).run (is, [])).bind (Usage.seq codes (.seq input u)).run = _ from h)
  obtain ⟨r0, e1, e2, e3, e4, e5⟩ := command_run hs
  obtain ⟨s2, hs2, h⟩ := Option.bind_eq_some_iff.mp (show (codes.run s').bind (Usage.seq input u).run = _ from h)
  obtain ⟨v, r, f1, f2, f3, f4, f5⟩ := codes_run hs2
  obtain ⟨r', hr, ns, n1, n2, hcc⟩ := input_all hc.takes hc.path hc.out h
  have er : r' = r := hr.words.symm.trans f2
  subst er
  have e0 : r0 = v :: r' := e2.symm.trans f1
  subst e0
  have e3' : named s2.1 = named is := f3.trans e3
  have hso := (source_congr e3').mp hr.source
  have hap := hr.apart
  have hal := hr.allowed
  have hon := hr.once
  rw [e3'] at hap hal hon n1
  refine ⟨(fits_bpe is).mpr ⟨hon, ⟨v, r', e1, hso⟩, (hc.agree _ hal).mp hap⟩, ?_⟩
  rw [f5, e5, flat_congr fun n _ => (f4 n).trans (e4 n)] at hcc
  have hv : (codeFound v).1 = "1k".toList ∧ v = "1k".toList ∨ (codeFound v).1 = "5k".toList ∧ v = "5k".toList ∨
      (codeFound v).1 = "10k".toList ∧ v = "10k".toList ∨
      codeFound v = ("<bpe-codes-id>".toList, some v) ∧ v ∉ ["1k".toList, "5k".toList, "10k".toList] := by
    unfold codeFound
    by_cases hm : v ∈ ["1k".toList, "5k".toList, "10k".toList]
    · rw [if_pos hm]
      simp only [List.mem_cons, List.not_mem_nil, or_false] at hm
      rcases hm with h | h | h
      · exact .inl ⟨h, h⟩
      · exact .inr (.inl ⟨h, h⟩)
      · exact .inr (.inr (.inl ⟨h, h⟩))
    · rw [if_neg hm]
      exact .inr (.inr (.inr ⟨rfl, hm⟩))
  have hp : ¬ "--".toList <+: (codeFound v).1 := by
    rcases hv with h | h | h | h
    · rw [h.1]; decide
    · rw [h.1]; decide
    · rw [h.1]; decide
    · rw [h.1]; change ¬ "--".toList <+: "<bpe-codes-id>".toList; decide
  have hh : Holds c ((Cmd.bpe.word, none) :: codeFound v :: texts r') is := by
    rw [hcc]
    exact holds_of (pre := (Cmd.bpe.word, none) :: codeFound v :: texts r') (code_plain v hp r') (fun n hn => hc.dash n (n2 n hn)) n1
  have w1 : words is = Cmd.bpe.word :: v :: r' := e1
  have fl : ∀ n : String, "<text>".toList ≠ n.toList → Found.flag ((Cmd.bpe.word, none) :: codeFound v :: texts r') n =
      (decide (Cmd.bpe.word = n.toList) || decide ((codeFound v).1 = n.toList)) := fun n hn => by
    rw [flag_cons, flag_cons, texts_flag r' n hn, Bool.or_false]
  have two : ∀ w : Str, (words is)[1]? = some w ↔ v = w := fun w => by
    rw [w1]
    exact Option.some_inj
  have key : ∀ w ∈ ["1k".toList, "5k".toList, "10k".toList], ((codeFound v).1 = w ↔ v = w) := by
    intro w hw
    unfold codeFound
    by_cases hm : v ∈ ["1k".toList, "5k".toList, "10k".toList]
    · rw [if_pos hm]
    · rw [if_neg hm]
      constructor
      · intro e
        exfalso
        change "<bpe-codes-id>".toList = w at e
        rw [← e] at hw
        exact absurd hw (by decide)
      · intro e
        rw [e] at hm
        exact absurd hw hm
  have kflag : ∀ n : String, n.toList ∈ ["1k".toList, "5k".toList, "10k".toList] → "<text>".toList ≠ n.toList → Cmd.bpe.word ≠ n.toList →
      Found.flag ((Cmd.bpe.word, none) :: codeFound v :: texts r') n = decide (Cmd.bpe = .bpe ∧ (words is)[1]? = some n.toList) := fun n h1 h2 h3 => by
    rw [fl n h2, decide_eq_false h3, Bool.false_or]
    apply decide_eq_decide.mpr
    rw [key _ h1, two]
    exact ⟨fun h => ⟨rfl, h⟩, fun h => h.2⟩
  have nflag : ∀ n : String, "<text>".toList ≠ n.toList → Cmd.bpe.word ≠ n.toList → n.toList ∉ ["1k".toList, "5k".toList, "10k".toList] →
      "<bpe-codes-id>".toList ≠ n.toList → Found.flag ((Cmd.bpe.word, none) :: codeFound v :: texts r') n = false := fun n h1 h2 h3 h4 => by
    rw [fl n h1, decide_eq_false h2, Bool.false_or]
    apply decide_eq_false
    intro e
    unfold codeFound at e
    by_cases hm : v ∈ ["1k".toList, "5k".toList, "10k".toList]
    · rw [if_pos hm] at e
      rw [show v = n.toList from e] at hm
      exact h3 hm
    · rw [if_neg hm] at e
      exact h4 e
  refine hh.splitArgs ?_ ?_ ?_ ?_ ?_ ?_ ?_ ?_ ?_
  · rw [nflag _ (by decide) (by decide) (by decide) (by decide)]; rfl
  · rw [nflag _ (by decide) (by decide) (by decide) (by decide)]; rfl
  · rw [nflag _ (by decide) (by decide) (by decide) (by decide)]; rfl
  · rw [fl _ (by decide)]; rfl
  · exact kflag _ (by decide) (by decide) (by decide)
  · exact kflag _ (by decide) (by decide) (by decide)
  · exact kflag _ (by decide) (by decide) (by decide)
  · rw [if_pos rfl, value_other _ (by decide), w1]
    change _ = (some v).filter (fun x => decide (x ∉ ["1k".toList, "5k".toList, "10k".toList]))
    by_cases hm : v ∈ ["1k".toList, "5k".toList, "10k".toList]
    · have e1 : codeFound v = (v, none) := if_pos hm
      have hne : v ≠ "<bpe-codes-id>".toList := fun e => by rw [e] at hm; exact absurd hm (by decide)
      rw [e1, value_other _ hne, texts_value_other r' (by decide), Option.filter_some]
      rw [decide_eq_false (fun h => h hm)]
      rfl
    · have e1 : codeFound v = ("<bpe-codes-id>".toList, some v) := if_neg hm
      rw [e1, value_same _ _ rfl, Option.filter_some, decide_eq_true hm]
      rfl
  · rw [if_pos rfl, value_other _ (by decide), w1]
    have hne : (codeFound v).1 ≠ "<text>".toList := by
      rcases hv with h | h | h | h
      · rw [h.1]; decide
      · rw [h.1]; decide
      · rw [h.1]; decide
      · rw [h.1]; change "<bpe-codes-id>".toList ≠ "<text>".toList; decide
    rw [value_other _ hne, texts_value]
    rfl

/-! ## `learn-bpe` -/

theorem covers_learn : ∃ u A, Cmd.learn.usage = .seq (.command Cmd.learn.word) (.seq (.argument "<n-merges>".toList) (.seq (.option path) u)) ∧
    Takes u A [("--no-unicode".toList, "--bytes".toList)] ∧ path ∉ A ∧ (∀ sw ∈ switches, Cmd.learn ∈ sw.cmds → sw.long.toList ∈ path :: A) ∧
    (∀ n ∈ path :: A, "--".toList <+: n) ∧ "--no-str".toList ∉ path :: A := by
  refine ⟨_, _, rfl, takes_seq (takes_optional _) (takes_seq (takes_optional _) (takes_seq (takes_either (by decide)) (takes_seq (takes_optional _)
    (takes_seq (takes_optional _) (takes_optional _) (by decide)) (by decide)) (by decide)) (by decide)) (by decide), ?_, ?_, ?_, ?_⟩
  · decide
  · decide +kernel
  · decide
  · decide

theorem fits_learn (is : List Item) (hs : "--no-str".toList ∉ named is) :
    Fits .learn is ↔ (named is).Nodup ∧ (∃ n, words is = [Cmd.learn.word, n]) ∧ path ∈ named is ∧ ("--no-unicode".toList ∈ named is → "--bytes".toList ∉ named is) :=
  ⟨fun h => ⟨h.once, h.words.1, h.words.2, h.unicode⟩, fun ⟨a, b, c, d⟩ => ⟨a, ⟨b, c⟩, fun h => absurd h hs, d⟩⟩

theorem named_step {n : Str} {s : St} (hon : (named s.1).Nodup) : ∀ m, m ∈ named (step s n).1 ↔ m ≠ n ∧ m ∈ named s.1 := by
  intro m
  change m ∈ named (dropOpt n s.1) ↔ _
  rw [named_drop]
  exact hon.mem_erase_iff

theorem learn_accepts {is : List Item} (hn : ∀ n ∈ named is, ∃ sw, Has .learn sw ∧ n = sw.long.toList) (hf : Fits .learn is) :
    ∃ c, Cmd.learn.usage.run (is, []) = some ([], c) := by
  obtain ⟨u, A, hu, ht, hp, hall, hdash, hns⟩ := covers_learn
  have hl : ∀ n ∈ named is, n ∈ path :: A := fun n h => by
    obtain ⟨sw, hs, rfl⟩ := hn n h
    exact hall sw hs.1 hs.2
  obtain ⟨a, ⟨n, b⟩, c, d⟩ := (fits_learn is fun h => hns (hl _ h)).mp hf
  obtain ⟨s1, h1⟩ := command_ok (s := (is, [])) (w := Cmd.learn.word) b
  obtain ⟨r, e1, e2, e3, e4, e5⟩ := command_run h1
  have hr : r = [n] := by
    have := e1.symm.trans b
    injection this
  subst hr
  obtain ⟨s2, h2⟩ := argument_ok (n := "<n-merges>".toList) e2
  obtain ⟨v, q, f1, f2, f3, f4, f5⟩ := argument_run h2
  have hq : q = [] := by
    have := f1.symm.trans e2
    injection this
  have e3' : named s2.1 = named is := f3.trans e3
  have hon : (named s2.1).Nodup := by rw [e3']; exact a
  have hms := named_step (n := path) hon
  obtain ⟨c', hc'⟩ := takes_accepts ht (s := step s2 path) (by
      change words (dropOpt path s2.1) = []
      rw [words_drop, f2, hq]) (by
      change (named (dropOpt path s2.1)).Nodup
      rw [named_drop]
      exact hon.erase _) (fun m hm => by
      obtain ⟨x, y⟩ := (hms m).mp hm
      rw [e3'] at y
      exact (List.mem_cons.mp (hl m y)).resolve_left x) (fun p hp h3 h4 => by
      rw [List.mem_singleton.mp hp] at h3 h4
      have y3 := ((hms _).mp h3).2
      have y4 := ((hms _).mp h4).2
      rw [e3'] at y3 y4
      exact d y3 y4)
  refine ⟨c', ?_⟩
  rw [hu]
  change ((Usage.command Cmd.learn.word).run (is, [])).bind (Usage.seq (.argument "<n-merges>".toList) (.seq (.option path) u)).run = _
  rw [h1]
  change ((Usage.argument "<n-merges>".toList).run s1).bind (Usage.seq (.option path) u).run = _
  rw [h2]
  change ((Usage.option path).run s2).bind u.run = _
  rw [run_option, if_pos (by rw [e3']; exact c)]
  exact hc'

theorem learn_gives {is : List Item} {c : Found} (h : Cmd.learn.usage.run (is, []) = some ([], c)) :
    Fits .learn is ∧ ∃ n, words is = [Cmd.learn.word, n] ∧ Holds c [(Cmd.learn.word, none), ("<n-merges>".toList, some n)] is := by
  obtain ⟨u, A, hu, ht, hp, hall, hdash, hns⟩ := covers_learn
  rw [hu] at h
  obtain ⟨s1, h1, h⟩ := Option.bind_eq_some_iff.mp
    (show ((Usage.command Cmd.learn.word).run (is, [])).bind (Usage.seq (.argument "<n-merges>".toList) (.seq (.option path) u)).run = _ from h)
  obtain ⟨s2, h2, h⟩ := Option.bind_eq_some_iff.mp
    (show ((Usage.argument "<n-merges>".toList).run s1).bind (Usage.seq (.option path) u).run = _ from h)
  obtain ⟨s3, h3, h⟩ := Option.bind_eq_some_iff.mp (show ((Usage.option path).run s2).bind u.run = _ from h)
  obtain ⟨r, e1, e2, e3, e4, e5⟩ := command_run h1
  obtain ⟨v, q, f1, f2, f3, f4, f5⟩ := argument_run h2
  have e3' : named s2.1 = named is := f3.trans e3
  rw [run_option] at h3
  by_cases hin : path ∈ named s2.1
  · rw [if_pos hin] at h3
    cases h3
    have hseq : (Usage.seq (.optional (.option path)) u).run s2 = some ([], c) := by
      change ((Usage.optional (.option path)).run s2).bind u.run = _
      rw [run_optional]
      exact h
    obtain ⟨w0, hon, hal, hap, ns, n1, n2, hcc⟩ := takes_all (takes_seq (takes_optional path) ht (fun n hn => by
      rw [List.mem_singleton.mp hn]; exact hp)) hseq
    rw [e3'] at hon hal hap n1 hin
    rw [f2] at w0
    subst w0
    have er : r = [v] := e2.symm.trans f1
    subst er
    refine ⟨(fits_learn is fun hm => hns (hal _ hm)).mpr ⟨hon, ⟨v, e1⟩, hin, fun a b => hap ("--no-unicode".toList, "--bytes".toList) (by decide) a b⟩, v, e1, ?_⟩
    rw [hcc, f5, e5, flat_congr fun n _ => (f4 n).trans (e4 n)]
    refine holds_of (pre := [(Cmd.learn.word, none), ("<n-merges>".toList, some v)]) ?_ (fun n hn => hdash n (n2 n hn)) n1
    intro p hp
    rcases List.mem_cons.mp hp with rfl | hp
    · exact word_plain .learn
    · rw [List.mem_singleton.mp hp]
      change ¬ "--".toList <+: "<n-merges>".toList
      decide
  · rw [if_neg hin] at h3
    cases h3

end Line

end Verif.Props
