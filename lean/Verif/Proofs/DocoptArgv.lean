import Verif.Spec.Docopt
/-!
# How the words of a command line are read
-/
namespace Verif.Props.Line

open Verif Verif.Docopt Verif.Spec.Line

/-- An option of the specification as it is described in a usage text. -/
def toDef (sw : Switch) : OptDef := ⟨sw.letter, sw.long.toList, sw.value⟩

theorem opts_mem : ∀ cmd : Cmd, (∀ d ∈ cmd.opts, ∃ sw ∈ switches, cmd ∈ sw.cmds ∧ d = toDef sw) ∧ ∀ sw ∈ switches, cmd ∈ sw.cmds → toDef sw ∈ cmd.opts := by
  intro cmd
  cases cmd <;> decide +kernel

theorem mem_opts {cmd : Cmd} {d : OptDef} : d ∈ cmd.opts ↔ ∃ sw, Has cmd sw ∧ d = toDef sw := by
  constructor
  · intro h
    obtain ⟨sw, h1, h2, h3⟩ := (opts_mem cmd).1 d h
    exact ⟨sw, ⟨h1, h2⟩, h3⟩
  · rintro ⟨sw, ⟨h1, h2⟩, rfl⟩
    exact (opts_mem cmd).2 sw h1 h2

theorem opts_nodup : ∀ cmd : Cmd, cmd.opts.Nodup := by
  intro cmd
  cases cmd <;> decide +kernel

theorem long_inj : ∀ sw ∈ switches, ∀ sw' ∈ switches, sw.long.toList = sw'.long.toList → sw = sw' := by decide +kernel

theorem letter_inj : ∀ sw ∈ switches, ∀ sw' ∈ switches, sw.letter = sw'.letter → sw.letter ≠ none → sw = sw' := by decide +kernel

theorem long_shape : ∀ sw ∈ switches, "--".toList <+: sw.long.toList ∧ 3 ≤ sw.long.toList.length ∧ '=' ∉ sw.long.toList ∧ sw.letter ≠ some '-' := by
  decide +kernel

theorem two_switches : ∀ cmd : Cmd, Has cmd ⟨"--path", 'p', true, .learn :: splitting⟩ ∧ Has cmd ⟨"--ext", 'e', true, .learn :: splitting⟩ := by
  intro cmd
  cases cmd <;> decide +kernel

theorem toDef_inj {sw sw' : Switch} (h : sw ∈ switches) (h' : sw' ∈ switches) (e : toDef sw = toDef sw') : sw = sw' :=
  long_inj _ h _ h' (by injection e)

theorem filter_single {α : Type} {p : α → Bool} {t : List α} (hn : t.Nodup) {d : α} : t.filter p = [d] ↔ (d ∈ t ∧ p d = true) ∧ ∀ d' ∈ t, p d' = true → d' = d := by
  constructor
  · intro h
    refine ⟨List.mem_filter.mp (h ▸ List.mem_cons_self), fun d' h1 h2 => ?_⟩
    have : d' ∈ t.filter p := List.mem_filter.mpr ⟨h1, h2⟩
    rw [h] at this
    simpa using this
  · rintro ⟨h1, h2⟩
    have hnf : (t.filter p).Nodup := hn.filter p
    have hm : d ∈ t.filter p := List.mem_filter.mpr h1
    match hf : t.filter p with
    | [] => rw [hf] at hm; cases hm
    | [x] => rw [hf] at hm; rw [List.mem_singleton.mp hm]
    | x :: y :: r =>
      have hx : x = d := h2 x (List.mem_filter.mp (hf ▸ List.mem_cons_self)).1 (List.mem_filter.mp (hf ▸ List.mem_cons_self)).2
      have hy' : y ∈ t.filter p := hf ▸ List.mem_cons_of_mem _ List.mem_cons_self
      have hy : y = d := h2 y (List.mem_filter.mp hy').1 (List.mem_filter.mp hy').2
      rw [hf, hx, hy] at hnf
      simp at hnf

/-- The letter of an option. -/
theorem find_letter {cmd : Cmd} {c : Char} {d : OptDef} : cmd.opts.filter (·.short = some c) = [d] ↔ ∃ sw, Has cmd sw ∧ sw.letter = some c ∧ d = toDef sw := by
  rw [filter_single (opts_nodup cmd)]
  constructor
  · rintro ⟨⟨h1, h2⟩, _⟩
    obtain ⟨sw, h, rfl⟩ := mem_opts.mp h1
    exact ⟨sw, h, of_decide_eq_true h2, rfl⟩
  · rintro ⟨sw, h, hc, rfl⟩
    refine ⟨⟨mem_opts.mpr ⟨sw, h, rfl⟩, decide_eq_true hc⟩, fun d' h1 h2 => ?_⟩
    obtain ⟨sw', h', rfl⟩ := mem_opts.mp h1
    have e : sw'.letter = some c := of_decide_eq_true h2
    rw [letter_inj _ h'.1 _ h.1 (e.trans hc.symm) (by rw [e]; simp)]

/-- The long form of an option, or its beginning. -/
theorem find_long {cmd : Cmd} {l : Str} {d : OptDef} : findLong cmd.opts l = [d] ↔
    ∃ sw, Has cmd sw ∧ d = toDef sw ∧ (l = sw.long.toList ∨ (l <+: sw.long.toList ∧ ∀ sw', Has cmd sw' → l <+: sw'.long.toList → sw' = sw)) := by
  unfold findLong
  have exact_ : ∀ sw, Has cmd sw → l = sw.long.toList → cmd.opts.filter (·.long = l) = [toDef sw] := by
    intro sw h e
    rw [filter_single (opts_nodup cmd)]
    refine ⟨⟨mem_opts.mpr ⟨sw, h, rfl⟩, decide_eq_true e.symm⟩, fun d' h1 h2 => ?_⟩
    obtain ⟨sw', h', rfl⟩ := mem_opts.mp h1
    have e' : sw'.long.toList = l := of_decide_eq_true h2
    rw [long_inj _ h'.1 _ h.1 (e'.trans e)]
  by_cases hex : ∃ sw, Has cmd sw ∧ l = sw.long.toList
  · obtain ⟨sw, h, e⟩ := hex
    rw [exact_ sw h e]
    simp only [List.cons.injEq, and_true]
    constructor
    · rintro rfl
      exact ⟨sw, h, rfl, .inl e⟩
    · rintro ⟨sw', h', rfl, h2 | ⟨_, h2⟩⟩
      · rw [long_inj _ h.1 _ h'.1 (e.symm.trans h2)]
      · rw [h2 sw h (by rw [e]; exact List.prefix_refl _)]
  · have hnil : cmd.opts.filter (·.long = l) = [] := by
      rw [List.filter_eq_nil_iff]
      intro d hd he
      obtain ⟨sw, h, rfl⟩ := mem_opts.mp hd
      exact hex ⟨sw, h, (of_decide_eq_true he).symm⟩
    rw [hnil]
    simp only
    rw [filter_single (opts_nodup cmd)]
    constructor
    · rintro ⟨⟨h1, h2⟩, h3⟩
      obtain ⟨sw, h, rfl⟩ := mem_opts.mp h1
      refine ⟨sw, h, rfl, .inr ⟨List.isPrefixOf_iff_prefix.mp h2, fun sw' h' hp => ?_⟩⟩
      exact toDef_inj h'.1 h.1 (h3 _ (mem_opts.mpr ⟨sw', h', rfl⟩) (List.isPrefixOf_iff_prefix.mpr hp))
    · rintro ⟨sw, h, rfl, h2 | ⟨h2, h3⟩⟩
      · exact absurd ⟨sw, h, h2⟩ hex
      · refine ⟨⟨mem_opts.mpr ⟨sw, h, rfl⟩, List.isPrefixOf_iff_prefix.mpr h2⟩, fun d' h1 hp => ?_⟩
        obtain ⟨sw', h', rfl⟩ := mem_opts.mp h1
        rw [h3 sw' h' (List.isPrefixOf_iff_prefix.mp hp)]

/-- The word is long enough, since the beginnings of several options are not accepted. -/
theorem find_names {cmd : Cmd} {l : Str} {d : OptDef} (hl : 2 ≤ l.length) : findLong cmd.opts l = [d] ↔ ∃ sw, Names cmd l sw ∧ d = toDef sw := by
  rw [find_long]
  constructor
  · rintro ⟨sw, h, rfl, h2⟩
    refine ⟨sw, ⟨h, ?_, h2⟩, rfl⟩
    rcases Nat.lt_or_ge l.length 3 with h3 | h3
    · exfalso
      have hlen : l.length = 2 := by omega
      rcases h2 with h2 | ⟨h2, h4⟩
      · have := (long_shape sw h.1).2.1
        rw [← h2] at this
        omega
      · have hd : l = "--".toList := by
          have := (long_shape sw h.1).1
          exact (List.prefix_of_prefix_length_le h2 this (by rw [hlen]; decide)).eq_of_length (by rw [hlen]; decide)
        obtain ⟨a, b⟩ := two_switches cmd
        have e1 := h4 _ a (by rw [hd]; exact (long_shape _ a.1).1)
        have e2 := h4 _ b (by rw [hd]; exact (long_shape _ b.1).1)
        exact absurd (e1.trans e2.symm) (by decide)
    · exact h3
  · rintro ⟨sw, ⟨h, _, h2⟩, rfl⟩
    exact ⟨sw, h, rfl, h2⟩

theorem names_prefix {cmd : Cmd} {l : Str} {sw : Switch} (h : Names cmd l sw) : l <+: sw.long.toList := by
  rcases h.2.2 with h2 | ⟨h2, _⟩
  · rw [h2]; exact List.prefix_refl _
  · exact h2

theorem names_dashes {cmd : Cmd} {l : Str} {sw : Switch} (h : Names cmd l sw) : "--".toList <+: l := by
  refine List.prefix_of_prefix_length_le (long_shape sw h.1.1).1 (names_prefix h) ?_
  have := h.2.1
  change 2 ≤ l.length
  omega

theorem names_no_eq {cmd : Cmd} {l : Str} {sw : Switch} (h : Names cmd l sw) : '=' ∉ l :=
  fun he => (long_shape sw h.1.1).2.2.1 ((names_prefix h).subset he)

theorem partition_plain {l : Str} (h : '=' ∉ l) : partitionEq l = (l, none) := by
  induction l with
  | nil => rfl
  | cons c r ih =>
    have hc : c ≠ '=' := fun e => h (e ▸ List.mem_cons_self)
    have := ih (fun hr => h (List.mem_cons_of_mem _ hr))
    unfold partitionEq at this ⊢
    rw [List.takeWhile_cons_of_pos (by simpa using hc), List.dropWhile_cons_of_pos (by simpa using hc)]
    injection this with h1 h2
    rw [h1, h2]

theorem partition_eq {l v : Str} (h : '=' ∉ l) : partitionEq (l ++ '=' :: v) = (l, some v) := by
  induction l with
  | nil => rfl
  | cons c r ih =>
    have hc : c ≠ '=' := fun e => h (e ▸ List.mem_cons_self)
    have := ih (fun hr => h (List.mem_cons_of_mem _ hr))
    unfold partitionEq at this ⊢
    simp only [List.cons_append]
    rw [List.takeWhile_cons_of_pos (by simpa using hc), List.dropWhile_cons_of_pos (by simpa using hc)]
    injection this with h1 h2
    rw [h1, h2]

theorem partition_back (s : Str) : '=' ∉ (partitionEq s).1 ∧ (((partitionEq s).2 = none ∧ (partitionEq s).1 = s) ∨ ∃ v, (partitionEq s).2 = some v ∧ s = (partitionEq s).1 ++ '=' :: v) := by
  by_cases h : '=' ∈ s
  · obtain ⟨a, b, rfl, ha⟩ := List.eq_append_cons_of_mem h
    rw [partition_eq ha]
    exact ⟨ha, .inr ⟨b, rfl, rfl⟩⟩
  · rw [partition_plain h]
    exact ⟨h, .inl ⟨rfl, rfl⟩⟩

theorem argument_some {rest : List Str} {v : Str} (h : argument rest = some v) : ∃ r, rest = v :: r ∧ v ≠ "--".toList := by
  cases rest with
  | nil => cases h
  | cons w r =>
    change (if w = "--".toList then none else some w) = some v at h
    by_cases hd : w = "--".toList
    · rw [if_pos hd] at h
      cases h
    · rw [if_neg hd] at h
      cases h
      exact ⟨r, rfl, hd⟩

theorem argument_of {v : Str} (h : v ≠ "--".toList) (r : List Str) : argument (v :: r) = some v := if_neg h

/-! ## Letters -/

theorem shorts_sound {cmd : Cmd} {rest : List Str} : ∀ {s : Str} {js : List Item} {b : Bool}, parseShorts cmd.opts rest s = some (js, b) →
    (b = false ∧ Letters cmd s js) ∨
    ∃ cs c sw ks, Letters cmd cs ks ∧ Has cmd sw ∧ sw.letter = some c ∧ sw.value = true ∧
      ((b = false ∧ ∃ v, v ≠ [] ∧ s = cs ++ c :: v ∧ js = ks ++ [given sw (some v)]) ∨
       (b = true ∧ s = cs ++ [c] ∧ ∃ v r, rest = v :: r ∧ v ≠ "--".toList ∧ js = ks ++ [given sw (some v)])) := by
  intro s
  induction s with
  | nil =>
    intro js b h
    cases h
    exact .inl ⟨rfl, .nil⟩
  | cons c r ih =>
    intro js b h
    unfold parseShorts at h
    match hf : cmd.opts.filter (·.short = some c) with
    | [] => rw [hf] at h; cases h
    | x :: y :: t => rw [hf] at h; cases h
    | [d] =>
      rw [hf] at h
      simp only at h
      obtain ⟨sw, hs, hc, rfl⟩ := find_letter.mp hf
      change (if sw.value = true then _ else _) = _ at h
      by_cases hv : sw.value = true
      · rw [if_pos hv] at h
        refine .inr ⟨[], c, sw, [], .nil, hs, hc, hv, ?_⟩
        cases r with
        | nil =>
          simp only at h
          cases ha : argument rest with
          | none => rw [ha] at h; cases h
          | some v =>
            rw [ha] at h
            cases h
            obtain ⟨q, h1, h2⟩ := argument_some ha
            exact .inr ⟨rfl, rfl, v, q, h1, h2, rfl⟩
        | cons e q =>
          cases h
          exact .inl ⟨rfl, e :: q, by simp, rfl, rfl⟩
      · rw [if_neg hv] at h
        have hv' : sw.value = false := by simpa using hv
        cases hp : parseShorts cmd.opts rest r with
        | none => rw [hp] at h; cases h
        | some p =>
          rw [hp] at h
          cases h
          rcases ih hp with ⟨h1, h2⟩ | ⟨cs, c', sw', ks, h1, h2, h3, h4, h5⟩
          · exact .inl ⟨h1, .cons hs hc hv' h2⟩
          · refine .inr ⟨c :: cs, c', sw', given sw none :: ks, .cons hs hc hv' h1, h2, h3, h4, ?_⟩
            rcases h5 with ⟨h6, v, h7, rfl, h8⟩ | ⟨h6, rfl, v, q, h7, h8, h9⟩
            · exact .inl ⟨h6, v, h7, rfl, congrArg (given sw none :: ·) h8⟩
            · exact .inr ⟨h6, rfl, v, q, h7, h8, congrArg (given sw none :: ·) h9⟩

theorem shorts_letters {cmd : Cmd} {rest : List Str} {cs : Str} {ks : List Item} (h : Letters cmd cs ks) (s : Str) :
    parseShorts cmd.opts rest (cs ++ s) = (parseShorts cmd.opts rest s).map fun p => (ks ++ p.1, p.2) := by
  induction h with
  | nil =>
    simp
  | @cons c sw cs is h hc hv _ ih =>
    rw [List.cons_append]
    conv => lhs; unfold parseShorts
    rw [find_letter.mpr ⟨sw, h, hc, rfl⟩]
    simp only
    rw [if_neg (by change ¬ sw.value = true; rw [hv]; simp), ih]
    cases parseShorts cmd.opts rest s <;> rfl

theorem shorts_value {cmd : Cmd} {rest : List Str} {c : Char} {sw : Switch} (hs : Has cmd sw) (hc : sw.letter = some c) (hv : sw.value = true)
    {v : Str} (hne : v ≠ []) : parseShorts cmd.opts rest (c :: v) = some ([given sw (some v)], false) := by
  unfold parseShorts
  rw [find_letter.mpr ⟨sw, hs, hc, rfl⟩]
  simp only
  rw [if_pos (by exact hv)]
  cases v with
  | nil => exact absurd rfl hne
  | cons _ _ => rfl

theorem shorts_next {cmd : Cmd} {rest : List Str} {c : Char} {sw : Switch} (hs : Has cmd sw) (hc : sw.letter = some c) (hv : sw.value = true)
    {v : Str} (hd : v ≠ "--".toList) : parseShorts cmd.opts (v :: rest) [c] = some ([given sw (some v)], true) := by
  unfold parseShorts
  rw [find_letter.mpr ⟨sw, hs, hc, rfl⟩]
  simp only
  rw [if_pos (by exact hv), argument_of hd]
  rfl

/-! ## Long forms -/

theorem long_sound {cmd : Cmd} {tok : Str} {rest : List Str} (hp : "--".toList <+: tok) {i : Item} {b : Bool}
    (h : parseLong cmd.opts tok rest = some (i, b)) : ∃ l sw, Names cmd l sw ∧
      ((b = false ∧ sw.value = false ∧ tok = l ∧ i = given sw none) ∨
       (b = false ∧ sw.value = true ∧ ∃ v, tok = l ++ '=' :: v ∧ i = given sw (some v)) ∨
       (b = true ∧ sw.value = true ∧ tok = l ∧ ∃ v r, rest = v :: r ∧ v ≠ "--".toList ∧ i = given sw (some v))) := by
  unfold parseLong at h
  match hf : findLong cmd.opts (partitionEq tok).1 with
  | [] => rw [hf] at h; cases h
  | x :: y :: t => rw [hf] at h; cases h
  | [d] =>
    rw [hf] at h
    simp only at h
    obtain ⟨hne, hcase⟩ := partition_back tok
    have hl : 2 ≤ (partitionEq tok).1.length := by
      rcases hcase with ⟨_, e⟩ | ⟨v, _, e⟩
      · rw [e]; exact hp.length_le
      · rcases Nat.lt_or_ge (partitionEq tok).1.length 2 with h3 | h3
        · exfalso
          have h4 : (partitionEq tok).1 ++ ['='] <+: tok := ⟨v, by rw [List.append_assoc]; exact e.symm⟩
          have h5 := List.prefix_of_prefix_length_le h4 hp (by rw [List.length_append]; change _ + 1 ≤ 2; omega)
          have : '=' ∈ "--".toList := h5.subset (by simp)
          exact absurd this (by decide)
        · exact h3
    obtain ⟨sw, hn, rfl⟩ := (find_names hl).mp hf
    refine ⟨_, sw, hn, ?_⟩
    change (match sw.value, (partitionEq tok).2 with
      | false, none => some (given sw none, false)
      | false, some _ => none
      | true, some v => some (given sw (some v), false)
      | true, none => (argument rest).map fun v => (given sw (some v), true)) = some (i, b) at h
    cases hv : sw.value with
    | false =>
      rw [hv] at h
      rcases hcase with ⟨e1, e2⟩ | ⟨v, e1, e2⟩
      · rw [e1] at h
        cases h
        exact .inl ⟨rfl, rfl, e2.symm, rfl⟩
      · rw [e1] at h
        cases h
    | true =>
      rw [hv] at h
      rcases hcase with ⟨e1, e2⟩ | ⟨v, e1, e2⟩
      · rw [e1] at h
        simp only at h
        cases ha : argument rest with
        | none => rw [ha] at h; cases h
        | some v =>
          rw [ha] at h
          cases h
          obtain ⟨q, h1, h2⟩ := argument_some ha
          exact .inr (.inr ⟨rfl, rfl, e2.symm, v, q, h1, h2, rfl⟩)
      · rw [e1] at h
        cases h
        exact .inr (.inl ⟨rfl, rfl, v, e2, rfl⟩)

theorem names_find {cmd : Cmd} {l : Str} {sw : Switch} (h : Names cmd l sw) : findLong cmd.opts l = [toDef sw] :=
  (find_names (Nat.le_of_succ_le h.2.1)).mpr ⟨sw, h, rfl⟩

theorem long_flag {cmd : Cmd} {l : Str} {sw : Switch} (h : Names cmd l sw) (hv : sw.value = false) (rest : List Str) :
    parseLong cmd.opts l rest = some (given sw none, false) := by
  unfold parseLong
  rw [partition_plain (names_no_eq h), names_find h]
  change (match sw.value, (none : Option Str) with
      | false, none => some (given sw none, false)
      | false, some _ => none
      | true, some v => some (given sw (some v), false)
      | true, none => (argument rest).map fun v => (given sw (some v), true)) = _
  rw [hv]

theorem long_eq {cmd : Cmd} {l : Str} {sw : Switch} (h : Names cmd l sw) (hv : sw.value = true) (v : Str) (rest : List Str) :
    parseLong cmd.opts (l ++ '=' :: v) rest = some (given sw (some v), false) := by
  unfold parseLong
  rw [partition_eq (names_no_eq h), names_find h]
  change (match sw.value, some v with
      | false, none => some (given sw none, false)
      | false, some _ => none
      | true, some v => some (given sw (some v), false)
      | true, none => (argument rest).map fun v => (given sw (some v), true)) = _
  rw [hv]

theorem long_next {cmd : Cmd} {l : Str} {sw : Switch} (h : Names cmd l sw) (hv : sw.value = true) {v : Str} (hd : v ≠ "--".toList) (rest : List Str) :
    parseLong cmd.opts l (v :: rest) = some (given sw (some v), true) := by
  unfold parseLong
  rw [partition_plain (names_no_eq h), names_find h]
  change (match sw.value, (none : Option Str) with
      | false, none => some (given sw none, false)
      | false, some _ => none
      | true, some v => some (given sw (some v), false)
      | true, none => (argument (v :: rest)).map fun v => (given sw (some v), true)) = _
  rw [hv, argument_of hd]
  rfl

/-! ## Command lines -/

theorem not_dashes_of_letter {c : Char} {cs : Str} (h : c ≠ '-') : ¬ "--".toList.isPrefixOf ('-' :: c :: cs) = true := by
  rw [List.isPrefixOf_iff_prefix]
  rintro ⟨t, e⟩
  change '-' :: '-' :: t = _ at e
  injection e with _ e
  injection e with e _
  exact h e.symm

theorem letters_dash {cmd : Cmd} {cs : Str} {js : List Item} (h : Letters cmd cs js) : cs.head? ≠ some '-' := by
  cases h with
  | nil => simp
  | cons h hc _ _ =>
    intro e
    cases e
    exact (long_shape _ h.1).2.2.2 hc

theorem argv_short {t : List OptDef} {cs : Str} (hne : cs ≠ []) (hd : cs.head? ≠ some '-') (rest : List Str) : parseArgv t (('-' :: cs) :: rest) =
    match parseShorts t rest cs with
    | none => none
    | some (is, false) => (parseArgv t rest).map (is ++ ·)
    | some (is, true) => match rest with
      | [] => none
      | _ :: rest' => (parseArgv t rest').map (is ++ ·) := by
  cases cs with
  | nil => exact absurd rfl hne
  | cons c r =>
    have hc : c ≠ '-' := fun e => hd (by rw [e]; rfl)
    conv => lhs; unfold parseArgv
    rw [if_neg (by intro e; change _ = ['-', '-'] at e; injection e with _ e; injection e with e _; exact hc e), if_neg (not_dashes_of_letter hc), if_pos ⟨rfl, by simp⟩]
    rfl

theorem argv_long {t : List OptDef} {tok : Str} (h : "--".toList <+: tok) (hne : tok ≠ "--".toList) (rest : List Str) : parseArgv t (tok :: rest) =
    match parseLong t tok rest with
    | none => none
    | some (i, false) => (parseArgv t rest).map (i :: ·)
    | some (i, true) => match rest with
      | [] => none
      | _ :: rest' => (parseArgv t rest').map (i :: ·) := by
  conv => lhs; unfold parseArgv
  rw [if_neg hne, if_pos (List.isPrefixOf_iff_prefix.mpr h)]
  rfl

theorem head_not_dashes {v : Str} (h : v.head? ≠ some '-' ∨ v = ['-']) : v ≠ "--".toList ∧ ¬ "--".toList.isPrefixOf v = true ∧ ¬ (v.head? = some '-' ∧ v ≠ ['-']) := by
  rcases h with h | rfl
  · refine ⟨fun e => h (by rw [e]; decide), fun e => ?_, fun e => h e.1⟩
    obtain ⟨t, e⟩ := List.isPrefixOf_iff_prefix.mp e
    exact h (by rw [← e]; rfl)
  · exact ⟨by decide, by decide, fun e => e.2 rfl⟩

theorem argv_sound {cmd : Cmd} : ∀ (n : Nat) {argv : List Str} {is : List Item}, argv.length ≤ n → parseArgv cmd.opts argv = some is → Writes cmd argv is := by
  intro n
  induction n with
  | zero =>
    intro argv is hn h
    cases argv with
    | nil => cases h; exact .nil
    | cons _ _ => simp at hn
  | succ n ih =>
    intro argv is hn h
    cases argv with
    | nil => cases h; exact .nil
    | cons tok rest =>
      have hr : rest.length ≤ n := by simpa using hn
      by_cases hdd : tok = "--".toList
      · unfold parseArgv at h
        rw [if_pos hdd] at h
        cases h
        rw [hdd]
        exact .dashes rest
      · by_cases hp : "--".toList <+: tok
        · rw [argv_long hp hdd] at h
          match hl : parseLong cmd.opts tok rest with
          | none => rw [hl] at h; cases h
          | some (i, b) =>
            rw [hl] at h
            obtain ⟨l, sw, hn', h1⟩ := long_sound hp hl
            rcases h1 with ⟨rfl, hv, rfl, rfl⟩ | ⟨rfl, hv, v, rfl, rfl⟩ | ⟨rfl, hv, rfl, v, q, rfl, hd, rfl⟩
            · obtain ⟨js, hj, rfl⟩ := Option.map_eq_some_iff.mp h
              exact .long hn' hv (ih hr hj)
            · obtain ⟨js, hj, rfl⟩ := Option.map_eq_some_iff.mp h
              exact .longEq hn' hv (ih hr hj)
            · obtain ⟨js, hj, rfl⟩ := Option.map_eq_some_iff.mp h
              exact .longNext hn' hv hd (ih (Nat.le_of_succ_le hr) hj)
        · by_cases hs : tok.head? = some '-' ∧ tok ≠ ['-']
          · obtain ⟨hs1, hs2⟩ := hs
            obtain ⟨cs, rfl⟩ : ∃ cs, tok = '-' :: cs := by
              cases tok with
              | nil => cases hs1
              | cons c r => cases hs1; exact ⟨r, rfl⟩
            have hne : cs ≠ [] := fun e => hs2 (by rw [e])
            have hd : cs.head? ≠ some '-' := by
              intro e
              cases cs with
              | nil => cases e
              | cons c r => cases e; exact hp ⟨r, rfl⟩
            rw [argv_short hne hd] at h
            match hl : parseShorts cmd.opts rest cs with
            | none => rw [hl] at h; cases h
            | some (js, b) =>
              rw [hl] at h
              rcases shorts_sound hl with ⟨rfl, h1⟩ | ⟨cs', c, sw, ks, h1, h2, h3, h4, ⟨rfl, v, h5, rfl, rfl⟩ | ⟨rfl, rfl, v, q, rfl, h6, rfl⟩⟩
              · obtain ⟨ls, hj, rfl⟩ := Option.map_eq_some_iff.mp h
                exact .letters h1 hne (ih hr hj)
              · obtain ⟨ls, hj, rfl⟩ := Option.map_eq_some_iff.mp h
                rw [List.append_assoc]
                exact .lettersValue h1 h2 h3 h4 h5 (ih hr hj)
              · obtain ⟨ls, hj, rfl⟩ := Option.map_eq_some_iff.mp h
                rw [List.append_assoc]
                exact .lettersNext h1 h2 h3 h4 h6 (ih (Nat.le_of_succ_le hr) hj)
          · unfold parseArgv at h
            rw [if_neg hdd, if_neg (fun e => hp (List.isPrefixOf_iff_prefix.mp e)), if_neg hs] at h
            obtain ⟨js, hj, rfl⟩ := Option.map_eq_some_iff.mp h
            refine .word ?_ (ih hr hj)
            by_cases e : tok.head? = some '-'
            · exact .inr (Classical.not_not.mp fun e' => hs ⟨e, e'⟩)
            · exact .inl e

theorem names_ne {cmd : Cmd} {l : Str} {sw : Switch} (h : Names cmd l sw) : l ≠ "--".toList := fun e => by
  have := h.2.1
  rw [e] at this
  exact absurd this (by decide)

theorem argv_complete {cmd : Cmd} {argv : List Str} {is : List Item} (h : Writes cmd argv is) : parseArgv cmd.opts argv = some is := by
  induction h with
  | nil => rfl
  | word hd _ ih =>
    obtain ⟨h1, h2, h3⟩ := head_not_dashes hd
    unfold parseArgv
    rw [if_neg h1, if_neg h2, if_neg h3, ih]
    rfl
  | dashes rest =>
    unfold parseArgv
    rw [if_pos rfl]
  | long h hv _ ih => rw [argv_long (names_dashes h) (names_ne h), long_flag h hv, ih]; rfl
  | @longEq l v sw rest is h hv _ ih =>
    rw [argv_long ((names_dashes h).trans (List.prefix_append _ _)) ?_, long_eq h hv, ih]
    · rfl
    · intro e
      have := h.2.1
      have h2 : (l ++ '=' :: v).length = 2 := by rw [e]; rfl
      rw [List.length_append] at h2
      omega
  | longNext h hv hd _ ih => rw [argv_long (names_dashes h) (names_ne h), long_next h hv hd]; simp only; rw [ih]; rfl
  | @letters cs js is rest h hne _ ih =>
    rw [argv_short hne (letters_dash h)]
    have := shorts_letters (rest := rest) h []
    rw [List.append_nil] at this
    rw [this]
    change (parseArgv cmd.opts rest).map (js ++ [] ++ ·) = _
    rw [ih, List.append_nil]
    rfl
  | @lettersValue cs v c sw js is rest h hs hc hv hne _ ih =>
    rw [argv_short (by simp) ?_, shorts_letters h, shorts_value hs hc hv hne]
    · change (parseArgv cmd.opts rest).map (js ++ [given sw (some v)] ++ ·) = _
      rw [ih]
      simp
    · have := letters_dash h
      cases cs with
      | nil =>
        intro e
        cases e
        exact (long_shape _ hs.1).2.2.2 hc
      | cons _ _ => exact this
  | @lettersNext cs v c sw js is rest h hs hc hv hd _ ih =>
    rw [argv_short (by simp) ?_, shorts_letters h, shorts_next hs hc hv hd]
    · change (parseArgv cmd.opts rest).map (js ++ [given sw (some v)] ++ ·) = _
      rw [ih]
      simp
    · have := letters_dash h
      cases cs with
      | nil =>
        intro e
        cases e
        exact (long_shape _ hs.1).2.2.2 hc
      | cons _ _ => exact this

/-- How a command line is read. -/
theorem argv_iff {cmd : Cmd} {argv : List Str} {is : List Item} : parseArgv cmd.opts argv = some is ↔ Writes cmd argv is :=
  ⟨argv_sound _ (Nat.le_refl _), argv_complete⟩

end Verif.Props.Line
