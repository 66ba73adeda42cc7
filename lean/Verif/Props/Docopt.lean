import Verif.Proofs.DocoptCmd
import Verif.Proofs.DocoptArgv
import Verif.Props.CliLearn
/-!
# Properties of the command line (C73)
-/
namespace Verif.Props

open Verif Verif.Docopt Verif.Spec Verif.Spec.Line Line

namespace Line

theorem findCmd_word (cmd : Cmd) : findCmd cmd.word = some cmd := by cases cmd <;> decide

theorem findCmd_some {w : Str} {cmd : Cmd} (h : findCmd w = some cmd) : w = cmd.word := by
  have := List.find?_some h
  exact (of_decide_eq_true this).symm

theorem parse_cons (w : Str) (rest : List Str) : parse (w :: rest) = (findCmd w).bind fun cmd =>
    (docopt cmd.opts cmd.usage (w :: rest)).bind fun c => match cmd with
      | .learn => (c.learnArgs).map .learn
      | _ => some (.split c.splitArgs) := rfl

theorem parse_cmd {argv : List Str} {cmd : Cmd} (h : argv.head? = some cmd.word) : parse argv =
    (docopt cmd.opts cmd.usage argv).bind fun c => match cmd with
      | .learn => (c.learnArgs).map .learn
      | _ => some (.split c.splitArgs) := by
  cases argv with
  | nil => cases h
  | cons w rest =>
    cases h
    rw [parse_cons, findCmd_word]
    rfl

theorem parse_head {argv : List Str} {t : Todo} (h : parse argv = some t) : ∃ cmd : Cmd, argv.head? = some cmd.word := by
  cases argv with
  | nil => cases h
  | cons w rest =>
    rw [parse_cons] at h
    obtain ⟨cmd, hc, _⟩ := Option.bind_eq_some_iff.mp h
    exact ⟨cmd, by rw [findCmd_some hc]; rfl⟩

theorem word_inj {a b : Cmd} (h : a.word = b.word) : a = b := by
  cases a <;> cases b <;> first | rfl | exact absurd h (by decide)

/-- Every command that preprocesses takes exactly what fits to it. -/
theorem split_gives {cmd : Cmd} (hc : cmd ≠ .learn) {is : List Item} {c : Found} (h : cmd.usage.run (is, []) = some ([], c)) :
    Fits cmd is ∧ c.splitArgs = wanted cmd is := by
  cases cmd with
  | learn => exact absurd rfl hc
  | nosplit =>
    obtain ⟨u, A, ex, hu, hcov⟩ := covers_nosplit
    exact plain_gives hu hcov (by decide) (by decide) h
  | chars =>
    obtain ⟨u, A, ex, hu, hcov⟩ := covers_chars
    exact plain_gives hu hcov (by decide) (by decide) h
  | basic =>
    obtain ⟨u, A, ex, hu, hcov⟩ := covers_basic
    exact plain_gives hu hcov (by decide) (by decide) h
  | bpe =>
    obtain ⟨u, A, ex, hu, hcov⟩ := covers_bpe
    exact bpe_gives hu hcov h

theorem all_accepts {cmd : Cmd} {is : List Item} (hn : ∀ n ∈ named is, ∃ sw, Has cmd sw ∧ n = sw.long.toList) (hf : Fits cmd is) :
    ∃ c, cmd.usage.run (is, []) = some ([], c) := by
  cases cmd with
  | learn => exact learn_accepts hn hf
  | nosplit =>
    obtain ⟨u, A, ex, hu, hcov⟩ := covers_nosplit
    exact plain_accepts hu hcov (by decide) (by decide) hn hf
  | chars =>
    obtain ⟨u, A, ex, hu, hcov⟩ := covers_chars
    exact plain_accepts hu hcov (by decide) (by decide) hn hf
  | basic =>
    obtain ⟨u, A, ex, hu, hcov⟩ := covers_basic
    exact plain_accepts hu hcov (by decide) (by decide) hn hf
  | bpe =>
    obtain ⟨u, A, ex, hu, hcov⟩ := covers_bpe
    exact bpe_accepts hu hcov hn hf

/-- An option has a value if it should have one. -/
theorem writes_value {cmd : Cmd} {argv : List Str} {is : List Item} (h : Writes cmd argv is) :
    ∀ n v, Item.opt n v ∈ is → ∃ sw, Has cmd sw ∧ n = sw.long.toList ∧ v.isSome = sw.value := by
  have let_ : ∀ {cs js}, Letters cmd cs js → ∀ n v, Item.opt n v ∈ js → ∃ sw, Has cmd sw ∧ n = sw.long.toList ∧ v.isSome = sw.value := by
    intro cs js hl
    induction hl with
    | nil => exact fun n v hn => nomatch hn
    | cons h _ hv _ ih =>
      intro n v hn
      rcases List.mem_cons.mp hn with e | hn
      · cases e
        exact ⟨_, h, rfl, hv.symm⟩
      · exact ih n v hn
  induction h with
  | nil => exact fun n v hn => nomatch hn
  | word _ _ ih =>
    intro n v hn
    rcases List.mem_cons.mp hn with e | hn
    · cases e
    · exact ih n v hn
  | dashes rest =>
    intro n v hn
    obtain ⟨x, _, e⟩ := List.mem_map.mp hn
    cases e
  | long h hv _ ih | longEq h hv _ ih | longNext h hv _ _ ih =>
    intro n v hn
    rcases List.mem_cons.mp hn with e | hn
    · cases e
      exact ⟨_, h.1, rfl, hv.symm⟩
    · exact ih n v hn
  | letters h _ _ ih =>
    intro n v hn
    rcases List.mem_append.mp hn with hn | hn
    · exact let_ h n v hn
    · exact ih n v hn
  | lettersValue h hs _ hv _ _ ih | lettersNext h hs _ hv _ _ ih =>
    intro n v hn
    rcases List.mem_append.mp hn with hn | hn
    · exact let_ h n v hn
    · rcases List.mem_cons.mp hn with e | hn
      · cases e
        exact ⟨_, hs, rfl, hv.symm⟩
      · exact ih n v hn

theorem optOf_mem {n : Str} {is : List Item} {v : Option Str} (h : optOf n is = some v) : Item.opt n v ∈ is := by
  induction is with
  | nil => cases h
  | cons i r ih =>
    cases i with
    | arg w =>
      rw [optOf_arg] at h
      exact List.mem_cons_of_mem _ (ih h)
    | opt m w =>
      by_cases e : m = n
      · subst e
        rw [optOf_same] at h
        cases h
        exact List.mem_cons_self
      · rw [optOf_other e] at h
        exact List.mem_cons_of_mem _ (ih h)

/-- An option that is given has its value, if it should have one. -/
theorem writes_valueOf {cmd : Cmd} {argv : List Str} {is : List Item} (h : Writes cmd argv is) (n : String)
    (hv : ∀ sw ∈ switches, sw.long.toList = n.toList → sw.value = true) : Said is n ↔ ∃ v, valueOf is n = some v := by
  rw [valueOf_eq]
  constructor
  · intro hs
    cases ho : optOf n.toList is with
    | none => exact absurd hs (optOf_none.mp ho)
    | some v =>
      obtain ⟨sw, h1, h2, h3⟩ := writes_value h _ _ (optOf_mem ho)
      rw [hv sw h1.1 h2.symm] at h3
      exact Option.isSome_iff_exists.mp h3
  · rintro ⟨v, hv'⟩
    cases ho : optOf n.toList is with
    | none => rw [ho] at hv'; cases hv'
    | some w => exact Classical.byContradiction fun hs => by rw [optOf_none.mpr hs] at ho; cases ho

end Line

/-- **C73** A command that preprocesses is run exactly for the command lines that are described: every option is written with its long form or
the beginning of it or its letter, at any place, at most once, and the other words are the command, the id of the codes and the text.  It does
exactly what the options and words say. -/
theorem C73_split {argv : List Str} {a : SplitArgs} : parse argv = some (.split a) ↔
    ∃ cmd, cmd ≠ .learn ∧ argv.head? = some cmd.word ∧ ∃ is, Writes cmd argv is ∧ Fits cmd is ∧ a = wanted cmd is := by
  constructor
  · intro h
    obtain ⟨cmd, hh⟩ := parse_head h
    rw [parse_cmd hh] at h
    obtain ⟨c, hc, h⟩ := Option.bind_eq_some_iff.mp h
    have hl : cmd ≠ .learn := by
      rintro rfl
      obtain ⟨x, _, e⟩ := Option.map_eq_some_iff.mp (show (c.learnArgs).map Todo.learn = _ from h)
      cases e
    have hs : a = c.splitArgs := by
      cases cmd <;> first | (cases h; rfl) | exact absurd rfl hl
    obtain ⟨is, h1, h2⟩ := docopt_iff.mp hc
    obtain ⟨h3, h4⟩ := split_gives hl h2
    exact ⟨cmd, hl, hh, is, argv_iff.mp h1, h3, hs.trans h4⟩
  · rintro ⟨cmd, hl, hh, is, hw, hf, rfl⟩
    obtain ⟨c, hc⟩ := all_accepts (writes_named hw) hf
    rw [parse_cmd hh, docopt_iff.mpr ⟨is, argv_iff.mpr hw, hc⟩]
    have := (split_gives hl hc).2
    cases cmd <;> first | exact congrArg (some ∘ Todo.split) this | exact absurd rfl hl

/-- **C73** The same for the command that learns. -/
theorem C73_learn {argv : List Str} {a : LearnArgs} : parse argv = some (.learn a) ↔
    argv.head? = some "learn-bpe".toList ∧ ∃ is, Writes .learn argv is ∧ Fits .learn is ∧ wantedLearn is a := by
  have key : ∀ {is : List Item} {c : Found} {n : Str}, words is = [Cmd.learn.word, n] → Holds c [(Cmd.learn.word, none), ("<n-merges>".toList, some n)] is →
      (c.learnArgs = some a ↔ wantedLearn is a) := by
    intro is c n hw hh
    have hn : c.value "<n-merges>" = some n := by
      rw [hh.value' _ (by decide), value_other _ (by decide), value_same _ _ rfl]
    have hp := hh.value "--path" (by decide)
    have hw2 : (words is)[1]? = some n := by rw [hw]; rfl
    unfold wantedLearn
    rw [hw2, ← hp, ← hh.value "--ext" (by decide), ← hh.value "--id" (by decide)]
    have f := fun (s : String) (h : "--".toList <+: s.toList) => hh.said s h
    have hb : ∀ (b : Bool) (s : String), "--".toList <+: s.toList → ((b = true ↔ Said is s) ↔ b = c.flag s) := by
      intro b s h
      rw [f s h]
      cases b <;> simp
    rw [hb _ _ (by decide), hb _ _ (by decide), hb _ _ (by decide), hb _ _ (by decide)]
    unfold Found.learnArgs
    rw [hn]
    cases hv : c.value "--path" with
    | none => exact ⟨fun h => (nomatch h), fun h => (nomatch h.2.1)⟩
    | some p =>
      obtain ⟨a1, a2, a3, a4, a5, a6, a7, a8⟩ := a
      change some (LearnArgs.mk n p _ _ _ _ _ _) = some _ ↔ _
      rw [Option.some_inj, LearnArgs.mk.injEq, Option.some_inj, Option.some_inj]
      constructor
      · rintro ⟨h1, h2, h3, h4, h5, h6, h7, h8⟩
        exact ⟨h1, h2, h3.symm, h4.symm, h5.symm, h6.symm, h7.symm, h8.symm⟩
      · rintro ⟨h1, h2, h3, h4, h5, h6, h7, h8⟩
        exact ⟨h1, h2, h3.symm, h4.symm, h5.symm, h6.symm, h7.symm, h8.symm⟩
  constructor
  · intro h
    obtain ⟨cmd, hh⟩ := parse_head h
    rw [parse_cmd hh] at h
    obtain ⟨c, hc, h⟩ := Option.bind_eq_some_iff.mp h
    have hl : cmd = .learn := by
      cases cmd <;> first | rfl | cases h
    subst hl
    obtain ⟨x, hx, e⟩ := Option.map_eq_some_iff.mp (show (c.learnArgs).map Todo.learn = _ from h)
    cases e
    obtain ⟨is, h1, h2⟩ := docopt_iff.mp hc
    obtain ⟨h3, n, h4, h5⟩ := learn_gives h2
    exact ⟨hh, is, argv_iff.mp h1, h3, (key h4 h5).mp hx⟩
  · rintro ⟨hh, is, hw, hf, ha⟩
    obtain ⟨c, hc⟩ := all_accepts (writes_named hw) hf
    rw [parse_cmd (cmd := .learn) hh, docopt_iff.mpr ⟨is, argv_iff.mpr hw, hc⟩]
    obtain ⟨_, n, h4, h5⟩ := learn_gives hc
    exact congrArg (Option.map Todo.learn) ((key h4 h5).mpr ha)

namespace Line

theorem named_append (a b : List Item) : named (a ++ b) = named a ++ named b := List.filterMap_append
theorem words_append (a b : List Item) : words (a ++ b) = words a ++ words b := List.filterMap_append

theorem mem_named {n : Str} {v : Option Str} {is : List Item} (h : Item.opt n v ∈ is) : n ∈ named is :=
  List.mem_filterMap.mpr ⟨_, h, rfl⟩

theorem optOf_iff {n : Str} {v : Option Str} {is : List Item} (hn : (named is).Nodup) : optOf n is = some v ↔ Item.opt n v ∈ is := by
  refine ⟨optOf_mem, fun h => ?_⟩
  induction is with
  | nil => cases h
  | cons i r ih =>
    cases i with
    | arg w =>
      rw [optOf_arg]
      exact ih hn ((List.mem_cons.mp h).resolve_left (fun e => nomatch e))
    | opt m w =>
      rw [named_opt, List.nodup_cons] at hn
      rcases List.mem_cons.mp h with e | h
      · cases e
        exact optOf_same _ _ _
      · rw [optOf_other (fun e => hn.1 (by rw [e]; exact mem_named h))]
        exact ih hn.2 h

theorem perm_named {is is' : List Item} (h : is.Perm is') : (named is).Perm (named is') := h.filterMap _

theorem perm_said {is is' : List Item} (h : is.Perm is') (n : String) : Said is n ↔ Said is' n := (perm_named h).mem_iff

theorem perm_optOf {is is' : List Item} (h : is.Perm is') (hn : (named is).Nodup) (n : Str) : optOf n is = optOf n is' := by
  apply Option.ext
  intro v
  rw [optOf_iff hn, optOf_iff ((perm_named h).nodup_iff.mp hn), h.mem_iff]

theorem perm_valueOf {is is' : List Item} (h : is.Perm is') (hn : (named is).Nodup) (n : String) : valueOf is n = valueOf is' n := by
  rw [valueOf_eq, valueOf_eq, perm_optOf h hn]

theorem perm_source {is is' : List Item} (h : is.Perm is') (r : List Str) : Source is r ↔ Source is' r := by
  unfold Source
  rw [perm_said h, perm_said h]

theorem perm_fits {cmd : Cmd} {is is' : List Item} (h : is.Perm is') (hw : words is = words is') (hf : Fits cmd is) : Fits cmd is' where
  once := (perm_named h).nodup_iff.mp hf.once
  words := by
    have := hf.words
    cases cmd with
    | learn => exact ⟨by rw [← hw]; exact this.1, (perm_said h _).mp this.2⟩
    | bpe =>
      obtain ⟨id, rest, h1, h2⟩ := this
      exact ⟨id, rest, by rw [← hw]; exact h1, (perm_source h _).mp h2⟩
    | nosplit | chars | basic =>
      obtain ⟨rest, h1, h2⟩ := this
      exact ⟨rest, by rw [← hw]; exact h1, (perm_source h _).mp h2⟩
  strings := by
    rw [← perm_said h, ← perm_said h, ← perm_said h]
    exact hf.strings
  unicode := by
    rw [← perm_said h, ← perm_said h]
    exact hf.unicode

theorem perm_wanted {cmd : Cmd} {is is' : List Item} (h : is.Perm is') (hw : words is = words is') (hn : (named is).Nodup) :
    wanted cmd is = wanted cmd is' := by
  have hd : ∀ n, decide (Said is n) = decide (Said is' n) := fun n => decide_eq_decide.mpr (perm_said h n)
  unfold wanted
  rw [hw, hd, hd, hd, hd, hd, hd, hd, hd, hd, hd, perm_valueOf h hn, perm_valueOf h hn, perm_valueOf h hn, perm_valueOf h hn]

theorem perm_learn {is is' : List Item} {a : LearnArgs} (h : is.Perm is') (hw : words is = words is') (hn : (named is).Nodup)
    (ha : wantedLearn is a) : wantedLearn is' a := by
  unfold wantedLearn at ha ⊢
  rw [← hw, ← perm_valueOf h hn, ← perm_valueOf h hn, ← perm_valueOf h hn, ← perm_said h, ← perm_said h, ← perm_said h, ← perm_said h]
  exact ha

theorem writes_unique {cmd : Cmd} {argv : List Str} {is is' : List Item} (h : Writes cmd argv is) (h' : Writes cmd argv is') : is = is' :=
  Option.some.inj ((argv_iff.mpr h).symm.trans (argv_iff.mpr h'))

theorem order_half {cmd : Cmd} {argv argv' : List Str} {is is' : List Item} (hc : argv.head? = some cmd.word) (hc' : argv'.head? = some cmd.word)
    (h : Writes cmd argv is) (h' : Writes cmd argv' is') (hp : is.Perm is') (hw : words is = words is') {t : Todo} (ht : parse argv = some t) :
    parse argv' = some t := by
  cases t with
  | split a =>
    obtain ⟨cmd', hl, hh, js, h1, h2, rfl⟩ := C73_split.mp ht
    have e : cmd' = cmd := word_inj (Option.some.inj (hh.symm.trans hc))
    subst e
    have ej := writes_unique h1 h
    subst ej
    exact C73_split.mpr ⟨cmd', hl, hc', is', h', perm_fits hp hw h2, perm_wanted hp hw h2.once⟩
  | learn a =>
    obtain ⟨hh, js, h1, h2, h3⟩ := C73_learn.mp ht
    have e : Cmd.learn = cmd := word_inj (Option.some.inj (hh.symm.trans hc))
    subst e
    have ej := writes_unique h1 h
    subst ej
    exact C73_learn.mpr ⟨hc', is', h', perm_fits hp hw h2, perm_learn hp hw h2.once h3⟩

end Line

/-- **C73** The order of the options does not matter, nor how they are written, nor where they are between the other words. -/
theorem C73_order {cmd : Cmd} {argv argv' : List Str} {is is' : List Item} (hc : argv.head? = some cmd.word) (hc' : argv'.head? = some cmd.word)
    (h : Writes cmd argv is) (h' : Writes cmd argv' is') (hp : is.Perm is') (hw : words is = words is') : parse argv = parse argv' := by
  apply Option.ext
  intro t
  exact ⟨order_half hc hc' h h' hp hw, order_half hc' hc h' h hp.symm hw.symm⟩

namespace Line

/-! ## Command lines for calls of the API -/

/-- An option with a value, as it is read. -/
def valued (n : String) (v : Option Str) : List Item := match v with
  | none => []
  | some v => [.opt n.toList (some v)]

/-- Options without values, as they are read. -/
def flags (l : List Str) : List Item := l.map (.opt · none)

theorem names_full {cmd : Cmd} {sw : Switch} (h : Has cmd sw) : Names cmd sw.long.toList sw :=
  ⟨h, (long_shape sw h.1).2.1, .inl rfl⟩

theorem writes_flags {cmd : Cmd} {l : List Str} (h : ∀ n ∈ l, ∃ sw, Has cmd sw ∧ n = sw.long.toList ∧ sw.value = false) : Writes cmd l (flags l) := by
  induction l with
  | nil => exact .nil
  | cons n r ih =>
    obtain ⟨sw, h1, rfl, h3⟩ := h n List.mem_cons_self
    exact .long (names_full h1) h3 (ih fun m hm => h m (List.mem_cons_of_mem _ hm))

theorem writes_valued {cmd : Cmd} {n : String} {v : Option Str} {rest : List Str} {is : List Item}
    (h : ∃ sw, Has cmd sw ∧ n = sw.long ∧ sw.value = true) (hr : Writes cmd rest is) :
    Writes cmd (Spec.Line.value n v ++ rest) (valued n v ++ is) := by
  cases v with
  | none => exact hr
  | some v =>
    obtain ⟨sw, h1, rfl, h3⟩ := h
    exact .longEq (names_full h1) h3 hr

theorem writes_words {cmd : Cmd} {l rest : List Str} {is : List Item} (h : ∀ v ∈ l, Word v) (hr : Writes cmd rest is) :
    Writes cmd (l ++ rest) (l.map .arg ++ is) := by
  induction l with
  | nil => exact hr
  | cons v r ih => exact .word (h v List.mem_cons_self) (ih fun m hm => h m (List.mem_cons_of_mem _ hm))

/-- The command of a call. -/
def cmdOf : ApiCall → Cmd
  | .nosplit _ _ => .nosplit
  | .chars _ => .chars
  | .basic _ _ _ _ _ => .basic
  | .bpe _ _ => .bpe

/-- The options without values of a command line for a call. -/
def flagsOf (call : ApiCall) (vocab : Bool) : List Str :=
  on (optsOf call).noSpaces "--no-spaces" ++ on (optsOf call).noUnicode "--no-unicode" ++ on (optsOf call).noCom "--no-com" ++
    on (optsOf call).noStr "--no-str" ++ on vocab "--calc-vocab" ++ ownFlags call

/-- The command line for a call, as it is read. -/
def itemsOf (call : ApiCall) (text : List Str) (path out ext : Option Str) (vocab : Bool) : List Item :=
  (begins call ++ text).map .arg ++ (valued "--path" path ++ (valued "--output-path" out ++ (valued "--ext" ext ++
    (valued "--max-str-length" (lengthOf (optsOf call)) ++ flags (flagsOf call vocab)))))

theorem mem_on {b : Bool} {m : Str} {n : String} : m ∈ on b n ↔ b = true ∧ m = n.toList := by
  cases b
  · exact ⟨fun h => (nomatch h), fun h => (nomatch h.1)⟩
  · exact ⟨fun h => ⟨rfl, List.mem_singleton.mp h⟩, fun h => List.mem_singleton.mpr h.2⟩

theorem mem_on_same (b : Bool) (n : String) : n.toList ∈ on b n ↔ b = true := by
  rw [mem_on]
  exact ⟨fun h => h.1, fun h => ⟨h, rfl⟩⟩

theorem mem_on_other {b : Bool} {m : Str} {n : String} (h : m ≠ n.toList) : m ∈ on b n ↔ False := by
  rw [mem_on]
  exact ⟨fun h' => h h'.2, fun h => h.elim⟩

theorem on_sublist (b : Bool) (n : String) : (on b n).Sublist [n.toList] := by
  cases b
  · exact List.nil_sublist _
  · exact List.Sublist.refl _

/-- The name of an option with a value, if it is given. -/
theorem named_valued (n : String) (v : Option Str) : named (valued n v) = on v.isSome n := by
  cases v <;> rfl

theorem named_flags (l : List Str) : named (flags l) = l := by
  induction l with
  | nil => rfl
  | cons n r ih => exact congrArg (n :: ·) ih

theorem named_args (l : List Str) : named (l.map .arg) = [] := by
  induction l with
  | nil => rfl
  | cons n r ih => exact ih

theorem words_args (l : List Str) : words (l.map .arg) = l := by
  induction l with
  | nil => rfl
  | cons n r ih => exact congrArg (n :: ·) ih

theorem words_valued (n : String) (v : Option Str) : words (valued n v) = [] := by
  cases v <;> rfl

theorem words_flags (l : List Str) : words (flags l) = [] := by
  induction l with
  | nil => rfl
  | cons n r ih => exact ih

theorem words_items (call : ApiCall) (text : List Str) (path out ext : Option Str) (vocab : Bool) :
    words (itemsOf call text path out ext vocab) = begins call ++ text := by
  unfold itemsOf
  rw [words_append, words_append, words_append, words_append, words_append, words_args, words_valued, words_valued, words_valued, words_valued, words_flags]
  simp

theorem named_items (call : ApiCall) (text : List Str) (path out ext : Option Str) (vocab : Bool) :
    named (itemsOf call text path out ext vocab) = on path.isSome "--path" ++ (on out.isSome "--output-path" ++ (on ext.isSome "--ext" ++
      (on (lengthOf (optsOf call)).isSome "--max-str-length" ++ flagsOf call vocab))) := by
  unfold itemsOf
  rw [named_append, named_append, named_append, named_append, named_append, named_args, named_valued, named_valued, named_valued, named_valued, named_flags]
  rfl

/-- All options of a command that preprocesses. -/
def allNames : ApiCall → List String
  | .nosplit _ _ => ["--path", "--output-path", "--ext", "--max-str-length", "--no-spaces", "--no-unicode", "--no-com", "--no-str", "--calc-vocab", "--full-strings"]
  | .basic _ _ _ _ _ => ["--path", "--output-path", "--ext", "--max-str-length", "--no-spaces", "--no-unicode", "--no-com", "--no-str", "--calc-vocab",
      "--split-numbers", "--ronin", "--stem", "--no-case"]
  | _ => ["--path", "--output-path", "--ext", "--max-str-length", "--no-spaces", "--no-unicode", "--no-com", "--no-str", "--calc-vocab"]

theorem own_sublist (call : ApiCall) : (ownFlags call).Sublist (((allNames call).drop 9).map String.toList) := by
  cases call with
  | nosplit o fs => exact on_sublist _ _
  | chars o => exact List.nil_sublist _
  | basic o sn ro st nc => exact (((on_sublist _ _).append (on_sublist _ _)).append (on_sublist _ _)).append (on_sublist _ _)
  | bpe i o => exact List.nil_sublist _

theorem named_sublist (call : ApiCall) (text : List Str) (path out ext : Option Str) (vocab : Bool) :
    (named (itemsOf call text path out ext vocab)).Sublist ((allNames call).map String.toList) := by
  rw [named_items]
  have h : ((allNames call).map String.toList) = ["--path".toList] ++ (["--output-path".toList] ++ (["--ext".toList] ++ (["--max-str-length".toList] ++
      (["--no-spaces".toList] ++ ["--no-unicode".toList] ++ ["--no-com".toList] ++ ["--no-str".toList] ++ ["--calc-vocab".toList] ++
      ((allNames call).drop 9).map String.toList)))) := by
    cases call <;> rfl
  rw [h]
  exact (on_sublist _ _).append ((on_sublist _ _).append ((on_sublist _ _).append ((on_sublist _ _).append
    (((((on_sublist _ _).append (on_sublist _ _)).append (on_sublist _ _)).append (on_sublist _ _)).append (on_sublist _ _) |>.append (own_sublist call)))))

theorem names_nodup (call : ApiCall) : ((allNames call).map String.toList).Nodup := by
  cases call
  · change (["--path", "--output-path", "--ext", "--max-str-length", "--no-spaces", "--no-unicode", "--no-com", "--no-str", "--calc-vocab", "--full-strings"].map String.toList).Nodup
    decide
  · change (["--path", "--output-path", "--ext", "--max-str-length", "--no-spaces", "--no-unicode", "--no-com", "--no-str", "--calc-vocab"].map String.toList).Nodup
    decide
  · change (["--path", "--output-path", "--ext", "--max-str-length", "--no-spaces", "--no-unicode", "--no-com", "--no-str", "--calc-vocab",
      "--split-numbers", "--ronin", "--stem", "--no-case"].map String.toList).Nodup
    decide
  · change (["--path", "--output-path", "--ext", "--max-str-length", "--no-spaces", "--no-unicode", "--no-com", "--no-str", "--calc-vocab"].map String.toList).Nodup
    decide

theorem items_nodup (call : ApiCall) (text : List Str) (path out ext : Option Str) (vocab : Bool) :
    (named (itemsOf call text path out ext vocab)).Nodup := (names_nodup call).sublist (named_sublist call text path out ext vocab)

theorem flags_have (call : ApiCall) (vocab : Bool) : ∀ n ∈ flagsOf call vocab, ∃ sw, Has (cmdOf call) sw ∧ n = sw.long.toList ∧ sw.value = false := by
  have hsub : (flagsOf call vocab).Sublist (((allNames call).drop 4).map String.toList) := by
    have h : (((allNames call).drop 4).map String.toList) = ["--no-spaces".toList] ++ ["--no-unicode".toList] ++ ["--no-com".toList] ++
        ["--no-str".toList] ++ ["--calc-vocab".toList] ++ ((allNames call).drop 9).map String.toList := by
      cases call <;> rfl
    rw [h]
    exact ((((on_sublist _ _).append (on_sublist _ _)).append (on_sublist _ _)).append (on_sublist _ _)).append (on_sublist _ _) |>.append (own_sublist call)
  have table : ∀ n ∈ ((allNames call).drop 4).map String.toList, ∃ sw ∈ switches, cmdOf call ∈ sw.cmds ∧ n = sw.long.toList ∧ sw.value = false := by
    cases call
    · change ∀ n ∈ ["--no-spaces", "--no-unicode", "--no-com", "--no-str", "--calc-vocab", "--full-strings"].map String.toList, ∃ sw ∈ switches,
        Cmd.nosplit ∈ sw.cmds ∧ n = sw.long.toList ∧ sw.value = false
      decide +kernel
    · change ∀ n ∈ ["--no-spaces", "--no-unicode", "--no-com", "--no-str", "--calc-vocab"].map String.toList, ∃ sw ∈ switches,
        Cmd.chars ∈ sw.cmds ∧ n = sw.long.toList ∧ sw.value = false
      decide +kernel
    · change ∀ n ∈ ["--no-spaces", "--no-unicode", "--no-com", "--no-str", "--calc-vocab", "--split-numbers", "--ronin", "--stem", "--no-case"].map String.toList,
        ∃ sw ∈ switches, Cmd.basic ∈ sw.cmds ∧ n = sw.long.toList ∧ sw.value = false
      decide +kernel
    · change ∀ n ∈ ["--no-spaces", "--no-unicode", "--no-com", "--no-str", "--calc-vocab"].map String.toList, ∃ sw ∈ switches,
        Cmd.bpe ∈ sw.cmds ∧ n = sw.long.toList ∧ sw.value = false
      decide +kernel
  intro n hn
  obtain ⟨sw, h1, h2, h3, h4⟩ := table n (hsub.subset hn)
  exact ⟨sw, ⟨h1, h2⟩, h3, h4⟩

theorem valued_have (call : ApiCall) : ∀ n ∈ ["--path", "--output-path", "--ext", "--max-str-length"],
    ∃ sw, Has (cmdOf call) sw ∧ n = sw.long ∧ sw.value = true := by
  have table : ∀ cmd ∈ splitting, ∀ n ∈ ["--path", "--output-path", "--ext", "--max-str-length"], ∃ sw ∈ switches, cmd ∈ sw.cmds ∧ n = sw.long ∧ sw.value = true := by
    decide +kernel
  intro n hn
  obtain ⟨sw, h1, h2, h3, h4⟩ := table (cmdOf call) (by cases call <;> simp [cmdOf]) n hn
  exact ⟨sw, ⟨h1, h2⟩, h3, h4⟩

theorem line_writes {call : ApiCall} (hb : ∀ v ∈ begins call, Word v) {text : List Str} (ht : ∀ v ∈ text, Word v) (path out ext : Option Str) (vocab : Bool) :
    Writes (cmdOf call) (line call text path out ext vocab) (itemsOf call text path out ext vocab) := by
  have e : line call text path out ext vocab = (begins call ++ text) ++ (Spec.Line.value "--path" path ++ (Spec.Line.value "--output-path" out ++
      (Spec.Line.value "--ext" ext ++ (Spec.Line.value "--max-str-length" (lengthOf (optsOf call)) ++ flagsOf call vocab)))) := by
    unfold line flagsOf
    simp only [List.append_assoc]
  rw [e]
  refine writes_words ?_ (writes_valued (valued_have call _ (by simp)) (writes_valued (valued_have call _ (by simp)) (writes_valued (valued_have call _ (by simp))
    (writes_valued (valued_have call _ (by simp)) (writes_flags (flags_have call vocab))))))
  intro v hv
  rcases List.mem_append.mp hv with h | h
  · exact hb v h
  · exact ht v h

theorem items_said (call : ApiCall) (text : List Str) (path out ext : Option Str) (vocab : Bool) (n : String)
    (h : n.toList ∉ ["--path".toList, "--output-path".toList, "--ext".toList, "--max-str-length".toList]) :
    Said (itemsOf call text path out ext vocab) n ↔ n.toList ∈ flagsOf call vocab := by
  unfold Said
  simp only [List.mem_cons, List.not_mem_nil, or_false, not_or] at h
  rw [named_items, List.mem_append, List.mem_append, List.mem_append, List.mem_append, mem_on_other h.1, mem_on_other h.2.1, mem_on_other h.2.2.1,
    mem_on_other h.2.2.2]
  simp

theorem flags_path (call : ApiCall) (vocab : Bool) : ∀ n ∈ ["--path".toList, "--output-path".toList, "--ext".toList, "--max-str-length".toList], n ∉ flagsOf call vocab := by
  intro n hn hf
  obtain ⟨sw, h1, rfl, h3⟩ := flags_have call vocab n hf
  have : ∀ sw ∈ switches, sw.long.toList ∈ ["--path".toList, "--output-path".toList, "--ext".toList, "--max-str-length".toList] → sw.value = true := by decide +kernel
  rw [this sw h1.1 hn] at h3
  cases h3

theorem items_value {call : ApiCall} {text : List Str} {path out ext : Option Str} {vocab : Bool} {n : String} {v : Option Str}
    (h1 : ∀ x, v = some x → Item.opt n.toList (some x) ∈ itemsOf call text path out ext vocab)
    (h2 : v = none → n.toList ∉ named (itemsOf call text path out ext vocab)) : valueOf (itemsOf call text path out ext vocab) n = v := by
  rw [valueOf_eq]
  cases v with
  | none => rw [optOf_none.mpr (h2 rfl)]; rfl
  | some x => rw [(optOf_iff (items_nodup ..)).mpr (h1 x rfl)]; rfl

theorem mem_valued (n : String) (x : Str) : Item.opt n.toList (some x) ∈ valued n (some x) := List.mem_cons_self

theorem value_path (call : ApiCall) (text : List Str) (path out ext : Option Str) (vocab : Bool) :
    valueOf (itemsOf call text path out ext vocab) "--path" = path := by
  refine items_value ?_ ?_
  · rintro x rfl
    exact List.mem_append_right _ (List.mem_append_left _ (mem_valued _ _))
  · rintro rfl
    rw [named_items, List.mem_append, List.mem_append, List.mem_append, List.mem_append, mem_on_same, mem_on_other (by decide), mem_on_other (by decide),
      mem_on_other (by decide)]
    rw [eq_false (flags_path call vocab "--path".toList (by decide))]
    simp

theorem value_out (call : ApiCall) (text : List Str) (path out ext : Option Str) (vocab : Bool) :
    valueOf (itemsOf call text path out ext vocab) "--output-path" = out := by
  refine items_value ?_ ?_
  · rintro x rfl
    exact List.mem_append_right _ (List.mem_append_right _ (List.mem_append_left _ (mem_valued _ _)))
  · rintro rfl
    rw [named_items, List.mem_append, List.mem_append, List.mem_append, List.mem_append, mem_on_same, mem_on_other (by decide), mem_on_other (by decide),
      mem_on_other (by decide)]
    rw [eq_false (flags_path call vocab "--output-path".toList (by decide))]
    simp

theorem value_ext (call : ApiCall) (text : List Str) (path out ext : Option Str) (vocab : Bool) :
    valueOf (itemsOf call text path out ext vocab) "--ext" = ext := by
  refine items_value ?_ ?_
  · rintro x rfl
    exact List.mem_append_right _ (List.mem_append_right _ (List.mem_append_right _ (List.mem_append_left _ (mem_valued _ _))))
  · rintro rfl
    rw [named_items, List.mem_append, List.mem_append, List.mem_append, List.mem_append, mem_on_same, mem_on_other (by decide), mem_on_other (by decide),
      mem_on_other (by decide)]
    rw [eq_false (flags_path call vocab "--ext".toList (by decide))]
    simp

theorem value_max (call : ApiCall) (text : List Str) (path out ext : Option Str) (vocab : Bool) :
    valueOf (itemsOf call text path out ext vocab) "--max-str-length" = lengthOf (optsOf call) := by
  refine items_value ?_ ?_
  · intro x hx
    unfold itemsOf
    rw [hx]
    exact List.mem_append_right _ (List.mem_append_right _ (List.mem_append_right _ (List.mem_append_right _ (List.mem_append_left _ (mem_valued _ _)))))
  · intro h
    rw [named_items, List.mem_append, List.mem_append, List.mem_append, List.mem_append, mem_on_same, mem_on_other (by decide), mem_on_other (by decide),
      mem_on_other (by decide), h]
    rw [eq_false (flags_path call vocab "--max-str-length".toList (by decide))]
    simp

/-- Which of the options are given. -/
theorem flags_facts (call : ApiCall) (vocab : Bool) :
    ("--no-spaces".toList ∈ flagsOf call vocab ↔ (commandLine call).noSpaces = true) ∧
    ("--no-unicode".toList ∈ flagsOf call vocab ↔ (commandLine call).noUnicode = true) ∧
    ("--no-com".toList ∈ flagsOf call vocab ↔ (commandLine call).noCom = true) ∧
    ("--no-str".toList ∈ flagsOf call vocab ↔ (commandLine call).noStr = true) ∧
    ("--calc-vocab".toList ∈ flagsOf call vocab ↔ vocab = true) ∧
    ("--no-case".toList ∈ flagsOf call vocab ↔ (commandLine call).noCase = true) ∧
    ("--full-strings".toList ∈ flagsOf call vocab ↔ (commandLine call).fullStrings = true) ∧
    ("--split-numbers".toList ∈ flagsOf call vocab ↔ (commandLine call).splitNumbers = true) ∧
    ("--ronin".toList ∈ flagsOf call vocab ↔ (commandLine call).ronin = true) ∧
    ("--stem".toList ∈ flagsOf call vocab ↔ (commandLine call).stem = true) ∧
    "--bytes".toList ∉ flagsOf call vocab := by
  unfold flagsOf
  cases call <;> simp (disch := decide) only [List.mem_append, mem_on_same, mem_on_other, or_false, false_or, ownFlags, commandLine, optsOf, List.not_mem_nil,
    not_false_eq_true, and_self, Bool.false_eq_true]

theorem begins_word {call : ApiCall} (h : Writable call) : ∀ v ∈ begins call, Word v := by
  cases call with
  | bpe i o =>
    intro v hv
    rcases List.mem_cons.mp hv with rfl | hv
    · decide
    · rw [List.mem_singleton.mp hv]
      exact h
  | nosplit _ _ | chars _ | basic _ _ _ _ _ =>
    intro v hv
    rw [List.mem_singleton.mp hv]
    decide

theorem items_fits {call : ApiCall} (h : Writable call) {text : List Str} {path out ext : Option Str} {vocab : Bool}
    (hs : (text = [] ∧ path.isSome = true) ∨ ((∃ t, text = [t]) ∧ path = none ∧ out = none)) : Fits (cmdOf call) (itemsOf call text path out ext vocab) := by
  obtain ⟨f1, f2, f3, f4, f5, f6, f7, f8, f9, f10, f11⟩ := flags_facts call vocab
  have hp : Said (itemsOf call text path out ext vocab) "--path" ↔ path.isSome = true := by
    unfold Said
    rw [named_items, List.mem_append, List.mem_append, List.mem_append, List.mem_append, mem_on_same, mem_on_other (by decide), mem_on_other (by decide),
      mem_on_other (by decide)]
    rw [eq_false (flags_path call vocab "--path".toList (by decide))]
    simp
  have ho : Said (itemsOf call text path out ext vocab) "--output-path" ↔ out.isSome = true := by
    unfold Said
    rw [named_items, List.mem_append, List.mem_append, List.mem_append, List.mem_append, mem_on_same, mem_on_other (by decide), mem_on_other (by decide),
      mem_on_other (by decide)]
    rw [eq_false (flags_path call vocab "--output-path".toList (by decide))]
    simp
  have hm : Said (itemsOf call text path out ext vocab) "--max-str-length" ↔ (optsOf call).noStr = false := by
    unfold Said
    rw [named_items, List.mem_append, List.mem_append, List.mem_append, List.mem_append, mem_on_same, mem_on_other (by decide), mem_on_other (by decide),
      mem_on_other (by decide)]
    unfold lengthOf
    rw [eq_false (flags_path call vocab "--max-str-length".toList (by decide))]
    cases (optsOf call).noStr <;> simp
  have hso : Source (itemsOf call text path out ext vocab) text := by
    unfold Source
    rw [hp, ho]
    rcases hs with h | ⟨h1, rfl, rfl⟩
    · exact .inl h
    · exact .inr ⟨h1, by simp, by simp⟩
  have hns : (commandLine call).noStr = (optsOf call).noStr := by cases call <;> rfl
  refine ⟨items_nodup .., ?_, ?_, ?_⟩
  · have hw := words_items call text path out ext vocab
    cases call with
    | bpe i o => exact ⟨i, text, hw, hso⟩
    | nosplit _ _ | chars _ | basic _ _ _ _ _ => exact ⟨text, hw, hso⟩
  · rw [items_said _ _ _ _ _ _ _ (by decide), f4, hns, hm, items_said _ _ _ _ _ _ _ (by decide), f7]
    intro e
    refine ⟨by rw [e]; simp, ?_⟩
    cases call with
    | nosplit o fs => exact fun e' => h ⟨e, e'⟩
    | chars _ | basic _ _ _ _ _ | bpe _ _ => exact fun e' => nomatch e'
  · rw [items_said _ _ _ _ _ _ "--bytes" (by decide)]
    exact fun _ => f11

theorem items_wanted (call : ApiCall) (text : List Str) (path out ext : Option Str) (vocab : Bool) :
    wanted (cmdOf call) (itemsOf call text path out ext vocab) =
      ⟨{ commandLine call with maxStrLength := lengthOf (optsOf call) }, text.head?, path, out, ext, vocab⟩ := by
  obtain ⟨f1, f2, f3, f4, f5, f6, f7, f8, f9, f10, f11⟩ := flags_facts call vocab
  have hd : ∀ (n : String) (b : Bool), n.toList ∉ ["--path".toList, "--output-path".toList, "--ext".toList, "--max-str-length".toList] →
      (n.toList ∈ flagsOf call vocab ↔ b = true) → decide (Said (itemsOf call text path out ext vocab) n) = b := by
    intro n b h1 h2
    rw [decide_eq_decide.mpr ((items_said call text path out ext vocab n h1).trans h2)]
    cases b <;> rfl
  have hw := words_items call text path out ext vocab
  unfold wanted
  rw [hd _ _ (by decide) f1, hd _ _ (by decide) f2, hd _ _ (by decide) f3, hd _ _ (by decide) f4, hd _ _ (by decide) f5, hd _ _ (by decide) f6,
    hd _ _ (by decide) f7, hd _ _ (by decide) f8, hd _ _ (by decide) f9, hd _ _ (by decide) f10, value_path, value_out, value_ext, value_max, hw]
  have ht : ∀ l : List Str, l[0]? = l.head? := fun l => by cases l <;> rfl
  cases call with
  | nosplit o fs =>
    rw [show (begins (.nosplit o fs) ++ text)[1]? = text.head? from ht text]
    rfl
  | chars o =>
    rw [show (begins (.chars o) ++ text)[1]? = text.head? from ht text]
    rfl
  | basic o sn ro st nc =>
    rw [show (begins (.basic o sn ro st nc) ++ text)[1]? = text.head? from ht text]
    rfl
  | bpe i o =>
    rw [show (begins (.bpe i o) ++ text)[2]? = text.head? from ht text, show (begins (.bpe i o) ++ text)[1]? = some i from rfl]
    have e1 : decide (cmdOf (.bpe i o) = Cmd.bpe ∧ some i = some "1k".toList) = decide (i = "1k".toList) := decide_eq_decide.mpr (by simp [cmdOf])
    have e2 : decide (cmdOf (.bpe i o) = Cmd.bpe ∧ some i = some "5k".toList) = decide (i = "5k".toList) := decide_eq_decide.mpr (by simp [cmdOf])
    have e3 : decide (cmdOf (.bpe i o) = Cmd.bpe ∧ some i = some "10k".toList) = decide (i = "10k".toList) := decide_eq_decide.mpr (by simp [cmdOf])
    have e4 : (if cmdOf (.bpe i o) = Cmd.bpe then (some i).filter (fun x => decide (x ∉ ["1k".toList, "5k".toList, "10k".toList])) else none) =
        if i = "1k".toList ∨ i = "5k".toList ∨ i = "10k".toList then none else some i := by
      rw [if_pos (show cmdOf (.bpe i o) = Cmd.bpe from rfl), Option.filter_some]
      by_cases h : i = "1k".toList ∨ i = "5k".toList ∨ i = "10k".toList
      · rw [if_pos h, decide_eq_false (fun hn => hn (by simp only [List.mem_cons, List.not_mem_nil, or_false]; exact h))]
        rfl
      · rw [if_neg h, decide_eq_true (show i ∉ ["1k".toList, "5k".toList, "10k".toList] from fun hm => h (by simpa only [List.mem_cons, List.not_mem_nil, or_false] using hm))]
        rfl
    rw [e1, e2, e3, e4]
    rfl

/-- Without strings their length does not matter. -/
theorem config_length {a : CliArgs} {n : Int} (h : a.maxStrLength = some (intStr n)) :
    cliPrepConfig { a with maxStrLength := if a.noStr then none else some (intStr n) } = cliPrepConfig a := by
  obtain ⟨x1, x2, x3, x4, x5, x6, x7, x8, x9, x10, x11, x12, ns, x14, m, x16, x17, x18⟩ := a
  change m = some (intStr n) at h
  subst h
  cases ns with
  | false => rfl
  | true =>
    change (do
      let k ← (.ok (sysMaxsize : Int) : Except PyErr Int)
      let sv ← createStrValue true k
      _ : Except PyErr PrepConfig) = (do
      let k ← pyInt (intStr n)
      let sv ← createStrValue true k
      _ : Except PyErr PrepConfig)
    rw [pyInt_intStr]
    rfl

theorem handle_congr {env : Env} {d : BpeDisk} {h : Host} {lex : Str → Option Str → List (TokType × Str)} {a b : SplitArgs}
    (h1 : cliPrepConfig a.opts = cliPrepConfig b.opts) (h2 : cliBpeCodesId a.opts = cliBpeCodesId b.opts) (h3 : a.text = b.text) (h4 : a.path = b.path)
    (h5 : a.outputPath = b.outputPath) (h6 : a.ext = b.ext) (h7 : a.calcVocab = b.calcVocab) :
    handleSplitting env d h lex a = handleSplitting env d h lex b := by
  unfold handleSplitting
  rw [h1, h2, h3, h4, h5, h6, h7]

theorem line_head (call : ApiCall) (text : List Str) (path out ext : Option Str) (vocab : Bool) :
    (line call text path out ext vocab).head? = some (cmdOf call).word := by
  cases call <;> rfl

theorem line_parse {call : ApiCall} (h : Writable call) {text : List Str} (ht : ∀ v ∈ text, Word v) {path out ext : Option Str} {vocab : Bool}
    (hs : (text = [] ∧ path.isSome = true) ∨ ((∃ t, text = [t]) ∧ path = none ∧ out = none)) :
    parse (line call text path out ext vocab) =
      some (.split ⟨{ commandLine call with maxStrLength := lengthOf (optsOf call) }, text.head?, path, out, ext, vocab⟩) := by
  refine C73_split.mpr ⟨cmdOf call, by cases call <;> exact fun e => (nomatch e), line_head .., _, line_writes (begins_word h) ht path out ext vocab, items_fits h hs, ?_⟩
  exact (items_wanted ..).symm

theorem line_handle (env : Env) (d : BpeDisk) (h : Host) (lex : Str → Option Str → List (TokType × Str)) (call : ApiCall) (text path out ext : Option Str)
    (vocab : Bool) : handleSplitting env d h lex ⟨{ commandLine call with maxStrLength := lengthOf (optsOf call) }, text, path, out, ext, vocab⟩ =
      handleSplitting env d h lex ⟨commandLine call, text, path, out, ext, vocab⟩ := by
  refine handle_congr ?_ rfl rfl rfl rfl rfl rfl
  have h1 : (commandLine call).maxStrLength = some (intStr (optsOf call).maxStrLength) := by cases call <;> rfl
  have h2 : lengthOf (optsOf call) = if (commandLine call).noStr then none else some (intStr (optsOf call).maxStrLength) := by cases call <;> rfl
  rw [h2]
  exact config_length h1

end Line

/-- **C73** Every call of the API for a text can be made on the command line, unless strings are both dropped and kept whole, or the text or the id
is taken for an option: what is printed is exactly what the function of the API returns. -/
theorem C73_text_partial {call : ApiCall} (hc : Writable call) {text : Str} (hne : text ≠ []) (ht : Word text) (ext : Option Str) (vocab : Bool) :
    ∃ a, parse (line call [text] none none ext vocab) = some (.split a) ∧
      ∀ (env : Env) (d : BpeDisk) (h : Host) (lex : Str → Option Str → List (TokType × Str)) (w : BpeCache → BpeCache),
        Shows .printed ((textApiSt env d ⟨call, lex text ext, false, true, w⟩ none).1.map (·.1)) (handleSplitting env d h lex a) := by
  refine ⟨_, line_parse hc (fun v hv => by rw [List.mem_singleton.mp hv]; exact ht) (.inr ⟨⟨text, rfl⟩, rfl, rfl⟩), ?_⟩
  intro env d h lex w
  rw [line_handle]
  exact C61_text_partial env d h lex call text hne ext none none vocab w

/-- **C73** The same for the files of a directory; the path, the directory for the results and the extensions can be anything. -/
theorem C73_corpus_partial {call : ApiCall} (hc : Writable call) (path : Str) (out ext : Option Str) (vocab : Bool) :
    ∃ a, parse (line call [] (some path) out ext vocab) = some (.split a) ∧
      ∀ (env : Env) (d : BpeDisk) (h : Host) (lex : Str → Option Str → List (TokType × Str)),
        Shows .preprocessed (corpusApi env.ucd d.reg h call path ext out vocab false) (handleSplitting env d h lex a) := by
  refine ⟨_, line_parse hc (text := []) (fun v hv => nomatch hv) (.inl ⟨rfl, rfl⟩), ?_⟩
  intro env d h lex
  rw [line_handle]
  exact C61_corpus env d h lex call path ext out vocab

namespace Line

theorem not_said {cmd : Cmd} {argv : List Str} {is : List Item} (h : Writes cmd argv is) (n : String)
    (hn : ∀ sw ∈ switches, sw.long.toList = n.toList → cmd ∉ sw.cmds) : decide (Said is n) = false := by
  apply decide_eq_false
  intro hs
  obtain ⟨sw, h1, h2⟩ := writes_named h _ hs
  exact hn sw h1.1 h2.symm h1.2

theorem id_parts (i : Str) : ((some i).filter (fun x => decide (x ∉ ["1k".toList, "5k".toList, "10k".toList]))) =
    if i = "1k".toList ∨ i = "5k".toList ∨ i = "10k".toList then none else some i := by
  rw [Option.filter_some]
  by_cases h : i = "1k".toList ∨ i = "5k".toList ∨ i = "10k".toList
  · rw [if_pos h, decide_eq_false (fun hn => hn (by simp only [List.mem_cons, List.not_mem_nil, or_false]; exact h))]
    rfl
  · rw [if_neg h, decide_eq_true (show i ∉ ["1k".toList, "5k".toList, "10k".toList] from
      fun hm => h (by simpa only [List.mem_cons, List.not_mem_nil, or_false] using hm))]
    rfl

/-- The common options of a command line, with a length of strings. -/
def commonOf (is : List Item) (n : Int) : CommonOpts where
  noSpaces := Said is "--no-spaces"
  noUnicode := Said is "--no-unicode"
  noCom := Said is "--no-com"
  noStr := Said is "--no-str"
  maxStrLength := n

/-- The call of the API that is made by a command line. -/
theorem wanted_call {cmd : Cmd} (hl : cmd ≠ .learn) {argv : List Str} {is : List Item} (h : Writes cmd argv is) (hf : Fits cmd is) (n : Int) :
    ∃ call : ApiCall, (∀ o fs, call = .nosplit o fs → ¬ (o.noStr = true ∧ fs = true)) ∧ optsOf call = commonOf is n ∧
      (wanted cmd is).opts = { commandLine call with maxStrLength := valueOf is "--max-str-length" } := by
  cases cmd with
  | learn => exact absurd rfl hl
  | nosplit =>
    refine ⟨.nosplit (commonOf is n) (Said is "--full-strings"), ?_, rfl, ?_⟩
    · rintro o fs e ⟨h1, h2⟩
      cases e
      exact (hf.strings (of_decide_eq_true h1)).2 (of_decide_eq_true h2)
    · unfold wanted
      rw [not_said h "--no-case" (by decide +kernel), not_said h "--split-numbers" (by decide +kernel), not_said h "--ronin" (by decide +kernel),
        not_said h "--stem" (by decide +kernel)]
      rfl
  | chars =>
    refine ⟨.chars (commonOf is n), fun _ _ e => (nomatch e), rfl, ?_⟩
    unfold wanted
    rw [not_said h "--no-case" (by decide +kernel), not_said h "--split-numbers" (by decide +kernel), not_said h "--ronin" (by decide +kernel),
      not_said h "--stem" (by decide +kernel), not_said h "--full-strings" (by decide +kernel)]
    rfl
  | basic =>
    refine ⟨.basic (commonOf is n) (Said is "--split-numbers") (Said is "--ronin") (Said is "--stem") (Said is "--no-case"), fun _ _ e => (nomatch e), rfl, ?_⟩
    unfold wanted
    rw [not_said h "--full-strings" (by decide +kernel)]
    rfl
  | bpe =>
    obtain ⟨id, rest, hw, _⟩ := hf.words
    refine ⟨.bpe id (commonOf is n), fun _ _ e => (nomatch e), rfl, ?_⟩
    have hi : (words is)[1]? = some id := by rw [hw]; rfl
    unfold wanted
    rw [not_said h "--no-case" (by decide +kernel), not_said h "--split-numbers" (by decide +kernel), not_said h "--ronin" (by decide +kernel),
      not_said h "--stem" (by decide +kernel), not_said h "--full-strings" (by decide +kernel), hi, id_parts]
    have e : ∀ w : Str, decide (Cmd.bpe = Cmd.bpe ∧ some id = some w) = decide (id = w) := fun w => decide_eq_decide.mpr (by simp)
    rw [e, e, e]
    rfl

theorem config_read {a : CliArgs} {s : Option Str} {n : Int} (hs : (match s with
    | none => .ok (sysMaxsize : Int)
    | some s => pyInt s) = Except.ok n) (ha : a.maxStrLength = some (intStr n)) : cliPrepConfig { a with maxStrLength := s } = cliPrepConfig a := by
  unfold cliPrepConfig
  rw [ha]
  cases s with
  | none =>
    cases hs
    simp only
    rw [pyInt_intStr]
    rfl
  | some s =>
    have hs' : pyInt s = .ok n := hs
    simp only
    rw [pyInt_intStr, hs']
    rfl

theorem pyInt_error {s : Str} {e : PyErr} (h : pyInt s = .error e) : e = .valueError := by
  have aux : ∀ r : Option Int, (match r with
      | some i => Except.ok i
      | none => .error PyErr.valueError) = .error e → e = .valueError := by
    intro r hr
    cases r with
    | none => cases hr; rfl
    | some _ => cases hr
  exact aux _ h

theorem config_error {a : CliArgs} {s : Str} (ha : a.maxStrLength = some s) (h : pyInt s = .error .valueError) : cliPrepConfig a = .error .valueError := by
  unfold cliPrepConfig
  rw [ha]
  simp only
  rw [h]
  rfl

end Line

/-- **C73** Every command line that is accepted for preprocessing makes one call of the API, on one text or on one directory, unless the length of
strings is not a number. -/
theorem C73_only_calls {argv : List Str} {a : SplitArgs} (h : parse argv = some (.split a)) :
    (((∃ t, a.text = some t) ∧ a.path = none ∧ a.outputPath = none) ∨ (a.text = none ∧ ∃ p, a.path = some p)) ∧
    ((∃ s, a.opts.maxStrLength = some s ∧ pyInt s = .error .valueError ∧ ∀ env d h lex, handleSplitting env d h lex a = .raised .valueError) ∨
      ∃ call : ApiCall, (∀ o fs, call = .nosplit o fs → ¬ (o.noStr = true ∧ fs = true)) ∧
        ∀ env d h lex, handleSplitting env d h lex a = handleSplitting env d h lex { a with opts := commandLine call }) := by
  obtain ⟨cmd, hl, hh, is, hw, hf, rfl⟩ := C73_split.mp h
  have hp := writes_valueOf hw "--path" (by decide +kernel)
  have ho := writes_valueOf hw "--output-path" (by decide +kernel)
  have none_of : ∀ n : String, ¬ (∃ v, valueOf is n = some v) → valueOf is n = none := fun n h => Option.eq_none_iff_forall_ne_some.mpr fun v e => h ⟨v, e⟩
  constructor
  · have hsrc : ∃ rest, Source is rest ∧ (wanted cmd is).text = rest.head? := by
      have e0 : ∀ l : List Str, l[0]? = l.head? := fun l => by cases l <;> rfl
      have hwd := hf.words
      cases cmd with
      | learn => exact absurd rfl hl
      | bpe =>
        obtain ⟨id, rest, h1, h2⟩ := hwd
        refine ⟨rest, h2, ?_⟩
        change (words is)[2]? = _
        rw [h1]
        exact e0 rest
      | nosplit | chars | basic =>
        obtain ⟨rest, h1, h2⟩ := hwd
        refine ⟨rest, h2, ?_⟩
        change (words is)[1]? = _
        rw [h1]
        exact e0 rest
    obtain ⟨rest, hs, ht⟩ := hsrc
    rcases hs with ⟨rfl, hs⟩ | ⟨⟨t, rfl⟩, h1, h2⟩
    · exact .inr ⟨ht, hp.mp hs⟩
    · exact .inl ⟨⟨t, ht⟩, none_of _ (fun e => h1 (hp.mpr e)), none_of _ (fun e => h2 (ho.mpr e))⟩
  · have done : ∀ n : Int, (match valueOf is "--max-str-length" with
        | none => .ok (sysMaxsize : Int)
        | some s => pyInt s) = Except.ok n → ∃ call : ApiCall, (∀ o fs, call = .nosplit o fs → ¬ (o.noStr = true ∧ fs = true)) ∧
          ∀ env d h lex, handleSplitting env d h lex (wanted cmd is) = handleSplitting env d h lex { wanted cmd is with opts := commandLine call } := by
      intro n hn
      obtain ⟨call, h1, h2, h3⟩ := wanted_call hl hw hf n
      refine ⟨call, h1, fun env d h lex => handle_congr ?_ ?_ rfl rfl rfl rfl rfl⟩
      · rw [h3]
        refine config_read hn ?_
        have : (commandLine call).maxStrLength = some (intStr (optsOf call).maxStrLength) := by cases call <;> rfl
        rw [this, h2]
        rfl
      · rw [h3]
        rfl
    cases hv : valueOf is "--max-str-length" with
    | none => exact .inr (done _ (by rw [hv]))
    | some s =>
      cases hi : pyInt s with
      | ok n => exact .inr (done n (by rw [hv]; exact hi))
      | error e =>
        have he := pyInt_error hi
        subst he
        refine .inl ⟨s, hv, hi, fun env d h lex => ?_⟩
        unfold handleSplitting
        rw [config_error hv hi]
        rfl

/-! ## What cannot be said on the command line -/

/-- **C73** (violated) The length of strings as it is written in the text of the usage, `-L=5`: the value is `=5`, which is not a number. -/
theorem C73_length_violated : ∃ a, parse ["chars".toList, "x".toList, "-L=5".toList] = some (.split a) ∧ a.opts.maxStrLength = some "=5".toList ∧
    ∀ env d h lex, handleSplitting env d h lex a = .raised .valueError := by
  refine ⟨_, rfl, rfl, fun env d h lex => ?_⟩
  unfold handleSplitting
  rw [config_error (s := "=5".toList) rfl (by decide)]
  rfl

/-- **C73** (violated) The option `full_strings` of the API together with `no_str` cannot be asked for on the command line. -/
theorem C73_strings_violated {argv : List Str} {a : SplitArgs} (h : parse argv = some (.split a)) : ¬ (a.opts.noStr = true ∧ a.opts.fullStrings = true) := by
  obtain ⟨cmd, hl, hh, is, hw, hf, rfl⟩ := C73_split.mp h
  rintro ⟨h1, h2⟩
  exact (hf.strings (of_decide_eq_true h1)).2 (of_decide_eq_true h2)

namespace Line

/-- The words of a command line; after `--` they can be anything. -/
theorem writes_words_of {cmd : Cmd} {argv : List Str} {is : List Item} (h : Writes cmd argv is) :
    ∃ ws r, words is = ws ++ r ∧ (∀ v ∈ ws, Word v) ∧ (r = [] ∨ r.head? = some "--".toList) := by
  have none_ : ∀ {cs js}, Letters cmd cs js → words js = [] := by
    intro cs js hl
    induction hl with
    | nil => rfl
    | cons _ _ _ _ ih => exact ih
  induction h with
  | nil => exact ⟨[], [], rfl, fun _ h => (nomatch h), .inl rfl⟩
  | @word v _ is hv _ ih =>
    obtain ⟨ws, r, h1, h2, h3⟩ := ih
    refine ⟨v :: ws, r, by rw [words_arg, h1]; rfl, ?_, h3⟩
    intro x hx
    rcases List.mem_cons.mp hx with rfl | hx
    · exact hv
    · exact h2 x hx
  | dashes rest => exact ⟨[], "--".toList :: rest, words_args _, fun _ h => (nomatch h), .inr rfl⟩
  | long _ _ _ ih | longEq _ _ _ ih | longNext _ _ _ _ ih => exact ih
  | letters h _ _ ih =>
    rw [words_append, none_ h]
    exact ih
  | lettersValue h _ _ _ _ _ ih | lettersNext h _ _ _ _ _ ih =>
    rw [words_append, none_ h]
    exact ih

end Line

/-- **C73** (violated) A text that begins with a dash cannot be given to `nosplit`, `chars` and `basic`, except `-` and `--`; to `bpe` it can be given
only with the id `--`. -/
theorem C73_dash_violated {argv : List Str} {a : SplitArgs} (h : parse argv = some (.split a)) {t : Str} (ht : a.text = some t) :
    Word t ∨ t = "--".toList ∨ a.opts.bpeCodesId = some "--".toList := by
  obtain ⟨cmd, hl, hh, is, hw, hf, rfl⟩ := C73_split.mp h
  obtain ⟨ws, r, h1, h2, h3⟩ := writes_words_of hw
  have hwd := hf.words
  have two : ∀ {x : Str} {l : List Str}, words is = x :: l → x ≠ "--".toList → ∃ ws', ws = x :: ws' ∧ l = ws' ++ r := by
    intro x l e hx
    rw [h1] at e
    cases ws with
    | nil =>
      rcases h3 with h | h
      · rw [h] at e; cases e
      · rw [List.nil_append] at e
        rw [e] at h
        exact absurd (Option.some.inj h) hx
    | cons y ws' =>
      injection e with e1 e2
      exact ⟨ws', by rw [e1], e2.symm⟩
  have one : ∀ {l : List Str} {ws' : List Str}, (∀ v ∈ ws', Word v) → l = ws' ++ r → ∀ x, l.head? = some x → Word x ∨ x = "--".toList := by
    intro l ws' hws e x hx
    cases ws' with
    | nil =>
      rcases h3 with h | h
      · rw [e, h] at hx; cases hx
      · rw [e, List.nil_append, h] at hx
        exact .inr (Option.some.inj hx).symm
    | cons y ws'' =>
      rw [e] at hx
      cases hx
      exact .inl (hws _ List.mem_cons_self)
  cases cmd with
  | learn => exact absurd rfl hl
  | bpe =>
    obtain ⟨id, rest, hws, hs⟩ := hwd
    have ht' : (words is)[2]? = some t := ht
    rw [hws] at ht'
    obtain ⟨ws', e1, e2⟩ := two hws (by decide)
    have hw' : ∀ v ∈ ws', Word v := fun v hv => h2 v (by rw [e1]; exact List.mem_cons_of_mem _ hv)
    by_cases hid : id = "--".toList
    · right; right
      change (words is)[1]?.filter _ = _
      rw [hws, hid]
      rfl
    · cases ws' with
      | nil =>
        rcases one hw' e2 id rfl with hi | hi
        · rcases h3 with h | h
          · rw [h] at e2; cases e2
          · rw [List.nil_append] at e2
            rw [← e2] at h
            exact absurd (Option.some.inj h) hid
        · exact absurd hi hid
      | cons y ws'' =>
        injection e2 with e3 e4
        have hr : rest.head? = some t := by
          cases rest with
          | nil => cases ht'
          | cons z _ => exact ht'
        rcases one (fun v hv => hw' v (List.mem_cons_of_mem _ hv)) e4 t hr with h | h
        · exact .inl h
        · exact .inr (.inl h)
  | nosplit | chars | basic =>
    obtain ⟨rest, hws, hs⟩ := hwd
    have ht' : (words is)[1]? = some t := ht
    rw [hws] at ht'
    obtain ⟨ws', e1, e2⟩ := two hws (by decide)
    have hr : rest.head? = some t := by
      cases rest with
      | nil => cases ht'
      | cons z _ => exact ht'
    rcases one (fun v hv => h2 v (by rw [e1]; exact List.mem_cons_of_mem _ hv)) e2 t hr with h | h
    · exact .inl h
    · exact .inr (.inl h)

/-! ## Examples -/

/-- `codeprep basic -rs -l --no-sp "a b" -L 7` is accepted, and the options are read as they are meant. -/
example : ∃ a, parse ["basic".toList, "-rs".toList, "-l".toList, "--no-sp".toList, "a b".toList, "-L".toList, "7".toList] = some (.split a) ∧
    a.text = some "a b".toList ∧ a.opts.ronin = true ∧ a.opts.stem = true ∧ a.opts.noCase = true ∧ a.opts.noSpaces = true ∧
    a.opts.maxStrLength = some "7".toList ∧ a.opts.splitNumbers = false := ⟨_, rfl, rfl, rfl, rfl, rfl, rfl, rfl, rfl⟩

/-- A beginning of two options is refused, so is an option that is given twice, a text together with a path, and an option of another command. -/
example : parse ["basic".toList, "x".toList, "--no-s".toList] = none ∧ parse ["basic".toList, "x".toList, "-l".toList, "--no-case".toList] = none ∧
    parse ["basic".toList, "x".toList, "-p".toList, "y".toList] = none ∧ parse ["chars".toList, "x".toList, "-l".toList] = none := ⟨rfl, rfl, rfl, rfl⟩

/-- `codeprep learn-bpe 100 -p dir --legacy` is accepted. -/
example : parse ["learn-bpe".toList, "100".toList, "-p".toList, "dir".toList, "--legacy".toList] =
    some (.learn ⟨"100".toList, "dir".toList, none, none, false, false, false, true⟩) := rfl

/-- Two orders of the same options. -/
example : parse ["bpe".toList, "1k".toList, "-p".toList, "dir".toList, "-CU".toList] =
    parse ["bpe".toList, "-U".toList, "--path=dir".toList, "--no-com".toList, "1k".toList] := rfl

/-- A call with all kinds of options can be written. -/
example : Writable (.basic ⟨true, false, true, false, 14⟩ true true false true) ∧
    line (.basic ⟨true, false, true, false, 14⟩ true true false true) ["x".toList] none none (some "java".toList) true =
      ["basic", "x", "--ext=java", "--max-str-length=14", "--no-spaces", "--no-com", "--calc-vocab", "--split-numbers", "--ronin", "--no-case"].map String.toList :=
  ⟨trivial, by decide⟩

/-- The text `-1` is not accepted, but `-` is. -/
example : parse ["chars".toList, "-1".toList] = none ∧ ∃ a, parse ["chars".toList, "-".toList] = some (.split a) ∧ a.text = some "-".toList :=
  ⟨rfl, _, rfl, rfl⟩

end Verif.Props
