import Verif.Spec.Cli
import Verif.Props.BpeState
import Verif.Props.NewId
import Verif.Proofs.DirNames
/-!
# The command line does what the API does (C61)
-/
namespace Verif.Props
open Verif Spec

/-! ## Paths -/

theorem norm_foldl (cs : List Str) (acc : List Str) (h : ∀ c ∈ acc, c ≠ ['.', '.']) :
    (cs.foldl (normStep true) acc).reverse = cs.foldl go acc.reverse ∧ ∀ c ∈ cs.foldl (normStep true) acc, c ≠ ['.', '.'] := by
  induction cs generalizing acc with
  | nil => exact ⟨rfl, h⟩
  | cons c cs ih =>
    simp only [List.foldl_cons]
    by_cases h1 : c = [] ∨ c = ['.']
    · rw [show normStep true acc c = acc from if_pos h1, show go acc.reverse c = acc.reverse from if_pos h1]
      exact ih acc h
    · by_cases h2 : c = ['.', '.']
      · have e1 : normStep true acc c = acc.tail := by
          unfold normStep
          rw [if_neg h1, if_neg]
          rintro (h3 | h3 | h3)
          · exact h3 h2
          · cases h3.1
          · exact h _ (List.mem_of_mem_head? h3) rfl
        have e2 : go acc.reverse c = acc.tail.reverse := by
          unfold go
          rw [if_neg h1, if_pos h2]
          cases acc <;> simp
        rw [e1, e2]
        exact ih acc.tail fun c hc => h c (List.mem_of_mem_tail hc)
      · have e1 : normStep true acc c = c :: acc := by
          unfold normStep
          rw [if_neg h1, if_pos (.inl h2)]
        have e2 : go acc.reverse c = (c :: acc).reverse := by
          unfold go
          rw [if_neg h1, if_neg h2]; simp
        rw [e1, e2]
        exact ih (c :: acc) (by
          intro x hx
          rcases List.mem_cons.mp hx with rfl | hx
          · exact h2
          · exact h x hx)

theorem head_slash {p : Str} (h : p.head? = some '/') : ∃ s, p = '/' :: s := by
  cases p with
  | nil => cases h
  | cons c s => injection h with h; exact ⟨s, by rw [h]⟩

theorem initialSlashes_one {p : Str} (h : p.head? = some '/') (h2 : ¬ TwoSlashes p) : initialSlashes p = ['/'] := by
  obtain ⟨s, rfl⟩ := head_slash h
  unfold initialSlashes
  split
  · rfl
  · rename_i r hn he
    refine absurd ⟨r, he, ?_⟩ h2
    intro hr
    obtain ⟨t, rfl⟩ := head_slash hr
    exact hn t rfl
  · rfl
  · rename_i hn
    exact absurd rfl (hn s)

theorem initialSlashes_two {p : Str} (h : TwoSlashes p) : initialSlashes p = ['/', '/'] := by
  obtain ⟨r, rfl, hr⟩ := h
  unfold initialSlashes
  split
  · rename_i t he
    injection he with _ he
    injection he with _ he
    rw [he] at hr; exact absurd rfl hr
  · rfl
  · rename_i hn he; injection he with _ he; exact absurd he.symm (hn r)
  · rename_i hn _; exact absurd rfl (hn _)

theorem normpath_one {p : Str} (h : p.head? = some '/') (h2 : ¬ TwoSlashes p) : normpath p = spell (walk [] p) := by
  unfold normpath
  rw [initialSlashes_one h h2]
  have := (norm_foldl (pySplit '/' p) [] (by simp)).1
  simp only [ne_eq, List.cons_ne_nil, not_false_eq_true, decide_true, this]
  rw [if_neg (by simp)]
  rfl

theorem normpath_two {p : Str} (h2 : TwoSlashes p) : normpath p = '/' :: spell (walk [] p) := by
  unfold normpath
  rw [initialSlashes_two h2]
  have := (norm_foldl (pySplit '/' p) [] (by simp)).1
  simp only [ne_eq, List.cons_ne_nil, not_false_eq_true, decide_true, this]
  rw [if_neg (by simp)]
  rfl

theorem walk_append (pos : List Str) (p q : Str) : walk pos (p ++ '/' :: q) = walk (walk pos p) q := by
  unfold walk
  rw [pySplit_append, List.foldl_append]

theorem walk_slash (pos : List Str) (p : Str) : walk pos (p ++ ['/']) = walk pos p := by
  rw [walk_append]; rfl

theorem walk_join {cwd q : Str} (hq : q.head? ≠ some '/') : walk [] (pathJoin cwd q) = walk (walk [] cwd) q := by
  unfold pathJoin
  rw [if_neg hq]
  split
  · next h =>
    rcases h with rfl | h
    · rfl
    · obtain ⟨a, rfl⟩ : ∃ a, cwd = a ++ ['/'] := List.getLast?_eq_some_iff.mp h
      rw [List.append_assoc, List.singleton_append, walk_append, walk_slash]
  · exact walk_append _ _ _

theorem two_join {cwd q : Str} (hc : cwd.head? = some '/') (h1 : ¬ TwoSlashes cwd) (hq : q.head? ≠ some '/') :
    ¬ TwoSlashes (pathJoin cwd q) := by
  rintro ⟨r, hr, hn⟩
  unfold pathJoin at hr
  rw [if_neg hq] at hr
  obtain ⟨s0, rfl⟩ := head_slash hc
  cases s0 with
  | nil =>
    have hr : '/' :: q = '/' :: '/' :: r := by simpa using hr
    injection hr with _ hr
    rw [hr] at hq; exact hq rfl
  | cons c s =>
    have hs : ∃ t, '/' :: c :: (s ++ t) = '/' :: '/' :: r := by
      split at hr
      · exact ⟨q, by simpa using hr⟩
      · exact ⟨'/' :: q, by simpa using hr⟩
    obtain ⟨t, ht⟩ := hs
    injection ht with _ ht
    injection ht with hc' hs'
    subst hc'
    refine h1 ⟨s, rfl, ?_⟩
    intro h
    rw [← hs'] at hn
    cases s with
    | nil => cases h
    | cons a s => exact hn h

/-- **C61** The path of a dataset to learn from may be written in any way, relative or with dots and additional slashes: it is resolved to
the plain name of the place it leads to. -/
theorem C61_path {cwd p : Str} (hc : cwd.head? = some '/') (hc2 : ¬ TwoSlashes cwd) (hp : ¬ TwoSlashes p) :
    abspath cwd p = spell (place cwd p) := by
  unfold abspath place
  split
  · next h => exact normpath_one h hp
  · next h =>
    have hh : (pathJoin cwd p).head? = some '/' := by
      unfold pathJoin
      rw [if_neg h]
      obtain ⟨s, rfl⟩ := head_slash hc
      split <;> rfl
    rw [normpath_one hh (two_join hc hc2 h), walk_join h]

/-- **C61** Two slashes at the beginning are kept, as POSIX allows. -/
theorem C61_path_two {cwd p : Str} (hp : TwoSlashes p) : abspath cwd p = '/' :: spell (place cwd p) := by
  have h : p.head? = some '/' := by obtain ⟨r, rfl, _⟩ := hp; rfl
  unfold abspath place
  rw [if_pos h, if_pos h, normpath_two hp]

example : abspath "/home/me".toList "../you/./corpora//java/".toList = "/home/you/corpora/java".toList := by decide

/-! ## Splitting -/

theorem shows_ofError {α : Type} (out : α → SplitOutcome) (e : PyErr) : Shows out (.error e) (.ofError e) := by
  by_cases h : e = .invalidBpeCodesId
  · subst h; exact .invalid
  · have : SplitOutcome.ofError e = .raised e := by cases e <;> first | rfl | exact absurd rfl h
    rw [this]; exact .error e h

theorem forced_true (t : TextCall) (h : t.force = true) : t.forced = true := by
  unfold TextCall.forced
  split
  · exact h
  · rfl

theorem load_empty (u : Ucd) (d : BpeDisk) (c : PrepConfig) (f : Bool) (g : Option BpeState) :
    loadForText u d c none f g = loadForText u d c (some []) f g := rfl

/-- The ids of the command line and of the API are the same, or both are false. -/
theorem ids_agree (call : ApiCall) : cliBpeCodesId (commandLine call) = apiBpeCodesId call ∨
    (cliBpeCodesId (commandLine call) = none ∧ apiBpeCodesId call = some []) := by
  by_cases h : apiBpeCodesId call = some []
  · right
    cases call with
    | nosplit o fs => cases h
    | chars o => cases h
    | basic o sn ro st nc => cases h
    | bpe i o =>
      obtain rfl : i = [] := by injection h
      exact C29_empty_id o
  · exact .inl (C29_same_bpe_codes call h)

theorem fresh_eq (env : Env) (d : BpeDisk) (c : PrepConfig) (call : ApiCall) (lexed : List (TokType × Str)) (w : BpeCache → BpeCache) :
    preprocessFresh env d c (cliBpeCodesId (commandLine call)) lexed =
      (preprocessSt env d c (apiBpeCodesId call) ⟨call, lexed, false, true, w⟩ none).1.map (·.1) := by
  unfold preprocessFresh preprocessSt
  simp only [forced_true ⟨.bpe [] {}, lexed, false, true, fun c => c⟩ rfl, forced_true ⟨call, lexed, false, true, w⟩ rfl]
  have hl : loadForText env.ucd d c (cliBpeCodesId (commandLine call)) true none =
      loadForText env.ucd d c (apiBpeCodesId call) true none := by
    rcases ids_agree call with h | ⟨h, h'⟩
    · rw [h]
    · rw [h, h']; rfl
  rw [hl]
  cases convertText env.ucd lexed with
  | error e => rfl
  | ok parsed =>
    simp only
    split
    · cases hx : loadForText env.ucd d c (apiBpeCodesId call) true none with
      | mk r g =>
        cases r with
        | error e => rfl
        | ok _ => rfl
    · rfl

/-- **C61** A command with a text prints exactly the tokens that the function of the API returns, for every text that is not empty and
all options. -/
theorem C61_text_partial (env : Env) (d : BpeDisk) (h : Host) (lex : Str → Option Str → List (TokType × Str)) (call : ApiCall)
    (text : Str) (hne : text ≠ []) (ext path out : Option Str) (vocab : Bool) (w : BpeCache → BpeCache) :
    Shows .printed ((textApiSt env d ⟨call, lex text ext, false, true, w⟩ none).1.map (·.1))
      (handleSplitting env d h lex ⟨commandLine call, some text, path, out, ext, vocab⟩) := by
  obtain ⟨c, h1, -, h3, -⟩ := C29_same_configuration call
  unfold handleSplitting textApiSt
  simp only [h1, h3]
  cases text with
  | nil => exact absurd rfl hne
  | cons ch r =>
    simp only
    rw [← fresh_eq]
    cases preprocessFresh env d c (cliBpeCodesId (commandLine call)) (lex (ch :: r) ext) with
    | error e => exact shows_ofError _ _
    | ok ts => exact .result ts

theorem custom_eq (u : Ucd) (reg : Option Registry) (c : PrepConfig) (call : ApiCall) :
    corpusCustom u reg c (cliBpeCodesId (commandLine call)) = corpusCustom u reg c (apiBpeCodesId call) := by
  rcases ids_agree call with h | ⟨h, h'⟩
  · rw [h]
  · rw [h, h']; rfl

/-- **C61** A command with a path preprocesses the corpus exactly as the function of the API does. -/
theorem C61_corpus (env : Env) (d : BpeDisk) (h : Host) (lex : Str → Option Str → List (TokType × Str)) (call : ApiCall)
    (path : Str) (ext out : Option Str) (vocab : Bool) :
    Shows .preprocessed (corpusApi env.ucd d.reg h call path ext out vocab false)
      (handleSplitting env d h lex ⟨commandLine call, none, some path, out, ext, vocab⟩) := by
  obtain ⟨c, -, h2, h3, -⟩ := C29_same_configuration call
  unfold handleSplitting corpusApi
  simp only [h2, h3, bind, Except.bind]
  have he : preprocessCorpus env.ucd d.reg h (some path) c (cliBpeCodesId (commandLine call)) ext out vocab false =
      preprocessCorpus env.ucd d.reg h (some path) c (apiBpeCodesId call) ext out vocab false := by
    unfold preprocessCorpus
    rw [custom_eq]
  rw [he]
  cases preprocessCorpus env.ucd d.reg h (some path) c (apiBpeCodesId call) ext out vocab false with
  | error e => exact shows_ofError _ _
  | ok p => exact .result p

/-- **C61** What a corpus is preprocessed to: the dataset is the one at the path, with the extensions asked for, and the results are in the
directory asked for, or else in the current directory. -/
theorem C61_plan {u : Ucd} {reg : Option Registry} {h : Host} {call : ApiCall} {path : Str} {ext out : Option Str} {vocab sup : Bool}
    {p : CorpusPlan} (hp : corpusApi u reg h call path ext out vocab sup = .ok p) :
    h.pathExists path = true ∧ p.path = path ∧ p.exts = normalizeExtensions ext ∧ corpusConfig call = .ok p.config ∧
      (p.call.kind = if vocab then .vocab else .prep) ∧ p.call.caching = !sup ∧
      p.results h = pathJoin p.call.out
        (datasetDirName path (h.timestamp path) (normalizeExtensions ext) ++ "_-_".toList ++ p.call.cfg ++ "_-_prep".toList) ∧
      p.call.cfg = p.config.toStr ++ (match p.custom with | none => [] | some c => '_' :: c.id ++ '-' :: natStr c.nMerges.toNat) ∧
      (out ≠ none ∧ out ≠ some [] → some p.call.out = out) ∧ (out = none ∨ out = some [] → p.call.out = h.cwd) ∧
      (p.config.isBpe = false ∨ (∃ id, apiBpeCodesId call = some id ∧ isPredefinedId id = true) → p.custom = none) ∧
      (p.config.isBpe = true → ∃ id, apiBpeCodesId call = some id ∧ id ≠ [] ∧
        (isPredefinedId id = false → ∃ c, p.custom = some c ∧ CustomBpeConfig.fromId u reg id = .ok c)) := by
  obtain ⟨c, -, h2, -⟩ := C29_same_configuration call
  unfold corpusApi preprocessCorpus at hp
  simp only [h2, bind, Except.bind] at hp
  cases hc : corpusCustom u reg c (apiBpeCodesId call) with
  | error e => rw [hc] at hp; cases hp
  | ok custom =>
    rw [hc] at hp
    simp only at hp
    split at hp
    · cases hp
    · next hx =>
      injection hp with hp
      subst hp
      refine ⟨by simpa using hx, rfl, rfl, h2, rfl, rfl, rfl, ?_, ?_, ?_, ?_, ?_⟩
      · cases custom with
        | none => simp [prepSuffix]
        | some cc => simp [prepSuffix]
      · rintro ⟨o1, o2⟩
        match out with
        | none => exact absurd rfl o1
        | some [] => exact absurd rfl o2
        | some (a :: r) => rfl
      · rintro (rfl | rfl) <;> rfl
      · intro hh
        simp only at hh ⊢
        unfold corpusCustom at hc
        split at hc
        · next hb =>
          rcases hh with hh | hh
          · rw [hh] at hb; cases hb
          · split at hc
            · cases hc
            · cases hc
            · next hid =>
              obtain ⟨id, h5, h6⟩ := hh
              rw [hid] at h5
              injection h5 with h5
              rw [h5, if_pos h6] at hc
              injection hc with hc; exact hc.symm
        · injection hc with hc; exact hc.symm
      · intro hb
        simp only at hb ⊢
        unfold corpusCustom at hc
        rw [if_pos hb] at hc
        split at hc
        · cases hc
        · cases hc
        · next ch r hid =>
          refine ⟨ch :: r, hid, by simp, ?_⟩
          intro hn
          rw [if_neg (by rw [hn]; simp)] at hc
          cases hf : CustomBpeConfig.fromId u reg (ch :: r) with
          | error e => rw [hf] at hc; cases hc
          | ok cc => rw [hf] at hc; injection hc with hc; exact ⟨cc, hc.symm, rfl⟩

/-- **C61** Errors of the corpus functions, before any work is done. -/
theorem C61_missing (u : Ucd) (reg : Option Registry) (h : Host) (call : ApiCall) (path : Str) (ext out : Option Str) (vocab sup : Bool)
    (hx : h.pathExists path = false) : ∃ e, corpusApi u reg h call path ext out vocab sup = .error e := by
  obtain ⟨c, -, h2, -⟩ := C29_same_configuration call
  unfold corpusApi preprocessCorpus
  simp only [h2, bind, Except.bind]
  cases corpusCustom u reg c (apiBpeCodesId call) with
  | error e => exact ⟨e, rfl⟩
  | ok custom => exact ⟨.valueError, by simp [hx]⟩

/-- **C61** An empty text is taken for no text: the command preprocesses a corpus at the path `None` (in the current directory). -/
theorem C61_empty_text (env : Env) (d : BpeDisk) (h : Host) (lex : Str → Option Str → List (TokType × Str)) (call : ApiCall)
    (ext out : Option Str) (vocab : Bool) :
    Shows .preprocessed (corpusApi env.ucd d.reg h call "None".toList ext out vocab false)
      (handleSplitting env d h lex ⟨commandLine call, some [], none, out, ext, vocab⟩) :=
  C61_corpus env d h lex call "None".toList ext out vocab

/-- A computer with nothing on it. -/
def bareHost : Host := ⟨fun _ => false, fun _ => [], "/".toList⟩

set_option synthInstance.maxSize 1000 in
/-- **C61, the missing part is false** For an empty text the function of the API returns no tokens, the command raises an error. -/
theorem C61_empty_text_violated (d : BpeDisk) (lex : Str → Option Str → List (TokType × Str)) :
    (textApiSt demoEnv d ⟨.nosplit {} false, [], false, true, fun c => c⟩ none).1.map (·.1) = .ok [] ∧
      handleSplitting demoEnv d bareHost lex ⟨commandLine (.nosplit {} false), some [], none, none, none, false⟩ = .raised .valueError := by
  constructor
  · rfl
  · have := C61_empty_text demoEnv d bareHost lex (.nosplit {} false) none none false
    have he : corpusApi demoEnv.ucd d.reg bareHost (.nosplit {} false) "None".toList none none false false = .error .valueError := rfl
    rw [he] at this
    generalize handleSplitting demoEnv d bareHost lex _ = o at this ⊢
    cases this; rfl

end Verif.Props
