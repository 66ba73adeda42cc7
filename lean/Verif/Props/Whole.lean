import Verif.Model.Whole
import Verif.Props.Walk
import Verif.Props.Workers
import Verif.Props.Source
import Verif.Props.Solid
import Verif.Props.Parse
/-!
# C74: from the files of a dataset to the results
-/
namespace Verif.Props
open Verif Spec Tree Pool Source Whole

/-- What is pickled is what is loaded. -/
def Lossless (pk : Pickler) : Prop := ∀ ts, pk.load (pk.dump ts) = some ts

/-- The tokens in the result of a file are those that the text functions give; or, if line breaks are shown, there is one more line break
at the end. -/
def UpToNewline (c : PrepConfig) (toks out : List Str) : Prop :=
  out = toks ∨ c.tabsNewlines ≠ ['0'] ∧ ∃ pre, toks = pre ++ [eofShown c] ∧ out = pre ++ [newlineShown c, eofShown c]

/-- The text function, called for the text of the file with its extension, gives the tokens. -/
def TokensOfFile (env : Env) (load : Str → Except PyErr BpeData) (L : Lexers) (call : ApiCall) (src b : Bytes) (toks : List Str) : Prop :=
  ∃ x text md, ExtensionIs src x ∧ TextOf b text ∧ textApi env load call (lexText L text (some x)) true = .ok (toks, md)

namespace Whole

theorem extension_of {p : Bytes} {x : Str} (h : extensionOf p = .ok x) : ExtensionIs p x := by
  by_cases he : ∃ e, HasExtension p e
  · obtain ⟨e, he⟩ := he
    by_cases hx : ∃ y, e = utf8 y
    · obtain ⟨y, rfl⟩ := hx
      have := C66_extension p y he
      rw [h] at this
      cases this
      exact .inl he
    · have := C66_extension_violated p e he (fun y hy => hx ⟨y, hy⟩) asciiUcd ⟨fun _ => none, fun _ _ => []⟩ []
      unfold parseFile at this
      simp only [h, bind, Except.bind, lexText] at this
      simp [convertText] at this
  · have he := fun e he' => he ⟨e, he'⟩
    have := C66_no_extension p he
    rw [h] at this
    cases this
    exact .inr ⟨he, rfl⟩

/-- What was parsed, if parsing came to its end. -/
theorem parseRes_ok {u : Ucd} {L : Lexers} {pk : Pickler} {read : Bytes → Option Bytes} {src : Bytes} {s t : Str}
    (h : parseRes u L pk read src = .ok s t) :
    ∃ b x ts, read src = some b ∧ ExtensionIs src x ∧ convertText u (lexText L (parsedText b) (some x)) = .ok ts ∧ s = pk.dump ts := by
  unfold parseRes parseFile at h
  cases hb : read src with
  | none => rw [hb] at h; cases h
  | some b =>
    rw [hb] at h
    cases he : extensionOf src with
    | error e => simp only [he, bind, Except.bind] at h; cases h
    | ok x =>
      simp only [he, bind, Except.bind] at h
      cases hc : convertText u (lexText L (parsedText b) (some x)) with
      | error e => simp only [hc] at h; cases h
      | ok ts =>
        simp only [hc] at h
        cases h
        exact ⟨b, x, ts, rfl, extension_of he, hc, rfl⟩

theorem reprRes_ok {env : Env} {c : PrepConfig} {bd : Option BpeData} {pk : Pickler} (hp : Lossless pk) {ts : List Tok} {s t : Str}
    (h : reprRes env c bd pk (pk.dump ts) = .ok s t) :
    ∃ r, toRepr env c (ts ++ [.specialToken Ph.ect]) bd = .ok r ∧ s = prepText r.1 ∧ t = dumpTokenSet r.2.nonproc := by
  unfold reprRes at h
  rw [hp ts] at h
  cases hr : toRepr env c (ts ++ [.specialToken Ph.ect]) bd with
  | error e => simp only [hr] at h; cases h
  | ok r =>
    simp only [hr] at h
    cases h
    exact ⟨r, rfl, rfl, rfl⟩

theorem corpus_valid {call : ApiCall} {c : PrepConfig} (h : corpusConfig call = .ok c) : c.Valid := by
  obtain ⟨v, hv, hp⟩ := createStrValue_ok (optsOf call).noStr (optsOf call).maxStrLength
  rw [(textConfig_eq call hv hp).2.1] at h
  cases h
  exact configOf_valid call hp

/-- The tokens of a file and those of its text. -/
theorem tokens_text {env : Env} {L : Lexers} {call : ApiCall} {c : PrepConfig} (hc : corpusConfig call = .ok c)
    {load : Str → Except PyErr BpeData} {bd : Option BpeData} (hbd : SameCodes c load (apiBpeCodesId call) bd) {src b : Bytes} {out : List Str}
    (h : FileTokens env L c bd (src, b) out) : ∃ toks, TokensOfFile env load L call src b toks ∧ UpToNewline c toks out := by
  obtain ⟨c', h1, h2, -⟩ := C29_same_configuration call
  rw [hc] at h2
  cases h2
  obtain ⟨x, ts, md, hx, hts, hr⟩ := h
  have hv : c.Valid := corpus_valid hc
  have key : ∀ toks md, toRepr env c (finishParsed ts true) bd = .ok (toks, md) → TokensOfFile env load L call src b toks := by
    intro toks md h
    refine ⟨x, parsedText b, md, hx, (C66_text b _).mpr rfl, ?_⟩
    unfold textApi
    rw [h1]
    change preprocessText env load _ c _ _ = _
    rw [preprocess_codes hbd, hts]
    exact h
  unfold finishParsed at key
  simp only [if_true] at key
  by_cases hl : ts.getLast? = some .newLine
  · obtain ⟨pre, rfl⟩ := ends_in hl
    rw [show removeTrailingNewline (pre ++ [.newLine]) = pre by simp [removeTrailingNewline, Tok.isNewLine]] at key
    obtain ⟨m1, e1⟩ := toRepr_newline env hv bd
    obtain ⟨m2, e2⟩ := toRepr_eof env hv bd
    cases hq : toRepr env c pre bd with
    | error e =>
      have f1 := (C16_failure env c hv pre [.newLine] bd e).mpr (.inl hq)
      rw [(C16_failure env c hv (pre ++ [Tok.newLine]) [.specialToken Ph.ect] bd e).mpr (.inl f1)] at hr
      cases hr
    | ok r =>
      obtain ⟨r, m'⟩ := r
      obtain ⟨m3, e3, -⟩ := C16_compositional env c hv _ _ bd _ _ _ _ hq e1
      obtain ⟨m4, e4, -⟩ := C16_compositional env c hv _ _ bd _ _ _ _ e3 e2
      obtain ⟨m5, e5, -⟩ := C16_compositional env c hv _ _ bd _ _ _ _ hq e2
      refine ⟨_, key _ _ e5, ?_⟩
      have e := (Prod.mk.inj (Except.ok.inj (e4.symm.trans hr))).1
      by_cases h0 : c.tabsNewlines = ['0']
      · rw [if_pos h0, List.append_nil] at e
        exact .inl e.symm
      · rw [if_neg h0] at e
        refine .inr ⟨h0, r, rfl, ?_⟩
        rw [← e, List.append_assoc]
        rfl
  · have hn : removeTrailingNewline ts = ts := by
      unfold removeTrailingNewline
      cases hg : ts.getLast? with
      | none => rfl
      | some k =>
        rw [hg] at hl
        have : k.isNewLine = false := by
          cases k <;> first | rfl | exact absurd rfl hl
        simp [this]
    rw [hn] at key
    exact ⟨out, key _ _ hr, .inl rfl⟩

theorem joinSlash_eq (p : List Bytes) : joinSlash p = List.intercalate [47] p := by
  induction p with
  | nil => rfl
  | cons a r ih =>
    cases r with
    | nil => simp [joinSlash]
    | cons b r => rw [joinSlash, ih, List.intercalate_cons_cons]; simp

/-- What becomes of one file. -/
theorem file_done {env : Env} {L : Lexers} {c : PrepConfig} {bd : Option BpeData} {pk : Pickler} (hp : Lossless pk) {read : Bytes → Option Bytes}
    {top : Bytes} {files : List Bytes} (hg : GoodFiles files) {n m : Nat} {s1 s2 : Setup} {w1 w2 : Pool.World} (hs2 : s2.stage = .repr)
    (h1 : Reachable s1 (parseAll env.ucd L pk read top files) n w1) (hr1 : w1.ready = true)
    (h2 : Reachable s2 (reprAll env c bd pk w1.disk files) m w2) (hr2 : w2.ready = true) {f : Bytes} (hf : f ∈ files) {dirs : List Bytes}
    {name : Bytes} (hfound : FoundAt dirs name f) :
    ∃ b out, read (joinPath top f) = some b ∧ FileTokens env L c bd (joinPath top f, b) out ∧
      w2.disk.Has (.out (joinSlash (dirs ++ [name]) ++ prepExt)) (prepText out) := by
  have hm : ∀ f ∈ files, parseRes env.ucd L pk read (joinPath top (iterName [] f)) ≠ .missing := by
    intro f hf e
    have := C33_missing_violated hs2 hg _ h1 hr1 hf e (reprRes env c bd pk) h2
    rw [hr2] at this
    cases this
  obtain ⟨s, t, e1, e2⟩ := C33_pipeline hg _ h1 hr1 hm (reprRes env c bd pk) f hf
  rw [show iterName [] f = f from List.append_nil f] at e1
  obtain ⟨b, x, ts, hb, hx, hts, rfl⟩ := parseRes_ok e1
  rcases C33_ready (reprJobs_good _ _ hg) h2 hr2 _ (List.mem_map_of_mem (f := fun f => Job.mk (newName parsedExt prepExt (iterName parsedExt f))
    (fromParsed (reprRes env c bd pk) w1.disk (iterName parsedExt f))) hf) with ⟨s', t', e3, e4⟩ | ⟨-, e3, -⟩
  · change fromParsed (reprRes env c bd pk) w1.disk (iterName parsedExt f) = _ at e3
    change w2.disk.Has (.out (newName parsedExt prepExt (iterName parsedExt f))) s' at e4
    rw [e2] at e3
    rw [(C33_names hfound).2.2] at e4
    obtain ⟨r, hr, rfl, rfl⟩ := reprRes_ok hp e3
    exact ⟨b, r.1, hb, ⟨x, ts, r.2, hx, hts, hr⟩, e4⟩
  · rw [hs2] at e3
    cases e3

end Whole

open Verif.Props.Whole

/-- **C33** The path of a file below a directory, written with any parts: empty parts and dots are left out, and if nothing is left, a dot stays. -/
theorem C33_normal (ps : List Bytes) (hne : ps ≠ []) (h : ∀ p ∈ ps, 47 ∉ p) :
    ((∀ p ∈ ps, p = [] ∨ p = [46]) → normRel (List.intercalate [47] ps) = [46]) ∧
    ((∃ p ∈ ps, p ≠ [] ∧ p ≠ [46]) → normRel (List.intercalate [47] ps) = List.intercalate [47] (ps.filter fun p => p ≠ [] ∧ p ≠ [46])) := by
  have hs : splitSlash (List.intercalate [47] ps) = ps := by rw [← joinSlash_eq]; exact splitSlash_join hne h
  unfold normRel
  rw [hs]
  constructor
  · intro hall
    have : ps.filter (fun p => p ≠ [] ∧ p ≠ [46]) = [] := by
      rw [List.filter_eq_nil_iff]
      intro p hp hq
      have hq := of_decide_eq_true hq
      rcases hall p hp with e | e
      · exact hq.1 e
      · exact hq.2 e
    rw [this]
  · rintro ⟨p, hp, hp1, hp2⟩
    have hm : p ∈ ps.filter (fun p => p ≠ [] ∧ p ≠ [46]) := List.mem_filter.mpr ⟨hp, decide_eq_true ⟨hp1, hp2⟩⟩
    cases hf : ps.filter (fun p => p ≠ [] ∧ p ≠ [46]) with
    | nil => rw [hf] at hm; cases hm
    | cons q qs => exact joinSlash_eq _

/-- `./.` is `.`, and `a//./b` is `a/b`. -/
example : normRel [46, 47, 46] = [46] ∧ normRel [97, 47, 47, 46, 47, 98] = [97, 47, 98] := by
  exact ⟨(C33_normal [[46], [46]] (by simp) (by decide)).1 (by decide),
    (C33_normal [[97], [], [46], [98]] (by simp) (by decide)).2 ⟨[97], by decide⟩⟩

/-- **C74** A directory is parsed and then preprocessed, by any numbers of workers, with any crashes, and both stages have come to their ends.
Then there is a result for every regular file with one of the extensions that names lead to (through links to directories, too), at the path
of the file with `.prep` at its end; and it has the tokens that the text function gives for the text of the file (up to one line break). -/
theorem C74_results (env : Env) (L : Lexers) (call : ApiCall) (c : PrepConfig) (hc : corpusConfig call = .ok c)
    (load : Str → Except PyErr BpeData) (bd : Option BpeData) (hbd : SameCodes c load (apiBpeCodesId call) bd) (pk : Pickler) (hp : Lossless pk)
    (read : Bytes → Option Bytes) (top : Bytes) (fs : Links) (links : Nat) (es : Entries) (hw : WellNamed fs es) (exts : Option (List Str))
    (n m : Nat) (save fresh fresh' : Bool) (w1 w2 : Pool.World)
    (h1 : Reachable ⟨.parse, false, fresh⟩ (parseAll env.ucd L pk read top (listing fs links es exts)) n w1) (hr1 : w1.ready = true)
    (h2 : Reachable ⟨.repr, save, fresh'⟩ (reprAll env c bd pk w1.disk (listing fs links es exts)) m w2) (hr2 : w2.ready = true) :
    (∀ path k t, Leads fs es path k (.file t) → k ≤ links → Wanted exts (shown path) false →
      ∃ b toks out, read (joinPath top (shown path)) = some b ∧ TokensOfFile env load L call (joinPath top (shown path)) b toks ∧
        UpToNewline c toks out ∧ w2.disk.Has (.out (List.intercalate [47] path ++ utf8 ".prep".toList)) (prepText out)) ∧
    ∀ p, w2.disk.dir (.out p) ≠ none → ∃ path k t, Leads fs es path k (.file t) ∧ k ≤ links ∧ Wanted exts (shown path) false ∧
      p = List.intercalate [47] path ++ utf8 ".prep".toList := by
  have hg : GoodFiles (listing fs links es exts) := C71_results fs links es hw exts
  have he : prepExt = utf8 ".prep".toList := by rw [utf8_eq]; rfl
  rw [← he]
  constructor
  · intro path k t hl hk hwant
    have hf : shown path ∈ listing fs links es exts := (C71_listed fs links es hw exts _).mpr ⟨path, k, t, hl, hk, rfl, hwant⟩
    obtain ⟨dirs, name, last, rfl, hd, hm⟩ := hl
    obtain ⟨b, out, hb, hft, hhas⟩ := file_done hp hg rfl h1 hr1 h2 hr2 hf (found_at hw hd hm)
    obtain ⟨toks, ht, hu⟩ := tokens_text hc hbd hft
    rw [joinSlash_eq] at hhas
    exact ⟨b, toks, out, hb, ht, hu, hhas⟩
  · intro p hpath
    obtain ⟨j, hj, rfl⟩ := (C33_only (reprJobs_good _ _ hg) h2).2 rfl hr2 p hpath
    obtain ⟨f, hf, rfl⟩ := List.mem_map.mp hj
    obtain ⟨path, k, t, hl, hk, rfl, hwant⟩ := (C71_listed fs links es hw exts f).mp hf
    obtain ⟨dirs, name, last, rfl, hd, hm⟩ := hl
    refine ⟨_, k, t, ⟨dirs, name, last, rfl, hd, hm⟩, hk, hwant, ?_⟩
    change newName parsedExt prepExt (iterName parsedExt _) = _
    rw [(C33_names (found_at hw hd hm)).2.2, joinSlash_eq]

/-- The file can be read, and its extension is UTF-8. -/
def Processable (read : Bytes → Option Bytes) (src : Bytes) : Prop := ∃ b x, read src = some b ∧ ExtensionIs src x

namespace Whole

theorem parse_total {u : Ucd} (hu : u.Laws) {L : Lexers} {pk : Pickler} {read : Bytes → Option Bytes} {src : Bytes}
    (h : Processable read src) : ∃ ts lexed, convertText u lexed = .ok ts ∧ parseRes u L pk read src = .ok (pk.dump ts) [] := by
  obtain ⟨b, x, hb, hx⟩ := h
  obtain ⟨ts, hts⟩ := C25_total u hu (lexText L (parsedText b) (some x))
  refine ⟨ts, _, hts, ?_⟩
  unfold parseRes parseFile
  rw [hb]
  simp only [extension_is hx, bind, Except.bind, hts]

theorem repr_total {env : Env} (hu : env.ucd.Laws) {c : PrepConfig} (hv : c.Valid) {bd : Option BpeData}
    (hb : c.isBpe = true → ∃ d, bd = some d ∧ Verif.CacheOk d) {pk : Pickler} (hp : Lossless pk) {ts : List Tok} {lexed : List (TokType × Str)}
    (h : convertText env.ucd lexed = .ok ts) : ∃ s t, reprRes env c bd pk (pk.dump ts) = .ok s t := by
  have hall : EverywhereList (NonEngNonempty env.ucd) (ts ++ [.specialToken Ph.ect]) := by
    refine everywhereList_of fun t ht => ?_
    rcases List.mem_append.mp ht with ht | ht
    · exact (C25_shape env.ucd hu lexed ts h t ht).2.1
    · rw [List.mem_singleton.mp ht]
      simp [Everywhere, NonEngNonempty]
  obtain ⟨r, hr⟩ := C17_valid_config_total env hu c hv _ hall bd hb
  unfold reprRes
  rw [hp ts]
  simp only [hr]
  exact ⟨_, _, rfl⟩

theorem files_fine {env : Env} (hu : env.ucd.Laws) {L : Lexers} {c : PrepConfig} (hv : c.Valid) {bd : Option BpeData}
    (hb : c.isBpe = true → ∃ d, bd = some d ∧ Verif.CacheOk d) {pk : Pickler} (hp : Lossless pk) {read : Bytes → Option Bytes} {top : Bytes}
    {files : List Bytes} (hg : GoodFiles files) (hall : ∀ f ∈ files, Processable read (joinPath top f)) (s1 s2 : Setup) {n : Nat} :
    (∀ j ∈ parseAll env.ucd L pk read top files, Fine s1 j) ∧
    ∀ w1, Reachable s1 (parseAll env.ucd L pk read top files) n w1 → w1.ready = true → ∀ j ∈ reprAll env c bd pk w1.disk files, Fine s2 j := by
  have key : ∀ f ∈ files, ∃ ts lexed, convertText env.ucd lexed = .ok ts ∧
      parseRes env.ucd L pk read (joinPath top (iterName [] f)) = .ok (pk.dump ts) [] := by
    intro f hf
    rw [show iterName [] f = f from List.append_nil f]
    exact parse_total hu (hall f hf)
  constructor
  · intro j hj
    obtain ⟨f, hf, rfl⟩ := List.mem_map.mp hj
    obtain ⟨ts, lexed, -, h⟩ := key f hf
    unfold Fine
    change parseRes env.ucd L pk read (joinPath top (iterName [] f)) ≠ _ ∧ (_ → parseRes env.ucd L pk read (joinPath top (iterName [] f)) ≠ _)
    rw [h]
    exact ⟨(fun e => by cases e), fun _ e => by cases e⟩
  · intro w1 h1 hr1 j hj
    obtain ⟨f, hf, rfl⟩ := List.mem_map.mp hj
    have hm : ∀ f ∈ files, parseRes env.ucd L pk read (joinPath top (iterName [] f)) ≠ .missing := by
      intro f hf e
      obtain ⟨ts, lexed, -, h⟩ := key f hf
      rw [h] at e
      cases e
    obtain ⟨s, t, e1, e2⟩ := C33_pipeline hg _ h1 hr1 hm (reprRes env c bd pk) f hf
    obtain ⟨ts, lexed, hts, h⟩ := key f hf
    rw [h] at e1
    cases e1
    obtain ⟨s, t, e3⟩ := repr_total hu hv hb hp hts
    unfold Fine
    change fromParsed (reprRes env c bd pk) w1.disk (iterName parsedExt f) ≠ _ ∧
      (_ → fromParsed (reprRes env c bd pk) w1.disk (iterName parsedExt f) ≠ _)
    rw [e2, e3]
    exact ⟨(fun e => by cases e), fun _ e => by cases e⟩

end Whole

/-- **C74** If every file that is listed can be read and has an extension in UTF-8, then, whatever has happened before, both stages can come to
their ends, and do so unless the program is killed again and again.  If there is another file in the list, they never do. -/
theorem C74_finishes (env : Env) (hu : env.ucd.Laws) (L : Lexers) (call : ApiCall) (c : PrepConfig) (hc : corpusConfig call = .ok c)
    (bd : Option BpeData) (hb : c.isBpe = true → ∃ d, bd = some d ∧ Verif.CacheOk d) (pk : Pickler) (hp : Lossless pk)
    (read : Bytes → Option Bytes) (top : Bytes) (fs : Links) (links : Nat) (es : Entries) (hw : WellNamed fs es) (exts : Option (List Str))
    (n m : Nat) (hn : 0 < n) (hm : 0 < m) (s1 s2 : Setup) (hs2 : s2.stage = .repr) :
    ((∀ f ∈ listing fs links es exts, Processable read (joinPath top f)) →
      (∀ w, Reachable s1 (parseAll env.ucd L pk read top (listing fs links es exts)) n w →
        (∃ w', Star (Calm s1 (parseAll env.ucd L pk read top (listing fs links es exts)) n) w w' ∧ w'.ready = true) ∧
        ¬ ∃ g : Nat → Pool.World, g 0 = w ∧ ∀ k, Calm s1 (parseAll env.ucd L pk read top (listing fs links es exts)) n (g k) (g (k + 1))) ∧
      ∀ w1, Reachable s1 (parseAll env.ucd L pk read top (listing fs links es exts)) n w1 → w1.ready = true →
        ∀ w, Reachable s2 (reprAll env c bd pk w1.disk (listing fs links es exts)) m w →
          (∃ w', Star (Calm s2 (reprAll env c bd pk w1.disk (listing fs links es exts)) m) w w' ∧ w'.ready = true) ∧
          ¬ ∃ g : Nat → Pool.World, g 0 = w ∧ ∀ k, Calm s2 (reprAll env c bd pk w1.disk (listing fs links es exts)) m (g k) (g (k + 1))) ∧
    (∀ f ∈ listing fs links es exts, ¬ Processable read (joinPath top f) →
      ∀ w1 w2, Reachable s1 (parseAll env.ucd L pk read top (listing fs links es exts)) n w1 → w1.ready = true →
        Reachable s2 (reprAll env c bd pk w1.disk (listing fs links es exts)) m w2 → w2.ready = false) := by
  have hg : GoodFiles (listing fs links es exts) := C71_results fs links es hw exts
  refine ⟨fun hall => ⟨fun w h => ?_, fun w1 h1 hr1 w h => ?_⟩, fun f hf hno w1 w2 h1 hr1 h2 => ?_⟩
  · obtain ⟨a, -, b⟩ := C33_progress hn (parseJobs_good _ hg) (files_fine hu (L := L) (corpus_valid hc) hb hp hg hall s1 s2 (n := n)).1 h
    exact ⟨a, b⟩
  · obtain ⟨a, -, b⟩ := C33_progress hm (reprJobs_good _ _ hg)
      ((files_fine hu (L := L) (corpus_valid hc) hb hp hg hall s1 s2 (n := n)).2 w1 h1 hr1) h
    exact ⟨a, b⟩
  · cases hr2 : w2.ready with
    | false => rfl
    | true =>
      obtain ⟨dirs, name, hfound⟩ := hg.2 f hf
      obtain ⟨b, out, hb', ⟨x, ts, md, hx, -, -⟩, -⟩ := file_done hp hg hs2 h1 hr1 h2 hr2 hf hfound
      exact absurd ⟨b, x, hb', hx⟩ hno

namespace Whole

theorem fileTokens_unique {env : Env} {L : Lexers} {c : PrepConfig} {bd : Option BpeData} {f : Bytes × Bytes} {a b : List Str}
    (ha : FileTokens env L c bd f a) (hb : FileTokens env L c bd f b) : a = b := by
  obtain ⟨x, ts, m, h1, h2, h3⟩ := ha
  obtain ⟨y, us, m', g1, g2, g3⟩ := hb
  have e := (extension_is h1).symm.trans (extension_is g1)
  cases e
  rw [h2] at g2
  cases g2
  rw [h3] at g3
  cases g3
  rfl

theorem prepPath_found {dirs : List Bytes} {name f : Bytes} (h : FoundAt dirs name f) :
    normRel (iterName prepExt f) = joinSlash (dirs ++ [name]) ++ prepExt := by
  unfold iterName
  rw [normRel_found h (by decide) (ext_no_dot h.2.1.1.1 (by decide)), join_suffix]

end Whole

/-- **C74** The vocabulary of the results, calculated with any number of processes and loaded, has exactly the tokens of the files of the
directory, with the number of times they occur in them; and the size of the corpus is the number of tokens. -/
theorem C74_vocab (env : Env) (hu : env.ucd.Laws) (hk : KeepsSolid env) (L : Lexers) (call : ApiCall) (c : PrepConfig)
    (hc : corpusConfig call = .ok c) (load : Str → Except PyErr BpeData) (bd : Option BpeData) (hbd : SameCodes c load (apiBpeCodesId call) bd)
    (hb : c.isBpe = bd.isSome) (hsolid : ∀ d, bd = some d → SolidCache d) (pk : Pickler) (hp : Lossless pk)
    (read : Bytes → Option Bytes) (top : Bytes) (fs : Links) (links : Nat) (es : Entries) (hw : WellNamed fs es) (exts : Option (List Str))
    (h0 : listing fs links es exts ≠ []) (hl : ∀ f ∈ listing fs links es exts, ∀ b, read (joinPath top f) = some b → LexedSolid L (joinPath top f, b))
    (n m : Nat) (save fresh fresh' : Bool) (w1 w2 : Pool.World)
    (h1 : Reachable ⟨.parse, false, fresh⟩ (parseAll env.ucd L pk read top (listing fs links es exts)) n w1) (hr1 : w1.ready = true)
    (h2 : Reachable ⟨.repr, save, fresh'⟩ (reprAll env c bd pk w1.disk (listing fs links es exts)) m w2) (hr2 : w2.ready = true)
    (chunks : Nat) (hchunks : 0 < chunks) (dir : DumpDir) (hdir : readyName ∉ dir.map (·.1)) :
    ∃ shownOf : Bytes → List Str,
      (∀ f ∈ listing fs links es exts, ∃ b toks, read (joinPath top f) = some b ∧ TokensOfFile env load L call (joinPath top f) b toks ∧
        UpToNewline c toks (shownOf f)) ∧
      ∃ texts, resultTexts w2.disk (listing fs links es exts) = texts.map some ∧
        (∃ parts, partialCounts texts = .ok parts ∧
          ∀ dk, Star (Verif.WStep parts chunks) (World.first dir) ⟨dk, .returned⟩ →
            ∃ text, dk.vocab = some text ∧ ∃ v : Dict Str Int, loadVocabDict text = .ok v ∧ v.WF ∧
              (∀ w, w ∈ v.keys ↔ ∃ f ∈ listing fs links es exts, w ∈ shownOf f) ∧
              ∀ w k, v.get? w = some k → k = ((((listing fs links es exts).map fun f => (shownOf f).count w).sum : Nat) : Int)) ∧
        calcCorpusSize texts = ((listing fs links es exts).map fun f => (shownOf f).length).sum := by
  have hg : GoodFiles (listing fs links es exts) := C71_results fs links es hw exts
  generalize listing fs links es exts = files at hg h0 hl h1 h2 ⊢
  have hall : ∀ f, ∃ q : Bytes × List Str, f ∈ files → read (joinPath top f) = some q.1 ∧ FileTokens env L c bd (joinPath top f, q.1) q.2 ∧
      (w2.disk.dir (.out (normRel (iterName prepExt f)))).map w2.disk.data = some (prepText q.2) := by
    intro f
    by_cases hf : f ∈ files
    · obtain ⟨dirs, name, hfound⟩ := hg.2 f hf
      obtain ⟨b, out, e1, e2, i, e3, e4⟩ := file_done hp hg rfl h1 hr1 h2 hr2 hf hfound
      refine ⟨(b, out), fun _ => ⟨e1, e2, ?_⟩⟩
      rw [prepPath_found hfound, e3, Option.map_some, e4]
    · exact ⟨([], []), fun h => absurd h hf⟩
  obtain ⟨q, hq⟩ := Classical.axiomOfChoice hall
  let pair : Bytes → Bytes × Bytes := fun f => (joinPath top f, (q f).1)
  have hpair : ∀ p : Bytes × Bytes, ∃ toks, p ∈ files.map pair → FileTokens env L c bd p toks := by
    intro p
    by_cases h : p ∈ files.map pair
    · obtain ⟨f, hf, rfl⟩ := List.mem_map.mp h
      exact ⟨(q f).2, fun _ => (hq f hf).2.1⟩
    · exact ⟨[], fun h' => absurd h' h⟩
  obtain ⟨toks, htoks⟩ := Classical.axiomOfChoice hpair
  have hsame : ∀ f ∈ files, toks (pair f) = (q f).2 := fun f hf =>
    fileTokens_unique (htoks _ (List.mem_map_of_mem hf)) (hq f hf).2.1
  refine ⟨fun f => (q f).2, fun f hf => ?_, files.map fun f => prepText (q f).2, ?_, ?_⟩
  · obtain ⟨t, ht, hup⟩ := tokens_text hc hbd (hq f hf).2.1
    exact ⟨_, t, (hq f hf).1, ht, hup⟩
  · unfold resultTexts
    rw [List.map_map]
    exact List.map_congr_left fun f hf => (hq f hf).2.2
  · have hsolids : ∀ p ∈ files.map pair, LexedSolid L p := by
      intro p hp'
      obtain ⟨f, hf, rfl⟩ := List.mem_map.mp hp'
      exact hl f hf _ (hq f hf).1
    have := C67_vocab env hu hk L c (corpus_valid hc) bd hb hsolid (files.map pair) (by simpa using h0) hsolids toks htoks chunks hchunks dir hdir
    have e1 : ((files.map pair).map fun f => prepText (toks f)) = files.map fun f => prepText (q f).2 := by
      rw [List.map_map]
      exact List.map_congr_left fun f hf => by rw [Function.comp, hsame f hf]
    have e2 : ((files.map pair).map fun f => (toks f).length) = files.map fun f => (q f).2.length := by
      rw [List.map_map]
      exact List.map_congr_left fun f hf => by rw [Function.comp, hsame f hf]
    have e3 : ∀ w, ((files.map pair).map fun f => (toks f).count w) = files.map fun f => (q f).2.count w := by
      intro w
      rw [List.map_map]
      exact List.map_congr_left fun f hf => by rw [Function.comp, hsame f hf]
    rw [e1, e2] at this
    obtain ⟨⟨parts, hparts, hend⟩, hsize⟩ := this
    refine ⟨⟨parts, hparts, fun dk hdk => ?_⟩, hsize⟩
    obtain ⟨text, g1, v, g2, g3, g4, g5⟩ := hend dk hdk
    refine ⟨text, g1, v, g2, g3, fun w => (g4 w).trans ⟨?_, ?_⟩, fun w k hk' => ?_⟩
    · rintro ⟨p, hp', hw'⟩
      obtain ⟨f, hf, rfl⟩ := List.mem_map.mp hp'
      rw [hsame f hf] at hw'
      exact ⟨f, hf, hw'⟩
    · rintro ⟨f, hf, hw'⟩
      exact ⟨pair f, List.mem_map_of_mem hf, by rw [hsame f hf]; exact hw'⟩
    · rw [g5 w k hk', e3]

/-- **C74** A dataset that is a single file: its result is called like the file, without its directory, with `.prep` at the end. -/
theorem C74_single (env : Env) (L : Lexers) (call : ApiCall) (c : PrepConfig) (hc : corpusConfig call = .ok c)
    (load : Str → Except PyErr BpeData) (bd : Option BpeData) (hbd : SameCodes c load (apiBpeCodesId call) bd) (pk : Pickler) (hp : Lossless pk)
    (read : Bytes → Option Bytes) (dir name : Bytes) (hd : dir = [] ∨ dir.getLast? = some 47) (hname : CleanName name)
    (n m : Nat) (save fresh fresh' : Bool) (w1 w2 : Pool.World)
    (h1 : Reachable ⟨.parse, false, fresh⟩ (parseSingle env.ucd L pk read (dir ++ name)) n w1)
    (h2 : Reachable ⟨.repr, save, fresh'⟩ (reprAll env c bd pk w1.disk [lastPart (dir ++ name)]) m w2) (hr2 : w2.ready = true) :
    (∃ b toks out, read (dir ++ name) = some b ∧ TokensOfFile env load L call (dir ++ name) b toks ∧ UpToNewline c toks out ∧
      w2.disk.Has (.out (name ++ utf8 ".prep".toList)) (prepText out)) ∧
    ∀ p, w2.disk.dir (.out p) ≠ none → p = name ++ utf8 ".prep".toList := by
  have hlast : lastPart (dir ++ name) = name := lastPart_append dir name hd hname.1.2
  have he : prepExt = utf8 ".prep".toList := by rw [utf8_eq]; rfl
  rw [← he]
  have hrel : normRel (iterName parsedExt name) = name ++ parsedExt := by
    have h47 : 47 ∉ name ++ parsedExt := by
      intro h
      rcases List.mem_append.mp h with h | h
      · exact hname.1.2 h
      · exact absurd h (by decide)
    unfold normRel iterName
    rw [splitSlash_no h47]
    have h1 : name ++ parsedExt ≠ [] := fun h => hname.1.1 (List.append_eq_nil_iff.mp h).1
    have h2 : name ++ parsedExt ≠ [46] := ext_no_dot hname.1.1 (by decide)
    simp [h1, h2, joinSlash]
  have hnew : newName parsedExt prepExt (iterName parsedExt name) = name ++ prepExt := by
    unfold newName
    simp only
    rw [if_pos (by decide), hrel, List.length_append, Nat.add_sub_cancel, List.take_left]
  unfold parseSingle at h1
  unfold reprAll reprJobs at h2
  rw [hlast] at h1 h2
  simp only [List.map_cons, List.map_nil] at h2
  rw [hnew] at h2
  have hg1 : GoodJobs [⟨name ++ parsedExt, parseRes env.ucd L pk read (dir ++ name)⟩] :=
    ⟨by simp, fun j hj => by rw [List.mem_singleton.mp hj]; exact not_part.1⟩
  have hg2 : GoodJobs [⟨name ++ prepExt, fromParsed (reprRes env c bd pk) w1.disk (iterName parsedExt name)⟩] :=
    ⟨by simp, fun j hj => by rw [List.mem_singleton.mp hj]; exact not_part.2⟩
  constructor
  · rcases C33_ready hg2 h2 hr2 _ (List.mem_singleton.mpr rfl) with ⟨s, t, e3, e4⟩ | ⟨-, e3, -⟩
    · unfold fromParsed at e3
      rw [hrel] at e3
      cases hdsk : w1.disk.dir (.out (name ++ parsedExt)) with
      | none => simp only [hdsk] at e3; cases e3
      | some i =>
        simp only [hdsk] at e3
        obtain ⟨t', e5⟩ := C33_complete hg1 h1 _ (List.mem_singleton.mpr rfl) _ ⟨i, hdsk, rfl⟩
        obtain ⟨b, x, ts, hb, hx, hts, e6⟩ := parseRes_ok e5
        rw [e6] at e3
        obtain ⟨r, hr, rfl, rfl⟩ := reprRes_ok hp e3
        obtain ⟨toks, ht, hup⟩ := tokens_text hc hbd (src := dir ++ name) (b := b) ⟨x, ts, r.2, hx, hts, hr⟩
        exact ⟨b, toks, r.1, hb, ht, hup, e4⟩
    · cases e3
  · intro p hpath
    obtain ⟨j, hj, rfl⟩ := (C33_only hg2 h2).2 rfl hr2 p hpath
    rw [List.mem_singleton.mp hj]

/-! ## An example -/

namespace Whole

/-- Texts, numbers and tokens as texts, after which the rest can be told. -/
def encStr : Str → Str
  | [] => ['.']
  | c :: r => 'x' :: c :: encStr r

def encNat : Nat → Str
  | 0 => ['.']
  | n + 1 => 'x' :: encNat n

def encCap : Cap → Char
  | .undefined => 'a'
  | .firstLetter => 'b'
  | .all => 'c'
  | .none => 'd'

def encSub : Subtok → Str
  | .underscore => ['a']
  | .word s c => 'b' :: encCap c :: encStr s

def encSubs : List Subtok → Str
  | [] => ['.']
  | t :: r => 'x' :: (encSub t ++ encSubs r)

mutual
def encTok : Tok → Str
  | .number s => 'a' :: encStr s
  | .one => ['b']
  | .zero => ['c']
  | .newLine => ['d']
  | .tab => ['e']
  | .spaceInString n => 'f' :: encNat n
  | .keyWord s => 'g' :: encStr s
  | .operator s => 'h' :: encStr s
  | .semicolon => ['i']
  | .openingCurly => ['j']
  | .closingCurly => ['k']
  | .openingBracket => ['l']
  | .closingBracket => ['m']
  | .nonCodeChar s => 'n' :: encStr s
  | .specialToken s => 'o' :: encStr s
  | .split l => 'p' :: encSubs l
  | .nonEng l => 'q' :: encSubs l
  | .oneLineComment l => 'r' :: encToks l
  | .multilineComment l => 's' :: encToks l
  | .stringLiteral l n => 't' :: (encNat n ++ encToks l)
def encToks : List Tok → Str
  | [] => ['.']
  | t :: r => 'x' :: (encTok t ++ encToks r)
end

theorem encStr_inj : ∀ {s t r r' : Str}, encStr s ++ r = encStr t ++ r' → s = t ∧ r = r'
  | [], [], _, _, h => ⟨rfl, by simpa [encStr] using h⟩
  | [], _ :: _, _, _, h => by simp [encStr] at h
  | _ :: _, [], _, _, h => by simp [encStr] at h
  | a :: s, b :: t, _, _, h => by
    simp only [encStr, List.cons_append, List.cons.injEq, true_and] at h
    obtain ⟨h1, h2⟩ := encStr_inj h.2
    exact ⟨by rw [h.1, h1], h2⟩

theorem encNat_inj : ∀ {s t : Nat} {r r' : Str}, encNat s ++ r = encNat t ++ r' → s = t ∧ r = r'
  | 0, 0, _, _, h => ⟨rfl, by simpa [encNat] using h⟩
  | 0, _ + 1, _, _, h => by simp [encNat] at h
  | _ + 1, 0, _, _, h => by simp [encNat] at h
  | s + 1, t + 1, _, _, h => by
    simp only [encNat, List.cons_append, List.cons.injEq, true_and] at h
    obtain ⟨h1, h2⟩ := encNat_inj h
    exact ⟨by rw [h1], h2⟩

theorem encCap_inj {a b : Cap} (h : encCap a = encCap b) : a = b := by
  cases a <;> cases b <;> first | rfl | exact absurd h (by decide)

theorem encSub_inj {s t : Subtok} {r r' : Str} (h : encSub s ++ r = encSub t ++ r') : s = t ∧ r = r' := by
  cases s <;> cases t <;> simp only [encSub, List.cons_append, List.cons.injEq, List.nil_append] at h
  · exact ⟨rfl, h.2⟩
  · exact absurd h.1 (by decide)
  · exact absurd h.1 (by decide)
  · obtain ⟨h1, h2⟩ := encStr_inj h.2.2
    exact ⟨by rw [h1, encCap_inj h.2.1], h2⟩

theorem encSubs_inj : ∀ {s t : List Subtok} {r r' : Str}, encSubs s ++ r = encSubs t ++ r' → s = t ∧ r = r'
  | [], [], _, _, h => ⟨rfl, by simpa [encSubs] using h⟩
  | [], _ :: _, _, _, h => by simp [encSubs] at h
  | _ :: _, [], _, _, h => by simp [encSubs] at h
  | a :: s, b :: t, _, _, h => by
    simp only [encSubs, List.cons_append, List.cons.injEq, true_and, List.append_assoc] at h
    obtain ⟨h1, h2⟩ := encSub_inj h
    obtain ⟨h3, h4⟩ := encSubs_inj h2
    exact ⟨by rw [h1, h3], h4⟩

mutual
theorem encTok_inj : ∀ (t t' : Tok) (r r' : Str), encTok t ++ r = encTok t' ++ r' → t = t' ∧ r = r'
  | .number s, t', r, r', h => by
    cases t' <;> simp [encTok] at h
    obtain ⟨h1, h2⟩ := encStr_inj h; exact ⟨by rw [h1], h2⟩
  | .keyWord s, t', r, r', h => by
    cases t' <;> simp [encTok] at h
    obtain ⟨h1, h2⟩ := encStr_inj h; exact ⟨by rw [h1], h2⟩
  | .operator s, t', r, r', h => by
    cases t' <;> simp [encTok] at h
    obtain ⟨h1, h2⟩ := encStr_inj h; exact ⟨by rw [h1], h2⟩
  | .nonCodeChar s, t', r, r', h => by
    cases t' <;> simp [encTok] at h
    obtain ⟨h1, h2⟩ := encStr_inj h; exact ⟨by rw [h1], h2⟩
  | .specialToken s, t', r, r', h => by
    cases t' <;> simp [encTok] at h
    obtain ⟨h1, h2⟩ := encStr_inj h; exact ⟨by rw [h1], h2⟩
  | .spaceInString s, t', r, r', h => by
    cases t' <;> simp [encTok] at h
    obtain ⟨h1, h2⟩ := encNat_inj h; exact ⟨by rw [h1], h2⟩
  | .one, t', r, r', h => by cases t' <;> simp [encTok] at h; exact ⟨rfl, h⟩
  | .zero, t', r, r', h => by cases t' <;> simp [encTok] at h; exact ⟨rfl, h⟩
  | .newLine, t', r, r', h => by cases t' <;> simp [encTok] at h; exact ⟨rfl, h⟩
  | .tab, t', r, r', h => by cases t' <;> simp [encTok] at h; exact ⟨rfl, h⟩
  | .semicolon, t', r, r', h => by cases t' <;> simp [encTok] at h; exact ⟨rfl, h⟩
  | .openingCurly, t', r, r', h => by cases t' <;> simp [encTok] at h; exact ⟨rfl, h⟩
  | .closingCurly, t', r, r', h => by cases t' <;> simp [encTok] at h; exact ⟨rfl, h⟩
  | .openingBracket, t', r, r', h => by cases t' <;> simp [encTok] at h; exact ⟨rfl, h⟩
  | .closingBracket, t', r, r', h => by cases t' <;> simp [encTok] at h; exact ⟨rfl, h⟩
  | .split l, t', r, r', h => by
    cases t' <;> simp [encTok] at h
    obtain ⟨h1, h2⟩ := encSubs_inj h; exact ⟨by rw [h1], h2⟩
  | .nonEng l, t', r, r', h => by
    cases t' <;> simp [encTok] at h
    obtain ⟨h1, h2⟩ := encSubs_inj h; exact ⟨by rw [h1], h2⟩
  | .oneLineComment l, t', r, r', h => by
    cases t' <;> simp [encTok] at h
    obtain ⟨h1, h2⟩ := encToks_inj _ _ _ _ h; exact ⟨by rw [h1], h2⟩
  | .multilineComment l, t', r, r', h => by
    cases t' <;> simp [encTok] at h
    obtain ⟨h1, h2⟩ := encToks_inj _ _ _ _ h; exact ⟨by rw [h1], h2⟩
  | .stringLiteral l n, t', r, r', h => by
    cases t' <;> simp [encTok] at h
    obtain ⟨h1, h2⟩ := encNat_inj h
    obtain ⟨h3, h4⟩ := encToks_inj _ _ _ _ h2; exact ⟨by rw [h1, h3], h4⟩
theorem encToks_inj : ∀ (s t : List Tok) (r r' : Str), encToks s ++ r = encToks t ++ r' → s = t ∧ r = r'
  | [], [], _, _, h => ⟨rfl, by simpa [encToks] using h⟩
  | [], _ :: _, _, _, h => by simp [encToks] at h
  | _ :: _, [], _, _, h => by simp [encToks] at h
  | a :: s, b :: t, _, _, h => by
    simp only [encToks, List.cons_append, List.cons.injEq, true_and, List.append_assoc] at h
    obtain ⟨h1, h2⟩ := encTok_inj _ _ _ _ h
    obtain ⟨h3, h4⟩ := encToks_inj _ _ _ _ h2
    exact ⟨by rw [h1, h3], h4⟩
end

/-- There are picklers that lose nothing. -/
theorem lossless_exists : ∃ pk : Pickler, Lossless pk := by
  open Classical in
  refine ⟨⟨encToks, fun s => if h : ∃ ts, encToks ts = s then some (choose h) else none⟩, fun ts => ?_⟩
  have h : ∃ ts', encToks ts' = encToks ts := ⟨ts, rfl⟩
  simp only [dif_pos h]
  exact congrArg some (encToks_inj _ _ [] [] (by rw [choose_spec h])).1

/-- Two files, `a.py` and `d/b.py`. -/
def twoEntries : Entries := .cons [97, 46, 112, 121] (.file 1) (.cons [100] (.dir 2 (.cons [98, 46, 112, 121] (.file 3) .nil)) .nil)

/-- What is in the files, if the directory is called `t`. -/
def twoRead : Bytes → Option Bytes := fun p =>
  if p = [116, 47, 46, 47, 97, 46, 112, 121] then some [97, 98, 10]
  else if p = [116, 47, 100, 47, 98, 46, 112, 121] then some [99, 100, 13, 10]
  else none

theorem two_named : WellNamed (fun _ => none) twoEntries := by
  intro path k last h
  have key : ∀ es, DirAt (fun _ => none) es path k last →
      (es = twoEntries ∨ es = .cons [98, 46, 112, 121] (.file 3) .nil) → last = twoEntries ∨ last = .cons [98, 46, 112, 121] (.file 3) .nil := by
    clear h
    intro es h
    induction h with
    | here => exact id
    | down hm h ih =>
      rintro (e | e)
      · subst e
        simp [twoEntries, Entries.toList] at hm
        obtain ⟨-, -, rfl⟩ := hm
        exact ih (.inr rfl)
      · subst e
        simp [Entries.toList] at hm
    | through hm hi _ _ => cases hi
  rcases key _ h (.inl rfl) with rfl | rfl
  · simp [twoEntries, Entries.toList, PlainName]
  · simp [Entries.toList, PlainName]

theorem two_listed : listing (fun _ => none) 3 twoEntries none = [[46, 47, 97, 46, 112, 121], [100, 47, 98, 46, 112, 121]] := by
  decide +kernel

theorem two_processable : ∀ f ∈ listing (fun _ => none) 3 twoEntries none, Processable twoRead (joinPath [116] f) := by
  rw [two_listed]
  intro f hf
  rcases List.mem_cons.mp hf with rfl | hf
  · exact ⟨[97, 98, 10], "py".toList, by decide, extension_of (by decide +kernel)⟩
  · rcases List.mem_singleton.mp hf with rfl
    exact ⟨[99, 100, 13, 10], "py".toList, by decide, extension_of (by decide +kernel)⟩

/-- `nosplit` without tabs and line breaks. -/
def twoCall : ApiCall := .nosplit { noSpaces := true } false

def twoConfig : PrepConfig := ⟨['u'], ['c'], ['1'], ['0'], ['0'], ['u']⟩

theorem two_config : corpusConfig twoCall = .ok twoConfig := by decide +kernel

theorem two_codes (load : Str → Except PyErr BpeData) : SameCodes twoConfig load (apiBpeCodesId twoCall) none := fun h => absurd h (by decide)

end Whole

/-- Both stages come to their ends, and then the result of `d/b.py` is there, and what the theorems say is not empty. -/
example : ∃ pk w1 w2, Lossless pk ∧
    Reachable ⟨.parse, false, true⟩ (parseAll demoEnv.ucd demoLexers pk twoRead [116] (listing (fun _ => none) 3 twoEntries none)) 2 w1 ∧
    w1.ready = true ∧
    Reachable ⟨.repr, false, true⟩ (reprAll demoEnv twoConfig none pk w1.disk (listing (fun _ => none) 3 twoEntries none)) 3 w2 ∧
    w2.ready = true ∧
    w2.disk.Has (.out (List.intercalate [47] [[100], [98, 46, 112, 121]] ++ utf8 ".prep".toList)) "cd <EOF>\n".toList := by
  obtain ⟨pk, hp⟩ := lossless_exists
  have hfin := (C74_finishes demoEnv asciiUcd_laws demoLexers twoCall twoConfig two_config none (fun h => absurd h (by decide)) pk hp twoRead
    [116] (fun _ => none) 3 twoEntries two_named none 2 3 (by decide) (by decide) ⟨.parse, false, true⟩ ⟨.repr, false, true⟩ rfl).1 two_processable
  obtain ⟨⟨w1, g1, r1⟩, -⟩ := hfin.1 Pool.World.init .refl
  have h1 : Reachable _ _ _ w1 := calm_star g1
  obtain ⟨⟨w2, g2, r2⟩, -⟩ := hfin.2 w1 h1 r1 Pool.World.init .refl
  have h2 : Reachable _ _ _ w2 := calm_star g2
  refine ⟨pk, w1, w2, hp, h1, r1, h2, r2, ?_⟩
  obtain ⟨b, toks, out, hb, ⟨x, text, md, hx, ht, hapi⟩, hup, hhas⟩ := (C74_results demoEnv demoLexers twoCall twoConfig two_config
    (fun _ => .error .keyError) none (two_codes _) pk hp twoRead [116] (fun _ => none) 3 twoEntries two_named none 2 3 false true true w1 w2
    h1 r1 h2 r2).1 [[100], [98, 46, 112, 121]] 0 3
    ⟨[[100]], [98, 46, 112, 121], .cons [98, 46, 112, 121] (.file 3) .nil, rfl,
      .down (t := 2) (sub := .cons [98, 46, 112, 121] (.file 3) .nil) (by simp [twoEntries, Entries.toList]) (.here _), by simp [Entries.toList]⟩
    (by decide) ⟨rfl, .inl rfl⟩
  have e1 : twoRead (joinPath [116] (shown [[100], [98, 46, 112, 121]])) = some [99, 100, 13, 10] := by decide
  cases e1.symm.trans hb
  have e2 : extensionOf (joinPath [116] (shown [[100], [98, 46, 112, 121]])) = .ok "py".toList := by decide +kernel
  cases e2.symm.trans (extension_is hx)
  rw [← (C66_text _ _).mp ht] at hapi
  have e3 : (textApi demoEnv (fun _ => .error .keyError) twoCall (lexText demoLexers (parsedText [99, 100, 13, 10]) (some "py".toList)) true).toOption.map
      (·.1) = some ["cd".toList, "<EOF>".toList] := by decide +kernel
  rw [hapi] at e3
  have e4 : toks = ["cd".toList, "<EOF>".toList] := Option.some.inj e3
  rcases hup with rfl | ⟨h, -⟩
  · rw [e4] at hhas
    have e5 : prepText ["cd".toList, "<EOF>".toList] = "cd <EOF>\n".toList := by decide +kernel
    rw [e5] at hhas
    exact hhas
  · exact absurd rfl h

/-- The files meet the hypotheses of the theorem about the vocabulary. -/
example : KeepsSolid demoEnv ∧ twoConfig.isBpe = (none : Option BpeData).isSome ∧ listing (fun _ => none) 3 twoEntries none ≠ [] ∧
    ∀ f ∈ listing (fun _ => none) 3 twoEntries none, ∀ b, twoRead (joinPath [116] f) = some b → LexedSolid demoLexers (joinPath [116] f, b) := by
  refine ⟨demoEnv_keepsSolid, rfl, by rw [two_listed]; simp, ?_⟩
  rw [two_listed]
  intro f hf b hb x hx
  have hx := extension_is hx
  rcases List.mem_cons.mp hf with rfl | hf
  · have e1 : twoRead (joinPath [116] [46, 47, 97, 46, 112, 121]) = some [97, 98, 10] := by decide
    cases e1.symm.trans hb
    have e2 : extensionOf (joinPath [116] [46, 47, 97, 46, 112, 121]) = .ok "py".toList := by decide +kernel
    cases e2.symm.trans hx
    unfold SolidNumber; decide +kernel
  · rcases List.mem_singleton.mp hf with rfl
    have e1 : twoRead (joinPath [116] [100, 47, 98, 46, 112, 121]) = some [99, 100, 13, 10] := by decide
    cases e1.symm.trans hb
    have e2 : extensionOf (joinPath [116] [100, 47, 98, 46, 112, 121]) = .ok "py".toList := by decide +kernel
    cases e2.symm.trans hx
    unfold SolidNumber; decide +kernel

/-- A single file: both stages come to their ends. -/
example : ∃ pk w1 w2, Lossless pk ∧
    Reachable ⟨.parse, false, true⟩ (parseSingle demoEnv.ucd demoLexers pk twoRead ([116, 47, 100, 47] ++ [98, 46, 112, 121])) 1 w1 ∧
    w1.ready = true ∧
    Reachable ⟨.repr, false, true⟩ (reprAll demoEnv twoConfig none pk w1.disk [lastPart ([116, 47, 100, 47] ++ [98, 46, 112, 121])]) 1 w2 ∧
    w2.ready = true := by
  obtain ⟨pk, hp⟩ := lossless_exists
  obtain ⟨ts, lexed, hts, h⟩ := parse_total (L := demoLexers) (pk := pk) asciiUcd_laws
    (two_processable [100, 47, 98, 46, 112, 121] (by rw [two_listed]; simp))
  have h : parseRes demoEnv.ucd demoLexers pk twoRead ([116, 47, 100, 47] ++ [98, 46, 112, 121]) = .ok (pk.dump ts) [] := h
  have e : parseSingle demoEnv.ucd demoLexers pk twoRead ([116, 47, 100, 47] ++ [98, 46, 112, 121]) =
      [⟨[98, 46, 112, 121] ++ parsedExt, .ok (pk.dump ts) []⟩] := by
    unfold parseSingle
    rw [h]
    rfl
  have hg1 : GoodJobs [⟨[98, 46, 112, 121] ++ parsedExt, .ok (pk.dump ts) []⟩] :=
    ⟨by simp, fun j hj => by rw [List.mem_singleton.mp hj]; exact not_part.1⟩
  obtain ⟨⟨w1, g1, r1⟩, -⟩ := C33_progress (c := ⟨.parse, false, true⟩) (n := 1) (by decide) hg1
    (fun j hj => by rw [List.mem_singleton.mp hj]; exact ⟨(fun e => by cases e), fun _ e => by cases e⟩) .refl
  have h1 : Reachable _ _ _ w1 := calm_star g1
  obtain ⟨s, t, hr⟩ := repr_total (env := demoEnv) asciiUcd_laws (corpus_valid two_config) (bd := none) (fun h => absurd h (by decide)) hp hts
  have hd : fromParsed (reprRes demoEnv twoConfig none pk) w1.disk (iterName parsedExt [98, 46, 112, 121]) = .ok s t := by
    rcases C33_ready hg1 h1 r1 _ (List.mem_singleton.mpr rfl) with ⟨s', t', e1, i, e2, e3⟩ | ⟨e1, -⟩
    · cases e1
      unfold fromParsed
      rw [show normRel (iterName parsedExt [98, 46, 112, 121]) = [98, 46, 112, 121] ++ parsedExt by decide]
      simp only [e2]
      rw [e3, hr]
    · cases e1
  have hg2 : GoodJobs [⟨[98, 46, 112, 121] ++ prepExt, .ok s t⟩] :=
    ⟨by simp, fun j hj => by rw [List.mem_singleton.mp hj]; exact not_part.2⟩
  obtain ⟨⟨w2, g2, r2⟩, -⟩ := C33_progress (c := ⟨.repr, false, true⟩) (n := 1) (by decide) hg2
    (fun j hj => by rw [List.mem_singleton.mp hj]; exact ⟨(fun e => by cases e), fun _ e => by cases e⟩) .refl
  refine ⟨pk, w1, w2, hp, by rw [e]; exact h1, r1, ?_, r2⟩
  have e' : reprAll demoEnv twoConfig none pk w1.disk [lastPart ([116, 47, 100, 47] ++ [98, 46, 112, 121])] = [⟨[98, 46, 112, 121] ++ prepExt, .ok s t⟩] := by
    unfold reprAll reprJobs
    rw [show lastPart ([116, 47, 100, 47] ++ [98, 46, 112, 121]) = [98, 46, 112, 121] by decide, List.map_cons, List.map_nil, hd,
      show newName parsedExt prepExt (iterName parsedExt [98, 46, 112, 121]) = [98, 46, 112, 121] ++ prepExt by decide]
  rw [e']
  exact calm_star g2

end Verif.Props
