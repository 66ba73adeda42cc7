import Verif.Proofs.Gathered
import Verif.Props.UserCodes
import Verif.Props.LearnText
import Verif.Props.Whole
/-!
# C75: from the files of a directory to learnt merges
-/
namespace Verif.Props
open Verif Spec Tree Pool Source Whole Verif.Props.Whole Verif.Props.Source

/-- The result for a parsed file, if there is one. -/
theorem parsed_file {env : Env} {L : Lexers} {c : PrepConfig} {pk : Pickler} (hp : Lossless pk) {read : Bytes → Option Bytes} {top : Bytes}
    {files : List Bytes} (hg : GoodFiles files) {n : Nat} {s1 : Setup} {w1 : Pool.World} (h1 : Reachable s1 (parseAll env.ucd L pk read top files) n w1)
    (hr1 : w1.ready = true) {f : Bytes} (hf : f ∈ files) {s t : Str}
    (hs : fromParsed (reprRes env c none pk) w1.disk (iterName parsedExt f) = .ok s t) :
    ∃ b x ts r, read (joinPath top f) = some b ∧ ExtensionIs (joinPath top f) x ∧ convertText env.ucd (lexText L (parsedText b) (some x)) = .ok ts ∧
      toRepr env c (ts ++ [.specialToken Ph.ect]) none = .ok r ∧ s = prepText r.1 ∧ t = dumpTokenSet r.2.nonproc := by
  obtain ⟨ds, nm, hfound⟩ := hg.2 f hf
  rcases C33_ready (parseJobs_good _ hg) h1 hr1 _ (List.mem_map_of_mem (f := fun f => Job.mk (newName [] parsedExt (iterName [] f))
    (parseRes env.ucd L pk read (joinPath top (iterName [] f)))) hf) with ⟨s', t', e1, i, e2, e3⟩ | ⟨-, -, e⟩
  · change parseRes env.ucd L pk read (joinPath top (iterName [] f)) = _ at e1
    change w1.disk.dir (.out (newName [] parsedExt (iterName [] f))) = _ at e2
    rw [show iterName [] f = f from List.append_nil f] at e1
    obtain ⟨b, x, ts, hb, hx, hts, rfl⟩ := parseRes_ok e1
    unfold fromParsed at hs
    rw [(C33_names hfound).2.1, e2] at hs
    simp only [e3] at hs
    obtain ⟨r, hr, h2, h3⟩ := reprRes_ok hp hs
    exact ⟨b, x, ts, r, hb, hx, hts, hr, h2, h3⟩
  · change w1.disk.dir (.out (newName [] parsedExt (iterName [] f))) = _ at e
    unfold fromParsed at hs
    rw [(C33_names hfound).2.1, e] at hs
    cases hs

/-- What is shown of the text of the file. -/
theorem shown_of {env : Env} {load : Str → Except PyErr BpeData} {L : Lexers} {b : BpeConfig} {src bytes : Bytes} {x : Str} {ts : List Tok}
    {r : List Str × Meta} (hx : ExtensionIs src x) (hts : convertText env.ucd (lexText L (parsedText bytes) (some x)) = .ok ts)
    (hr : toRepr env b.toPrepConfig (ts ++ [.specialToken Ph.ect]) none = .ok r) : ∃ toks md, ShownOf env load L b (src, bytes) toks md := by
  have hc : corpusConfig (learnCall b) = .ok b.toPrepConfig := by
    obtain ⟨c', h1, h2, -⟩ := C29_same_configuration (learnCall b)
    rw [learnCall_config] at h1
    cases h1
    exact h2
  obtain ⟨toks, ⟨x', t, md, h1, h2, h3⟩, -⟩ := tokens_text (load := load) (bd := none) hc (fun h => by rw [toPrepConfig_nobpe] at h; cases h)
    ⟨x, ts, r.2, hx, hts, hr⟩
  exact ⟨toks, md, x', t, h1, h2, h3⟩

/-- **C75 (partial)** A directory is parsed, preprocessed with the tokens that are not to be split saved, and counted, with any numbers of
workers and after any crashes that do not cut off a token or the collected tokens.  Then everything is ready for learning, from exactly the
words that the text functions show of the files of the directory. -/
theorem C75_files_partial (env : Env) (hu : env.ucd.Laws) (hk : KeepsSolid env) (L : Lexers) (b : BpeConfig)
    (load : Str → Except PyErr BpeData) (pk : Pickler) (hp : Lossless pk)
    (read : Bytes → Option Bytes) (top : Bytes) (fs : Links) (links : Nat) (es : Entries) (hw : WellNamed fs es) (exts : Option (List Str))
    (h0 : listing fs links es exts ≠ []) (hl : ∀ f ∈ listing fs links es exts, ∀ bytes, read (joinPath top f) = some bytes → LexedSolid L (joinPath top f, bytes))
    (n m : Nat) (fresh : Bool) (w1 : Pool.World)
    (h1 : Reachable ⟨.parse, false, fresh⟩ (parseAll env.ucd L pk read top (listing fs links es exts)) n w1) (hr1 : w1.ready = true)
    (set : Job → List Str) (hset : SavesTokens set (reprAll env b.toPrepConfig none pk w1.disk (listing fs links es exts))) (g : GWorld)
    (hgr : GReachable true (reprAll env b.toPrepConfig none pk w1.disk (listing fs links es exts)) m
      (fun u v => KeepsFinal u v ∧ KeepsTokens set u v) g) (hd : g.phase = .done)
    (chunks : Nat) (hchunks : 0 < chunks) (dir : DumpDir) (hdir : readyName ∉ dir.map (·.1)) :
    ∃ (toks : Bytes → List Str) (md : Bytes → Meta),
      (∀ f ∈ listing fs links es exts, ∃ bytes, read (joinPath top f) = some bytes ∧ ShownOf env load L b (joinPath top f, bytes) (toks f) (md f)) ∧
      ∃ texts, resultTexts g.pool.disk (listing fs links es exts) = texts.map some ∧ ∃ parts, partialCounts texts = .ok parts ∧
        ∀ dk, Star (Verif.WStep parts chunks) (World.first dir) ⟨dk, .returned⟩ → ∃ all nonBpe, Ready all nonBpe ⟨[], dk.vocab, g.final⟩ ∧
          WordsOf ((listing fs links es exts).map toks) ((listing fs links es exts).map md) (datasetWords all nonBpe) := by
  have hg : GoodFiles (listing fs links es exts) := C71_results fs links es hw exts
  generalize listing fs links es exts = files at hg h0 hl h1 hset hgr ⊢
  have hgj : GoodJobs (reprAll env b.toPrepConfig none pk w1.disk files) := reprJobs_good _ _ hg
  let job : Bytes → Job := fun f => ⟨newName parsedExt prepExt (iterName parsedExt f), fromParsed (reprRes env b.toPrepConfig none pk) w1.disk (iterName parsedExt f)⟩
  have hjobs : reprAll env b.toPrepConfig none pk w1.disk files = files.map job := rfl
  rw [hjobs] at hgj hset hgr
  have hstar : Star (GStep true (files.map job) m) GWorld.init g := by
    unfold GReachable at hgr
    clear hd
    induction hgr with
    | refl => exact .refl
    | tail _ h ih => exact .tail ih h.1
  have hres := C52_results hgj hstar hd
  -- what is known of each file
  have hall : ∀ f, ∃ q : Bytes × List Str × List Str × Meta, f ∈ files → read (joinPath top f) = some q.1 ∧
      ShownOf env load L b (joinPath top f, q.1) q.2.2.1 q.2.2.2 ∧ JobOf env L b.toPrepConfig (joinPath top f, q.1) (job f) q.2.1 (set (job f)) ∧
      (g.pool.disk.dir (.out (normRel (iterName prepExt f)))).map g.pool.disk.data = some (prepText q.2.1) := by
    intro f
    by_cases hf : f ∈ files
    · obtain ⟨dirs, name, hfound⟩ := hg.2 f hf
      obtain ⟨s, t, e1, i, e2, e3⟩ := hres (job f) (List.mem_map_of_mem hf)
      obtain ⟨bytes, x, ts, r, hb, hx, hts, hr, rfl, rfl⟩ := parsed_file hp hg h1 hr1 hf e1
      obtain ⟨toks, md, hs⟩ := shown_of (load := load) hx hts hr
      obtain ⟨hsn, hst⟩ := hset (job f) (List.mem_map_of_mem hf)
      have hd1 := hst _ _ e1
      have hn1 : r.2.nonproc.Nodup := (recorded_shown (toPrepConfig_valid b) (toPrepConfig_nobpe b) (out := r.1) (md := r.2) hr).1
      have heq : set (job f) = r.2.nonproc := by
        have k1 := C13_token_set_roundtrip _ hsn
        rw [← hd1, C13_token_set_roundtrip _ hn1] at k1
        exact (Except.ok.inj k1).symm
      refine ⟨(bytes, r.1, toks, md), fun _ => ⟨hb, hs, ⟨x, ts, r.2, hx, hts, hr, by rw [heq], ?_⟩, ?_⟩⟩
      · rw [e1, heq]
      · change g.pool.disk.dir (.out (newName parsedExt prepExt (iterName parsedExt f))) = _ at e2
        rw [(C33_names hfound).2.2] at e2
        rw [prepPath_found hfound, e2, Option.map_some, e3]
    · exact ⟨([], [], [], Meta.empty), fun h => absurd h hf⟩
  obtain ⟨q, hq⟩ := Classical.axiomOfChoice hall
  have hback : ∀ j, ∃ f, j ∈ files.map job → f ∈ files ∧ job f = j := by
    intro j
    by_cases hj : j ∈ files.map job
    · obtain ⟨f, hf, e⟩ := List.mem_map.mp hj
      exact ⟨f, fun _ => ⟨hf, e⟩⟩
    · exact ⟨[], fun h => absurd h hj⟩
  obtain ⟨back, hbk⟩ := Classical.axiomOfChoice hback
  have hinj : ∀ f ∈ files, back (job f) = f := by
    intro f hf
    obtain ⟨e1, e2⟩ := hbk (job f) (List.mem_map_of_mem hf)
    have hnd : (files.map job).Nodup := (List.Nodup.of_map _ hgj.1)
    exact List.inj_on_of_nodup_map hnd e1 hf e2
  refine ⟨fun f => (q f).2.2.1, fun f => (q f).2.2.2, fun f hf => ⟨_, (hq f hf).1, (hq f hf).2.1⟩, files.map fun f => prepText (q f).2.1, ?_, ?_⟩
  · unfold resultTexts
    rw [List.map_map]
    exact List.map_congr_left fun f hf => (hq f hf).2.2.2
  · obtain ⟨parts, hparts, -⟩ := partialCounts_ok (files.map fun f => prepText (q f).2.1)
    refine ⟨parts, hparts, fun dk hdk => ?_⟩
    have hmap : ∀ {α : Type} (F : Bytes → α), (files.map job).map (fun j => F (back j)) = files.map F := by
      intro α F
      rw [List.map_map]
      exact List.map_congr_left fun f hf => by simp only [Function.comp]; rw [hinj f hf]
    have hin : ∀ j ∈ files.map job, back j ∈ files := fun j hj => (hbk j hj).1
    have := C68_ready_partial env hu hk L b load (files.map job) (by simpa using h0) hgj (fun j => (joinPath top (back j), (q (back j)).1))
      (fun j hj => hl _ (hin j hj) _ (hq _ (hin j hj)).1) (fun j => (q (back j)).2.2.1) (fun j => (q (back j)).2.2.2)
      (fun j hj => (hq _ (hin j hj)).2.1) (fun j => (q (back j)).2.1) set
      (fun j hj => by have := (hq _ (hin j hj)).2.2.1; rw [(hbk j hj).2] at this; exact this)
      m g hgr hd parts (by rw [hmap fun f => prepText (q f).2.1]; exact hparts) chunks hchunks dir hdir dk hdk
    rw [hmap fun f => (q f).2.2.1, hmap fun f => (q f).2.2.2] at this
    exact this

/-- **C75 (partial)** There are such runs, from every directory whose files can be read and have extensions in UTF-8. -/
theorem C75_possible_partial (env : Env) (hu : env.ucd.Laws) (L : Lexers) (b : BpeConfig) (pk : Pickler) (hp : Lossless pk)
    (read : Bytes → Option Bytes) (top : Bytes) (fs : Links) (links : Nat) (es : Entries) (hw : WellNamed fs es) (exts : Option (List Str))
    (hall : ∀ f ∈ listing fs links es exts, Processable read (joinPath top f)) (n m : Nat) (hn : 0 < n) (hm : 0 < m) (fresh : Bool) :
    (∃ w1, Reachable ⟨.parse, false, fresh⟩ (parseAll env.ucd L pk read top (listing fs links es exts)) n w1 ∧ w1.ready = true) ∧
    (∀ w1, Reachable ⟨.parse, false, fresh⟩ (parseAll env.ucd L pk read top (listing fs links es exts)) n w1 → w1.ready = true →
      ∃ set, SavesTokens set (reprAll env b.toPrepConfig none pk w1.disk (listing fs links es exts)) ∧
        ∃ g, GReachable true (reprAll env b.toPrepConfig none pk w1.disk (listing fs links es exts)) m
          (fun u v => KeepsFinal u v ∧ KeepsTokens set u v) g ∧ g.phase = .done) ∧
    ∀ texts parts, partialCounts texts = .ok parts → ∀ chunks, 0 < chunks → ∀ dir : DumpDir, readyName ∉ dir.map (·.1) →
      ∃ dk, Star (Verif.WStep parts chunks) (World.first dir) ⟨dk, .returned⟩ := by
  have hg : GoodFiles (listing fs links es exts) := C71_results fs links es hw exts
  have hb : b.toPrepConfig.isBpe = true → ∃ d, (none : Option BpeData) = some d ∧ Verif.CacheOk d := fun h => by rw [toPrepConfig_nobpe] at h; cases h
  have hfine := fun s1 s2 => files_fine hu (L := L) (toPrepConfig_valid b) hb hp hg hall s1 s2 (n := n)
  refine ⟨?_, fun w1 h1 hr1 => ?_, fun texts parts hparts chunks hc dir hdir => ?_⟩
  · obtain ⟨⟨w1, g1, r1⟩, -⟩ := C33_progress hn (parseJobs_good _ hg) (hfine ⟨.parse, false, fresh⟩ ⟨.repr, true, true⟩).1 .refl
    exact ⟨w1, calm_star g1, r1⟩
  · have hgj : GoodJobs (reprAll env b.toPrepConfig none pk w1.disk (listing fs links es exts)) := reprJobs_good _ _ hg
    have hset : ∀ j, ∃ l : List Str, j ∈ reprAll env b.toPrepConfig none pk w1.disk (listing fs links es exts) →
        l.Nodup ∧ ∀ s t, j.res = .ok s t → t = dumpTokenSet l := by
      intro j
      by_cases hj : j ∈ reprAll env b.toPrepConfig none pk w1.disk (listing fs links es exts)
      · obtain ⟨f, hf, rfl⟩ := List.mem_map.mp hj
        cases hres : fromParsed (reprRes env b.toPrepConfig none pk) w1.disk (iterName parsedExt f) with
        | ok s t =>
          obtain ⟨_, _, _, r, -, -, -, hr, -, rfl⟩ := parsed_file hp hg h1 hr1 hf hres
          refine ⟨r.2.nonproc, fun _ => ⟨(recorded_shown (toPrepConfig_valid b) (toPrepConfig_nobpe b) (out := r.1) (md := r.2) hr).1, fun s' t' e => ?_⟩⟩
          cases e
          rfl
        | missing => exact ⟨[], fun _ => ⟨.nil, fun s' t' e => by cases e⟩⟩
        | fails => exact ⟨[], fun _ => ⟨.nil, fun s' t' e => by cases e⟩⟩
      · exact ⟨[], fun h => absurd h hj⟩
    obtain ⟨set, hset⟩ := Classical.axiomOfChoice hset
    exact ⟨set, hset, C52_progress_partial hm hgj hset ((hfine ⟨.parse, false, fresh⟩ ⟨.repr, true, true⟩).2 w1 h1 hr1) .refl rfl rfl⟩
  · obtain ⟨gs, h1, h2⟩ := partialCounts_spec hparts
    refine C30_ends hc (fun p hpm => ?_) hdir .refl
    have : p.1 ∈ parts.map (·.1) := List.mem_map_of_mem hpm
    rw [h2] at this
    obtain ⟨g, _, hg⟩ := List.mem_map.mp this
    rw [← hg]
    exact getVocab_WF g

/-- Only the words of the vocabularies that are there matter. -/
theorem history_words {u : Ucd} {words words' : Str → List (Str × Nat) × List Str} {h : UserDir} (hu : u.Laws) (hh : UserHistory u words h)
    (he : ∀ nm ∈ h.vocabs.map (·.name), words' nm = words nm) : UserHistory u words' h := by
  induction hh with
  | start => exact .start
  | vocab v hh hn hr ih =>
    refine .vocab v (ih fun nm hm => he nm (by simp only [List.map_append, List.mem_append]; exact .inl hm)) hn ?_
    rw [he v.name (by simp)]
    exact hr
  | learn path dn b given n hh hb hp hv hl hc ih =>
    have hok := history_ok hu (user_inv hu hh).registry
    have hnm := hok.names
    rw [List.map_map] at hnm
    obtain ⟨_, _, _, _, -, -, -, -, -, e, -⟩ := learn_shape hl hnm _ rfl
    exact .learn path dn b given n (ih fun nm hm => he nm (by rw [e]; exact hm)) hb hp hv hl hc
  | reorder cs cs' hh hc hp ih => exact .reorder cs cs' (ih he) hc hp

/-- As long as there are words to learn from, there is a pair of neighbours: the last character of a word and the end of the word. -/
theorem pair_left {ws : List (Str × Nat)} {v : List (List Str × Nat)} (hl : Learns (trainingVocab ws) [] v) {w : Str} {k : Nat} (hm : (w, k) ∈ ws)
    (hw : w ≠ []) (hk : 0 < k) : ∃ q, 0 < weightedCount v q := by
  cases hl
  have hpos : ∀ {l : List Nat} {x : Nat}, x ∈ l → 0 < x → 0 < l.sum := by
    intro l x hx h0
    induction l with
    | nil => cases hx
    | cons y l ih =>
      rw [List.sum_cons]
      rcases List.mem_cons.mp hx with e | hx
      · omega
      · have := ih hx
        omega
  cases w with
  | nil => exact absurd rfl hw
  | cons a r =>
    have hsym : ∃ x y t, initialSymbols (a :: r) = x :: y :: t := by
      unfold initialSymbols
      cases r with
      | nil => exact ⟨_, _, _, rfl⟩
      | cons b t => exact ⟨_, _, _, rfl⟩
    obtain ⟨x, y, t, hsym⟩ := hsym
    refine ⟨(x, y), hpos (x := k * pairCount (x, y) (initialSymbols (a :: r))) ?_ ?_⟩
    · exact List.mem_map.mpr ⟨(initialSymbols (a :: r), k), List.mem_map.mpr ⟨(a :: r, k), hm, rfl⟩, rfl⟩
    · refine Nat.mul_pos hk (pairCount_pos.mpr ?_)
      rw [hsym]
      exact adjacent_cons_cons.mpr (.inl ⟨rfl, rfl⟩)

/-- **C75** When the vocabulary of a further dataset is there and one of its words may be split, learning at least one merge from it succeeds,
whatever has been learnt before.  The directory of the dataset gets an identifier of its own; and a call of `bpe` with it and a number up to
that of the merges returns what follows from that many merges learnt from the words of the dataset, the first ones, and from nothing else. -/
theorem C75_learnt (env : Env) (hu : env.ucd.Laws) {words : Str → List (Str × Nat) × List Str} {h : UserDir} (hh : UserHistory env.ucd words h)
    (path : Str) {dn : Str} {b : BpeConfig} (hb : IsBpeConfig b) (hs : Supported b) (hp : PlainDataset dn)
    (hnew : baseBpeVocabDirName dn b ∉ h.vocabs.map (·.name)) (given : Option Str) (hname : CanName env.ucd (h.dirs.map (·.entry)) path b given)
    (all : List (Str × Nat)) (nonBpe : List Str) (vocab nonbpe : Option Str) (hr : Ready all nonBpe ⟨[], vocab, nonbpe⟩)
    (hsome : ∃ e ∈ all, e.1 ∉ nonBpe) (n : Nat) (h1 : 1 ≤ n) (hmax : n < sysMaxsize) :
    ∃ h' c id, UserDir.learn env.ucd { h with vocabs := h.vocabs ++ [⟨baseBpeVocabDirName dn b, vocab, nonbpe⟩] } path dn b given n = .ok h' ∧
      c ∈ h'.dirs ∧ c.name = bpeDirName dn (some b) ∧ c.entry.codesId env.ucd = some id ∧
      (∀ c' ∈ h'.dirs, c'.entry.codesId env.ucd = some id → c' = c) ∧
      ∃ m ∈ c.subs, ∃ ms v, Spec.Holds (datasetWords all nonBpe) m ms v ∧ 1 ≤ ms.length ∧ ms.length ≤ n ∧
        (ms.length < n → ∀ q, weightedCount v q = 0) ∧
        ('\n' ∉ id → ∀ k, 1 ≤ k → k ≤ ms.length → ∀ (shipped : BpeFile → Option Str) (t : TextCall) (o : CommonOpts),
          t.api = .bpe (id ++ '-' :: natStr k) o → ∀ g, ¬ AsksReuse t ∨ g = none → ∀ parsed, convertText env.ucd t.lexed = .ok parsed →
          (∀ w ∈ needed env.ucd o (finishParsed parsed t.appendEof), escape w true ∉ nonBpe) →
          ∃ m' ∈ c.subs, ∃ ms' v', Spec.Holds (datasetWords all nonBpe) m' ms' v' ∧ k ≤ ms'.length ∧
            (Wear.textApi env (h'.bpeDisk shipped) t g).1 = textApi env (fun _ => .ok ⟨[], ranked 0 (ms'.take k)⟩) t.api t.lexed t.appendEof) := by
  let words' : Str → List (Str × Nat) × List Str := fun nm => if nm = baseBpeVocabDirName dn b then (all, nonBpe) else words nm
  have hw' : words' (baseBpeVocabDirName dn b) = (all, nonBpe) := if_pos rfl
  have hh1 : UserHistory env.ucd words' h := history_words hu hh fun nm hm => if_neg (fun e : nm = _ => hnew (by rw [← e]; exact hm))
  have hh2 : UserHistory env.ucd words' { h with vocabs := h.vocabs ++ [⟨baseBpeVocabDirName dn b, vocab, nonbpe⟩] } :=
    .vocab ⟨baseBpeVocabDirName dn b, vocab, nonbpe⟩ hh1 hnew (by rw [hw']; exact hr)
  have hin : baseBpeVocabDirName dn b ∈ (h.vocabs ++ [(⟨baseBpeVocabDirName dn b, vocab, nonbpe⟩ : VocabDir)]).map (·.name) := by simp
  obtain ⟨h', c, m, ms, v, hlearn, hc, hcn, hm, hhold, hle, hstop⟩ := C69_progress hu hh2 path given (n : Int) hb hs hp hin (fun _ => hname) all nonBpe hw'
  rw [Int.toNat_natCast] at hle hstop
  have hlen : 1 ≤ ms.length := by
    rcases Nat.eq_zero_or_pos ms.length with h0 | h0
    · obtain ⟨⟨w, k⟩, he, hnot⟩ := hsome
      have hl := hhold.learnt
      rw [List.length_eq_zero_iff.mp h0] at hl
      obtain ⟨q, hq⟩ := pair_left hl (w := w) (k := k) (List.mem_filter.mpr ⟨he, decide_eq_true hnot⟩) (hr.words _ he).2 (hr.positive _ he)
      have := hstop (by omega) q
      omega
    · exact h0
  have hh3 : UserHistory env.ucd words' h' := .learn path dn b given n hh2 hb hp hin hlearn fun _ =>
    ⟨hname, c, hc, hcn, m, hm, ms.length, hhold.name, hlen, by have : (ms.length : Int) ≤ n := by omega
                                                               omega⟩
  obtain ⟨id, hid, huniq, -, -, -⟩ := C69_words hu hh3 hc hb hp hcn all nonBpe hw'
  refine ⟨h', c, id, hlearn, hc, hcn, hid, huniq, m, hm, ms, v, hhold, hlen, hle, hstop, fun hnl k hk1 hk2 shipped t o ht g hg parsed hparsed hkeep => ?_⟩
  exact C75_text env hu hh3 shipped hc hb hp hcn all nonBpe hw' id hid hnl k hk1 ⟨m, hm, ms, v, hhold, hk2, by omega⟩ t o ht g hg parsed hparsed hkeep

/-! ## Examples -/

/-- For the directory with the files `a.py` and `d/b.py`, learning starts from `ab` and `cd`. -/
example : ∃ pk w1 set g texts parts dk all nonBpe, Lossless pk ∧
    Reachable ⟨.parse, false, true⟩ (parseAll demoEnv.ucd demoLexers pk twoRead [116] (listing (fun _ => none) 3 twoEntries none)) 2 w1 ∧
    GReachable true (reprAll demoEnv plainSettings.toPrepConfig none pk w1.disk (listing (fun _ => none) 3 twoEntries none)) 3
      (fun u v => KeepsFinal u v ∧ KeepsTokens set u v) g ∧ g.phase = .done ∧
    resultTexts g.pool.disk (listing (fun _ => none) 3 twoEntries none) = texts.map some ∧ partialCounts texts = .ok parts ∧
    Star (Verif.WStep parts 2) (World.first []) ⟨dk, .returned⟩ ∧ Ready all nonBpe ⟨[], dk.vocab, g.final⟩ ∧
    ("ab".toList, 1) ∈ (datasetWords all nonBpe).learnt := by
  obtain ⟨pk, hp⟩ := lossless_exists
  obtain ⟨⟨w1, h1, r1⟩, hset, hcount⟩ := C75_possible_partial demoEnv asciiUcd_laws demoLexers plainSettings pk hp twoRead [116] (fun _ => none) 3
    twoEntries two_named none two_processable 2 3 (by decide) (by decide) true
  obtain ⟨set, hsave, g, hg, hd⟩ := hset w1 h1 r1
  have hsolid : ∀ f ∈ listing (fun _ => none) 3 twoEntries none, ∀ b, twoRead (joinPath [116] f) = some b → LexedSolid demoLexers (joinPath [116] f, b) := by
    rw [two_listed]
    intro f hf b hb x hx
    have hx := extension_is hx
    rcases List.mem_cons.mp hf with rfl | hf
    · have e1 : twoRead (joinPath [116] [46, 47, 97, 46, 112, 121]) = some [97, 98, 10] := by decide
      cases e1.symm.trans hb
      have e2 : extensionOf (joinPath [116] [46, 47, 97, 46, 112, 121]) = .ok "py".toList := by decide +kernel
      cases e2.symm.trans hx
      unfold SolidNumber; decide +kernel
    · rcases List.mem_singleton.mp hf with rfl
      have e1 : twoRead (joinPath [116] [100, 47, 98, 46, 112, 121]) = some [99, 100, 13, 10] := by decide
      cases e1.symm.trans hb
      have e2 : extensionOf (joinPath [116] [100, 47, 98, 46, 112, 121]) = .ok "py".toList := by decide +kernel
      cases e2.symm.trans hx
      unfold SolidNumber; decide +kernel
  obtain ⟨toks, md, hshown, texts, ht, parts, hparts, hend⟩ := C75_files_partial demoEnv asciiUcd_laws demoEnv_keepsSolid demoLexers plainSettings
    (fun _ => .error .keyError) pk hp twoRead [116] (fun _ => none) 3 twoEntries two_named none (by rw [two_listed]; simp) hsolid 2 3 true w1 h1 r1
    set hsave g hg hd 2 (by decide) [] (by simp)
  obtain ⟨dk, hdk⟩ := hcount texts parts hparts 2 (by decide) [] (by simp)
  obtain ⟨all, nonBpe, hr, hw⟩ := hend dk hdk
  refine ⟨pk, w1, set, g, texts, parts, dk, all, nonBpe, hp, h1, hg, hd, ht, hparts, hdk, hr, (hw.learnt _ _ (by decide)).mpr ?_⟩
  rw [two_listed] at hshown ⊢
  have key : ∀ f ∈ [[46, 47, 97, 46, 112, 121], [100, 47, 98, 46, 112, 121]], ∀ bytes out, twoRead (joinPath [116] f) = some bytes →
      extensionOf (joinPath [116] f) = .ok "py".toList →
      (textApi demoEnv (fun _ => .error .keyError) (learnCall plainSettings) (lexText demoLexers (parsedText bytes) (some "py".toList)) true).toOption.map
        (fun r => (r.1, r.2.nonproc)) = some out → toks f = out.1 ∧ (md f).nonproc = out.2 := by
    intro f hf bytes out e1 e2 e3
    obtain ⟨bytes', hb, x, t, hx, ht, hapi⟩ := hshown f hf
    cases e1.symm.trans hb
    cases e2.symm.trans (extension_is hx)
    rw [← (C66_text _ _).mp ht] at hapi
    rw [hapi] at e3
    cases e3
    exact ⟨rfl, rfl⟩
  obtain ⟨a1, a2⟩ := key [46, 47, 97, 46, 112, 121] (by simp) [97, 98, 10] (["ab", "<EOF>"].map String.toList, [Ph.ect]) (by decide) (by decide +kernel)
    (by decide +kernel)
  obtain ⟨b1, b2⟩ := key [100, 47, 98, 46, 112, 121] (by simp) [99, 100, 13, 10] (["cd", "<EOF>"].map String.toList, [Ph.ect]) (by decide)
    (by decide +kernel) (by decide +kernel)
  refine ⟨by decide, ?_, ?_⟩
  · simp only [List.map_cons, List.map_nil, a1, b1]
    decide +kernel
  · rintro (⟨x, hx, h⟩ | h)
    · simp only [List.map_cons, List.map_nil, List.mem_cons, List.not_mem_nil, or_false] at hx
      rcases hx with rfl | rfl
      · rw [a2] at h
        exact absurd h (by decide +kernel)
      · rw [b2] at h
        exact absurd h (by decide +kernel)
    · exact absurd h (by decide +kernel)

/-- After learning from the first dataset, learning from the second one. -/
example : ∃ h', UserDir.learn asciiUcd ⟨some [⟨"p_1".toList, some "p".toList, [abc3]⟩], [abcVocab, xyVocab]⟩ "/y/q".toList "q_1".toList
    plainSettings none 2 = .ok h' := by
  have h1 : UserHistory asciiUcd twoWords ⟨none, [abcVocab]⟩ :=
    .vocab abcVocab .start (by simp) (by
      have e : twoWords abcVocab.name = ([("abc".toList, 1)], []) := by decide +kernel
      rw [e]
      exact abc_ready)
  have h2 : UserHistory asciiUcd twoWords ⟨some [⟨"p_1".toList, some "p".toList, [abc3]⟩], [abcVocab]⟩ :=
    .learn "/x/p".toList "p_1".toList plainSettings none 3 h1 plainSettings_config plainName_p (by decide +kernel) oneHome_learn
      fun _ => ⟨.made (by unfold Storable; decide +kernel) (by unfold NoSpecial; decide +kernel),
        ⟨"p_1".toList, some "p".toList, [abc3]⟩, by simp [UserDir.dirs], by decide +kernel, abc3, by simp, 3, by decide +kernel, by decide, by decide⟩
  have en : baseBpeVocabDirName "q_1".toList plainSettings = "q_1_-_u0EFsu".toList := by decide +kernel
  obtain ⟨h', -, -, h, -⟩ := C75_learnt demoEnv asciiUcd_laws h2 "/y/q".toList plainSettings_config (by unfold Supported; decide +kernel) plainName_q
    (by decide +kernel) none (.made (by unfold Storable; decide +kernel) (by unfold NoSpecial; decide +kernel)) [("xy".toList, 2)] []
    (some "xy\t2\n".toList) (some [])
    ⟨rfl, ⟨_, rfl, by decide +kernel⟩, ⟨_, rfl, by decide +kernel⟩, by decide, by decide, by decide, by simp⟩ ⟨("xy".toList, 2), by simp, by simp⟩ 2 (by decide)
    (by decide)
  rw [en] at h
  exact ⟨h', h⟩

end Verif.Props
