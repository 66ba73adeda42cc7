import Verif.Spec.UserCodes
import Verif.Props.VocabLoader
import Verif.Props.BpeState
import Verif.Props.Wear
import Verif.Props.Registry
/-!
# C75: learnt merges are used by the text functions
-/
namespace Verif.Props
open Verif Spec

/-- What the text functions load for an identifier is what `load_bpe_merges` and the vocabulary loader load. -/
theorem C75_loaded (u : Ucd) (h : UserDir) (shipped : BpeFile → Option Str) (call : ApiCall) (id : Str) (n : Nat) (hn : 1 ≤ n) (hid : '\n' ∉ id) :
    codesOnDisk u (h.bpeDisk shipped) call (id ++ '-' :: natStr n) = (do
      let m ← h.loadMerges u id n
      let ws ← h.loadNonbpe u id
      .ok ⟨addNonbpe [] ws, m⟩) := by
  have hdash : ∀ s : Str, '-' ∉ s → id ++ '-' :: natStr n ≠ s := by
    rintro s hs rfl
    exact hs (by simp)
  unfold codesOnDisk
  rw [if_neg (by
    rintro (e | e | e)
    · exact hdash _ (by decide) e
    · exact hdash _ (by decide) e
    · exact hdash _ (by decide) e), if_neg (hdash _ (by decide))]
  unfold learntCodes UserDir.loadMerges CustomBpeConfig.fromId
  rw [C39_parse id n hn hid]
  change (do
    let cc ← CustomBpeConfig.create u h.registry id n
    let t ← (h.bpeDisk shipped).read (.learntMerges cc.dir.name cc.sub)
    let m ← readMerges t (some cc.nMerges.toNat)
    let ws ← nonbpeVocab u (h.bpeDisk shipped) cc.id
    Except.ok (⟨addNonbpe [] ws, m⟩ : BpeData)) = _
  cases hc : CustomBpeConfig.create u h.registry id n with
  | error e => rfl
  | ok cc =>
    have hcc : cc.id = id ∧ cc.nMerges = n := by
      unfold CustomBpeConfig.create at hc
      cases hd : getDatasetBpeDir u h.registry id with
      | error e => rw [hd] at hc; cases hc
      | ok d =>
        rw [hd] at hc
        simp only [bind, Except.bind] at hc
        split at hc
        · cases hc
        · split at hc
          · cases hc
          · cases hc
            exact ⟨rfl, rfl⟩
    obtain ⟨h1, h2⟩ := hcc
    simp only [bind, Except.bind, h1, h2, Int.toNat_natCast]
    have e1 : (h.bpeDisk shipped).read (.learntMerges cc.dir.name cc.sub) = openText (h.mergesFile cc.dir.name cc.sub (·.merges)) := by
      unfold BpeDisk.read openText UserDir.bpeDisk
      rfl
    rw [e1]
    have e2 : nonbpeVocab u (h.bpeDisk shipped) id = h.loadNonbpe u id := by
      unfold nonbpeVocab UserDir.loadNonbpe UserDir.baseVocabDir
      change (getDatasetBpeDir u h.registry id >>= _) = _
      cases getDatasetBpeDir u h.registry id with
      | error e => rfl
      | ok d =>
        simp only [bind, Except.bind]
        cases getBaseVocabDirName d.name with
        | error e => rfl
        | ok vd => rfl
    rw [e2]
    cases openText (h.mergesFile cc.dir.name cc.sub (·.merges)) with
    | error e => rfl
    | ok t => rfl

section
variable {u : Ucd} {words : Str → List (Str × Nat) × List Str} {h : UserDir}

/-- **C75** After learning merges for any datasets in any order, the identifier of a dataset with a number `n` stands for the first `n`
merges that were learnt from the words of this dataset, together with the words that are not to be split. -/
theorem C75_codes (hu : u.Laws) (hh : UserHistory u words h) (shipped : BpeFile → Option Str) {c : CodesDir} (hc : c ∈ h.dirs) {dn : Str} {b : BpeConfig}
    (hb : IsBpeConfig b) (hp : PlainDataset dn) (hn : c.name = bpeDirName dn (some b)) (all : List (Str × Nat)) (nonBpe : List Str)
    (hw : words (baseBpeVocabDirName dn b) = (all, nonBpe)) (id : Str) (hi : c.entry.codesId u = some id) (hid : '\n' ∉ id) (n : Nat) (h0 : 1 ≤ n)
    (call : ApiCall) :
    (∃ m ∈ c.subs, ∃ ms v, Spec.Holds (datasetWords all nonBpe) m ms v ∧ n ≤ ms.length ∧
      codesOnDisk u (h.bpeDisk shipped) call (id ++ '-' :: natStr n) = .ok ⟨addNonbpe [] nonBpe, ranked 0 (ms.take n)⟩) ∨
    (codesOnDisk u (h.bpeDisk shipped) call (id ++ '-' :: natStr n) = .error .invalidBpeCodesId ∧
      ∀ m ∈ c.subs, ∀ ms v, Spec.Holds (datasetWords all nonBpe) m ms v → n ≤ ms.length → sysMaxsize ≤ ms.length) := by
  rw [C75_loaded u h shipped call id n h0 hid]
  obtain ⟨id', hi', -, -, hnb, -⟩ := C69_words hu hh hc hb hp hn all nonBpe hw
  obtain rfl : id' = id := Option.some.inj (hi'.symm.trans hi)
  rcases C69_merges hu hh hc hb hp hn all nonBpe hw id' hi n h0 with ⟨m, hm, ms, v, hhold, hle, -, hl⟩ | ⟨hl, hno⟩
  · refine .inl ⟨m, hm, ms, v, hhold, hle, ?_⟩
    rw [hl, hnb]
    rfl
  · refine .inr ⟨?_, hno⟩
    rw [hl]
    rfl

end

theorem symbols_eq (v : List Str) (hv : v ≠ []) : symbols v = (v.dropLast.map fun s => (s.map unitOf).flatten) ++
    (v.getLast?.toList.map fun s => (s.map unitOf).flatten ++ [escChar]) := by
  have hsym : ∀ s : Str, symbol s = (s.map unitOf).flatten := by
    intro s
    unfold symbol
    rw [List.flatMap_def]
    congr 1
  induction v with
  | nil => exact absurd rfl hv
  | cons a r ih =>
    cases r with
    | nil => simp [symbols, hsym, escChar]
    | cons x t =>
      have := ih (by simp)
      simp only [symbols]
      rw [this, hsym]
      simp

/-- **C75** What learnt merges do to a word: unless it is one of the words that are not split, they are applied in the order in which they
were learnt.  The pieces put together are the word. -/
theorem C75_word {ws : Words} {m : MergesDir} {ms : List ((Str × Str) × Int)} {v : List (List Str × Nat)} (h : Spec.Holds ws m ms v) (n : Nat)
    (hn : n ≤ sysMaxsize) (nonBpe : List Str) (w : Str) (hs : ' ' ∉ w) :
    (escape w true ∈ nonBpe → getBpeSubwords w ⟨addNonbpe [] nonBpe, ranked 0 (ms.take n)⟩ = .ok [w]) ∧
    (escape w true ∉ nonBpe → ∃ subs, getBpeSubwords w ⟨addNonbpe [] nonBpe, ranked 0 (ms.take n)⟩ = .ok subs ∧
      MergedInOrder ((ms.take n).map (·.1)) w subs) := by
  refine ⟨fun hm => C53_kept_partial nonBpe _ w hm, fun hm => ?_⟩
  obtain ⟨subs, r, h1, -, h2, h3, -, h4, h5⟩ := getBpeSubwords_miss w ⟨addNonbpe [] nonBpe, ranked 0 (ms.take n)⟩ hs (by
    change (addNonbpe [] nonBpe).get? _ = _
    rw [C53_cache, if_neg hm]
    rfl)
  refine ⟨subs, by simp [getBpeSubwords, h2, Except.map], h3, ?_⟩
  have hd := learns_derivable h.learnt
  have hd' : Derivable (Verif.wordsOf (trainingVocab ws.learnt)) ((ms.take n).map (·.1)) := by
    rw [← List.take_append_drop n ms, List.map_append] at hd
    exact hd.of_append
  have := encode_eq_seqAll wordsOf_training hd' (by rw [List.length_take]; omega) w hs
  rw [this] at h1
  cases h1
  rw [symbols_eq subs h4, ← h5]
  rfl

/-- Two programs that write down their lookups, with splitters that may differ: as long as these agree on the words written down, the
programs do the same. -/
theorem agree_closed (f g : Str → Except PyErr (List Str)) :
    Wear.Closed (fun α (m1 m2 : Wear.Comp (List Str) α) => ∀ l, ∃ as, (m1 l).2 = l ++ as ∧ ((∀ w ∈ as, f w = g w) → m1 l = m2 l))
      (Wear.recording f) (Wear.recording g) where
  lift := fun α x l => ⟨[], by change l = l ++ []; simp, fun _ => rfl⟩
  bind := by
    intro α β m1 m2 k1 k2 hm hk l
    change ∃ as, (Wear.Comp.bind m1 k1 l).2 = l ++ as ∧ ((∀ w ∈ as, f w = g w) → Wear.Comp.bind m1 k1 l = Wear.Comp.bind m2 k2 l)
    unfold Wear.Comp.bind
    obtain ⟨as, h1, h2⟩ := hm l
    rcases hx : m1 l with ⟨x, l'⟩
    rw [hx] at h1 h2
    cases x with
    | error e => exact ⟨as, h1, fun ha => by rw [← h2 ha]⟩
    | ok a =>
      obtain ⟨bs, g1, g2⟩ := hk a l'
      simp only at h1
      refine ⟨as ++ bs, ?_, fun ha => ?_⟩
      · simp only
        rw [g1, h1, List.append_assoc]
      · rw [← h2 fun w hw => ha w (List.mem_append_left _ hw)]
        exact g2 fun w hw => ha w (List.mem_append_right _ hw)
  look := fun w l => ⟨[w], rfl, fun ha => by unfold Wear.recording; rw [ha w (by simp)]⟩

/-- **C75** The result of a call depends on the codes only by the pieces of the words that are needed. -/
theorem C75_needed (env : Env) (call : ApiCall) (hb : IsBpe call) (c : PrepConfig) (hc : textConfig call = .ok c) (ts : List Tok) (s s' : BpeState)
    (h : ∀ w ∈ needed env.ucd (optsOf call) ts, s.subwords w = s'.subwords w) : toReprSt env c ts (some s) = toReprSt env c ts (some s') := by
  obtain ⟨v, hv, hvp, h0, h1⟩ := strValue (optsOf call).noStr (optsOf call).maxStrLength
  rw [(textConfig_eq call hv hvp).1] at hc
  cases hc
  obtain ⟨rc, hrc, hty⟩ := bpe_config env hb hvp h0 h1
  have hi := (isBpe_config (call := call) v).2 hb
  rw [(toReprIn_bpe hi hrc ts s).2, (toReprIn_bpe hi hrc ts s').2, ← Wear.recorded s.subwords env.ucd rc ts [], ← Wear.recorded s'.subwords env.ucd rc ts []]
  obtain ⟨as, e1, e2⟩ := Wear.toReprBpe_rel (agree_closed s.subwords s'.subwords) env.ucd rc ts []
  rw [e2]
  intro w hw
  obtain ⟨rest, hr⟩ := (Wear.toReprBpe_writes s.subwords env.ucd hty ts []).1
  rw [e1] at hr
  refine h w ?_
  unfold needed
  simp only [List.nil_append] at hr
  rw [← hr]
  exact List.mem_append_left _ hw

/-- The text functions with codes that are loaded. -/
theorem textApi_loaded {env : Env} {call : ApiCall} {id : Str} (hid : apiBpeCodesId call = some id) (hne : id ≠ []) (hb : IsBpe call)
    {load : Str → Except PyErr BpeData} {bd : BpeData} (hl : load id = .ok bd) {c : PrepConfig} (hc : textConfig call = .ok c)
    {lexed : List (TokType × Str)} {parsed : List Tok} (hp : convertText env.ucd lexed = .ok parsed) (eof : Bool) :
    textApi env load call lexed eof = toReprSt env c (finishParsed parsed eof) (some (fresh bd)) := by
  obtain ⟨v, hv, hvp, h0, h1⟩ := strValue (optsOf call).noStr (optsOf call).maxStrLength
  have hc' := hc
  rw [(textConfig_eq call hv hvp).1] at hc'
  cases hc'
  have hi := (isBpe_config (call := call) v).2 hb
  unfold textApi
  rw [hc]
  simp only [bind, Except.bind]
  unfold preprocessText
  rw [hp, hid]
  simp only [bind, Except.bind]
  rw [if_pos hi]
  cases id with
  | nil => exact absurd rfl hne
  | cons ch r =>
    simp only [hl]
    exact (toReprSt_complete hi _ bd).symm

/-- **C75** A call of `bpe` with the identifier of a dataset and a number `n` returns what follows from the first `n` merges that were learnt
from the words of this dataset, and from nothing else, if none of the words that are needed is kept whole. -/
theorem C75_text (env : Env) (hu : env.ucd.Laws) {words : Str → List (Str × Nat) × List Str} {h : UserDir} (hh : UserHistory env.ucd words h)
    (shipped : BpeFile → Option Str) {c : CodesDir} (hc : c ∈ h.dirs) {dn : Str} {b : BpeConfig} (hb : IsBpeConfig b) (hp : PlainDataset dn)
    (hn : c.name = bpeDirName dn (some b)) (all : List (Str × Nat)) (nonBpe : List Str) (hw : words (baseBpeVocabDirName dn b) = (all, nonBpe))
    (id : Str) (hi : c.entry.codesId env.ucd = some id) (hid : '\n' ∉ id) (n : Nat) (h0 : 1 ≤ n)
    (hm : ∃ m ∈ c.subs, ∃ ms v, Spec.Holds (datasetWords all nonBpe) m ms v ∧ n ≤ ms.length ∧ ms.length < sysMaxsize)
    (t : TextCall) (o : CommonOpts) (ht : t.api = .bpe (id ++ '-' :: natStr n) o) (g : Option BpeState) (hr : ¬ AsksReuse t ∨ g = none)
    (parsed : List Tok) (hparsed : convertText env.ucd t.lexed = .ok parsed)
    (hkeep : ∀ w ∈ needed env.ucd o (finishParsed parsed t.appendEof), escape w true ∉ nonBpe) :
    ∃ m ∈ c.subs, ∃ ms v, Spec.Holds (datasetWords all nonBpe) m ms v ∧ n ≤ ms.length ∧
      (Wear.textApi env (h.bpeDisk shipped) t g).1 = textApi env (fun _ => .ok ⟨[], ranked 0 (ms.take n)⟩) t.api t.lexed t.appendEof := by
  rcases C75_codes hu hh shipped hc hb hp hn all nonBpe hw id hi hid n h0 t.api with ⟨m, hm', ms, v, hhold, hle, hcodes⟩ | ⟨-, hno⟩
  · refine ⟨m, hm', ms, v, hhold, hle, ?_⟩
    have hbpe : IsBpe t.api := by rw [ht]; trivial
    have hidt : apiBpeCodesId t.api = some (id ++ '-' :: natStr n) := by rw [ht]; rfl
    have hne : id ++ '-' :: natStr n ≠ [] := by simp
    have hopt : optsOf t.api = o := by rw [ht]; rfl
    obtain ⟨vv, hv, hvp⟩ := createStrValue_ok (optsOf t.api).noStr (optsOf t.api).maxStrLength
    have hcfg := (textConfig_eq t.api hv hvp).1
    have hres := (C63_call env (h.bpeDisk shipped) t g hbpe hr _ hidt hne _ hcodes parsed hparsed).1 (by
      rw [hopt]
      rintro ⟨w, ⟨c', l, e1, e2⟩, e3⟩
      have hwm : w ∈ needed env.ucd o (finishParsed parsed t.appendEof) := List.count_pos_iff.mp (by omega)
      simp only [fresh, Option.some.injEq] at e1
      rw [← e1, C53_cache, if_neg (hkeep w hwm)] at e2
      cases e2)
    rw [hres, textApi_loaded hidt hne hbpe hcodes hcfg hparsed,
      textApi_loaded (load := fun _ => .ok ⟨[], ranked 0 (ms.take n)⟩) hidt hne hbpe rfl hcfg hparsed]
    refine C75_needed env t.api hbpe _ hcfg _ _ _ fun w hwm => ?_
    rw [hopt] at hwm
    exact C53_no_effect nonBpe _ w (hkeep w hwm)
  · obtain ⟨m, hm', ms, v, h1, h2, h3⟩ := hm
    have := hno m hm' ms v h1 h2
    omega

/-- **C75** What an identifier stands for depends on nothing but the directory of its dataset and the vocabulary: not on other datasets, not on the
order in which directories are listed, and not on the files of the package. -/
theorem C75_others {u : Ucd} (hu : u.Laws) {words words' : Str → List (Str × Nat) × List Str} {h h' : UserDir} (hh : UserHistory u words h)
    (hh' : UserHistory u words' h') {c : CodesDir} (hc : c ∈ h.dirs) (hc' : c ∈ h'.dirs) {dn : Str} {b : BpeConfig} (hb : IsBpeConfig b)
    (hp : PlainDataset dn) (hn : c.name = bpeDirName dn (some b)) (hv : ∀ v : VocabDir, v.name = baseBpeVocabDirName dn b → (v ∈ h.vocabs ↔ v ∈ h'.vocabs))
    (id : Str) (hi : c.entry.codesId u = some id) (hid : '\n' ∉ id) (n : Nat) (h0 : 1 ≤ n) (shipped shipped' : BpeFile → Option Str) (call call' : ApiCall) :
    codesOnDisk u (h.bpeDisk shipped) call (id ++ '-' :: natStr n) = codesOnDisk u (h'.bpeDisk shipped') call' (id ++ '-' :: natStr n) := by
  rw [C75_loaded u h shipped call id n h0 hid, C75_loaded u h' shipped' call' id n h0 hid]
  obtain ⟨hnd, hs, id1, hi1, hd⟩ := user_dir hu hh hc
  obtain rfl : id1 = id := Option.some.inj (hi1.symm.trans hi)
  obtain ⟨hnd', hs', id2, hi2, hd'⟩ := user_dir hu hh' hc'
  obtain rfl : id2 = id1 := Option.some.inj (hi2.symm.trans hi)
  obtain ⟨-, v, -, hvm, hvn, hg, hf, -⟩ := user_vocab hu hh hc hb hp hn
  obtain ⟨-, v', -, hvm', hvn', hg', hf', -⟩ := user_vocab hu hh' hc' hb hp hn
  have hvv : v' = v := by
    have := vocabs_find (user_inv hu hh').names ((hv v hvn).mp hvm)
    rw [hvn, ← hvn', hf'] at this
    exact Option.some.inj this
  subst hvv
  have e1 : h.loadMerges u id2 n = h'.loadMerges u id2 n := by
    unfold UserDir.loadMerges CustomBpeConfig.create
    rw [hd, hd']
    simp only [bind, Except.bind]
    cases getMinMerges c.entry.subdirs (n : Int) with
    | none => rfl
    | some m =>
      simp only
      by_cases hm : m = 0
      · rw [if_pos hm]
      · rw [if_neg hm]
        simp only [UserDir.mergesFile, hs, hs']
        rw [show c.entry.name = c.name from rfl, codes_find hnd hc, codes_find hnd' hc']
  have e2 : h.loadNonbpe u id2 = h'.loadNonbpe u id2 := by
    unfold UserDir.loadNonbpe UserDir.baseVocabDir
    rw [hd, hd']
    simp only [bind, Except.bind]
    rw [show c.entry.name = c.name from rfl, hg]
    simp only [UserDir.vocabFile, hf, hf']
  rw [e1, e2]

/-- **C75** Learning from one dataset does not change what the identifiers of the others stand for. -/
theorem C75_keeps {u : Ucd} (hu : u.Laws) {words : Str → List (Str × Nat) × List Str} {h h' : UserDir} (hh : UserHistory u words h)
    {path dn' : Str} {b' : BpeConfig} {given : Option Str} {k : Int} (hl : h.learn u path dn' b' given k = .ok h') (hh' : UserHistory u words h')
    {c : CodesDir} (hc : c ∈ h.dirs) {dn : Str} {b : BpeConfig} (hb : IsBpeConfig b) (hp : PlainDataset dn) (hn : c.name = bpeDirName dn (some b))
    (hne : c.name ≠ bpeDirName dn' (some b')) (id : Str) (hi : c.entry.codesId u = some id) (hid : '\n' ∉ id) (n : Nat) (h0 : 1 ≤ n)
    (shipped : BpeFile → Option Str) (call : ApiCall) :
    codesOnDisk u (h'.bpeDisk shipped) call (id ++ '-' :: natStr n) = codesOnDisk u (h.bpeDisk shipped) call (id ++ '-' :: natStr n) := by
  have hnd := (user_dir hu hh hc).1
  obtain ⟨e, r, idFile, reg', -, -, -, -, -, hv, hcs⟩ := learn_shape hl hnd _ rfl
  have hc' : c ∈ h'.dirs := by
    rw [dirs_of hcs]
    refine List.mem_map.mpr ⟨c, ?_, if_neg hne⟩
    unfold ensureCodes
    split
    · exact hc
    · exact List.mem_append_left _ hc
  exact (C75_others hu hh hh' hc hc' hb hp hn (fun v _ => by rw [hv]) id hi hid n h0 shipped shipped call call).symm

/-- **C75** What learning leaves does not change the codes of the package. -/
theorem C75_shipped (u : Ucd) (h : UserDir) (shipped : BpeFile → Option Str) (call : ApiCall) (id : Str)
    (hid : id = "1k".toList ∨ id = "5k".toList ∨ id = "10k".toList ∨ id = "0".toList) :
    codesOnDisk u (h.bpeDisk shipped) call id = codesOnDisk u ⟨none, shipped⟩ call id := by
  unfold codesOnDisk
  by_cases h1 : id = "1k".toList ∨ id = "5k".toList ∨ id = "10k".toList
  · rw [if_pos h1, if_pos h1]
    rfl
  · rw [if_neg h1, if_neg h1]
    have h2 : id = "0".toList := by
      rcases hid with e | e | e | e
      · exact absurd (.inl e) h1
      · exact absurd (.inr (.inl e)) h1
      · exact absurd (.inr (.inr e)) h1
      · exact e
    rw [if_pos h2, if_pos h2]
    rfl

/-! ## An example -/

/-- A call of `bpe` for names. -/
def learntCall (id : String) (names : List String) : TextCall :=
  ⟨.bpe id.toList {}, names.map fun n => (["Name"], n.toList), false, true, fun c => c⟩

theorem twoHome_q : ⟨"q_1".toList, some "q".toList, [xy1]⟩ ∈ (twoHome "q".toList).dirs := by
  simp [UserDir.dirs, twoHome]

/-- For the second dataset and one merge, what the theorems speak about is there. -/
theorem twoHome_merges : ∃ m ∈ ([xy1] : List MergesDir), ∃ ms v, Spec.Holds (datasetWords [("xy".toList, 2)] []) m ms v ∧ 1 ≤ ms.length ∧
    ms.length < sysMaxsize ∧ codesOnDisk asciiUcd ((twoHome "q".toList).bpeDisk fun _ => none) (learntCall "q-1" []).api
      ("q".toList ++ '-' :: natStr 1) = .ok ⟨addNonbpe [] [], ranked 0 (ms.take 1)⟩ := by
  rcases C75_codes asciiUcd_laws twoHome_history (fun _ => none) twoHome_q plainSettings_config plainName_q (by decide +kernel) [("xy".toList, 2)] []
    (by decide +kernel) "q".toList (by decide +kernel) (by decide) 1 (by decide) (learntCall "q-1" []).api with ⟨m, hm, ms, v, h1, h2, h3⟩ | ⟨h, -⟩
  · refine ⟨m, hm, ms, v, h1, h2, ?_, h3⟩
    obtain rfl := List.mem_singleton.mp hm
    have e := h1.name
    have e1 : xy1.name = natStr 1 := by decide +kernel
    rw [e1] at e
    rw [← natStr_inj e]
    decide
  · have : (codesOnDisk asciiUcd ((twoHome "q".toList).bpeDisk fun _ => none) (learntCall "q-1" []).api
      ("q".toList ++ '-' :: natStr 1)).toOption.isSome = true := by decide +kernel
    rw [h] at this
    cases this

/-- The hypotheses of the theorem on texts are met; the result. -/
example : (∃ m ∈ ([xy1] : List MergesDir), ∃ ms v, Spec.Holds (datasetWords [("xy".toList, 2)] []) m ms v ∧ 1 ≤ ms.length ∧
      (Wear.textApi demoEnv ((twoHome "q".toList).bpeDisk fun _ => none) (learntCall "q-1" ["xy", "yx", "xy"]) none).1 =
        textApi demoEnv (fun _ => .ok ⟨[], ranked 0 (ms.take 1)⟩) (learntCall "q-1" ["xy", "yx", "xy"]).api
          (learntCall "q-1" ["xy", "yx", "xy"]).lexed false) ∧
    tokensOfCalls ((twoHome "q".toList).bpeDisk fun _ => none) [learntCall "q-1" ["xy", "yx", "xy"], learntCall "p-2" ["abc"], learntCall "q-2" ["x"]] none =
      [.ok ["xy", "</t>", "y", "x", "</t>", "xy", "</t>"], .ok ["ab", "c</t>"], .error .invalidBpeCodesId] := by
  refine ⟨?_, by decide +kernel⟩
  obtain ⟨m, hm, ms, v, h1, h2, h3, -⟩ := twoHome_merges
  cases hp : convertText demoEnv.ucd (learntCall "q-1" ["xy", "yx", "xy"]).lexed with
  | error e =>
    have : (convertText demoEnv.ucd (learntCall "q-1" ["xy", "yx", "xy"]).lexed).toOption.isSome = true := by decide +kernel
    rw [hp] at this
    cases this
  | ok parsed =>
    exact C75_text demoEnv asciiUcd_laws twoHome_history (fun _ => none) twoHome_q plainSettings_config plainName_q (by decide +kernel) [("xy".toList, 2)] []
      (by decide +kernel) "q".toList (by decide +kernel) (by decide) 1 (by decide) ⟨m, hm, ms, v, h1, h2, h3⟩ (learntCall "q-1" ["xy", "yx", "xy"]) {}
      rfl none (.inr rfl) parsed hp (by simp)

/-- Applied to a word. -/
example : ∃ m ∈ ([xy1] : List MergesDir), ∃ ms v, Spec.Holds (datasetWords [("xy".toList, 2)] []) m ms v ∧
    ∃ subs, getBpeSubwords "xyx".toList ⟨addNonbpe [] [], ranked 0 (ms.take 1)⟩ = .ok subs ∧ MergedInOrder ((ms.take 1).map (·.1)) "xyx".toList subs := by
  obtain ⟨m, hm, ms, v, h1, -⟩ := twoHome_merges
  exact ⟨m, hm, ms, v, h1, (C75_word h1 1 (by decide) [] "xyx".toList (by decide)).2 (by simp)⟩

/-- Learning from the second dataset does not change the merges of the first one. -/
example : codesOnDisk asciiUcd ((twoHome "q".toList).bpeDisk fun _ => none) (learntCall "p-2" []).api ("p".toList ++ '-' :: natStr 2) =
    codesOnDisk asciiUcd ((UserDir.mk (some [⟨"p_1".toList, some "p".toList, [abc3]⟩]) [abcVocab, xyVocab]).bpeDisk fun _ => none) (learntCall "p-2" []).api
      ("p".toList ++ '-' :: natStr 2) := by
  have h1 : UserHistory asciiUcd twoWords ⟨none, [abcVocab]⟩ :=
    .vocab abcVocab .start (by simp) (by
      have e : twoWords abcVocab.name = ([("abc".toList, 1)], []) := by decide +kernel
      rw [e]
      exact abc_ready)
  have h2 : UserHistory asciiUcd twoWords ⟨some [⟨"p_1".toList, some "p".toList, [abc3]⟩], [abcVocab]⟩ :=
    .learn "/x/p".toList "p_1".toList plainSettings none 3 h1 plainSettings_config plainName_p (by decide +kernel) oneHome_learn
      fun _ => ⟨.made (by unfold Storable; decide +kernel) (by unfold NoSpecial; decide +kernel),
        ⟨"p_1".toList, some "p".toList, [abc3]⟩, by simp [UserDir.dirs], by decide +kernel, abc3, by simp, 3, by decide +kernel, by decide, by decide⟩
  have h3 : UserHistory asciiUcd twoWords ⟨some [⟨"p_1".toList, some "p".toList, [abc3]⟩], [abcVocab, xyVocab]⟩ :=
    .vocab xyVocab h2 (by decide +kernel) (by
      have e : twoWords xyVocab.name = ([("xy".toList, 2)], []) := by decide +kernel
      rw [e]
      exact ⟨rfl, ⟨_, rfl, by decide +kernel⟩, ⟨_, rfl, by decide +kernel⟩, by decide, by decide, by decide, by simp⟩)
  exact C75_keeps asciiUcd_laws h3 twoHome_learn twoHome_history (c := ⟨"p_1".toList, some "p".toList, [abc3]⟩) (by simp [UserDir.dirs])
    plainSettings_config plainName_p (by decide +kernel) (by decide +kernel) "p".toList (by decide +kernel) (by decide) 2 (by decide) _ _

end Verif.Props
