import Verif.Props.Closed
import Verif.Props.EndToEnd
/-!
# The number of different tokens with learnt merges (C75, C78)
-/
namespace Verif.Props
open Verif Spec

/-- **C75** All calls with the same identifier use the same merges, whatever their options, texts and earlier calls are. -/
theorem C75_texts (env : Env) (hu : env.ucd.Laws) {words : Str → List (Str × Nat) × List Str} {h : UserDir} (hh : UserHistory env.ucd words h)
    (shipped : BpeFile → Option Str) {c : CodesDir} (hc : c ∈ h.dirs) {dn : Str} {b : BpeConfig} (hb : IsBpeConfig b) (hp : PlainDataset dn)
    (hn : c.name = bpeDirName dn (some b)) (all : List (Str × Nat)) (nonBpe : List Str) (hw : words (baseBpeVocabDirName dn b) = (all, nonBpe))
    (id : Str) (hi : c.entry.codesId env.ucd = some id) (hid : '\n' ∉ id) (n : Nat) (h0 : 1 ≤ n)
    (hm : ∃ m ∈ c.subs, ∃ ms v, Spec.Holds (datasetWords all nonBpe) m ms v ∧ n ≤ ms.length ∧ ms.length < sysMaxsize) :
    ∃ m ∈ c.subs, ∃ ms v, Spec.Holds (datasetWords all nonBpe) m ms v ∧ n ≤ ms.length ∧
      ∀ (t : TextCall) (o : CommonOpts), t.api = .bpe (id ++ '-' :: natStr n) o → ∀ g, ¬ AsksReuse t ∨ g = none → ∀ parsed,
        convertText env.ucd t.lexed = .ok parsed →
        (∀ w ∈ needed env.ucd o (finishParsed parsed t.appendEof), escape w true ∉ nonBpe) →
        (Wear.textApi env (h.bpeDisk shipped) t g).1 = textApi env (fun _ => .ok ⟨[], ranked 0 (ms.take n)⟩) t.api t.lexed t.appendEof := by
  rcases C75_codes hu hh shipped hc hb hp hn all nonBpe hw id hi hid n h0 (.bpe (id ++ '-' :: natStr n) {}) with
    ⟨m, hm', ms, v, hhold, hle, hcodes0⟩ | ⟨-, hno⟩
  · refine ⟨m, hm', ms, v, hhold, hle, fun t o ht g hr parsed hparsed hkeep => ?_⟩
    have hcodes : codesOnDisk env.ucd (h.bpeDisk shipped) t.api (id ++ '-' :: natStr n) = .ok ⟨addNonbpe [] nonBpe, ranked 0 (ms.take n)⟩ := by
      rw [← hcodes0, C75_loaded env.ucd h shipped t.api id n h0 hid, C75_loaded env.ucd h shipped _ id n h0 hid]
    have hbpe : IsBpe t.api := by rw [ht]; trivial
    have hidt : apiBpeCodesId t.api = some (id ++ '-' :: natStr n) := by rw [ht]; rfl
    have hne : id ++ '-' :: natStr n ≠ [] := by simp
    have hopt : optsOf t.api = o := by rw [ht]; rfl
    obtain ⟨vv, hv, hvp⟩ := createStrValue_ok (optsOf t.api).noStr (optsOf t.api).maxStrLength
    have hcfg := (textConfig_eq t.api hv hvp).1
    have hres := (C63_call env (h.bpeDisk shipped) t g hbpe hr _ hidt hne _ hcodes parsed hparsed).1 (by
      rw [hopt]
      rintro ⟨w, ⟨c', l, e1, e2⟩, e3⟩
      have hwm : w ∈ needed env.ucd o (finishParsed parsed t.appendEof) := List.count_pos_iff.mp (by omega)
      simp only [fresh, Option.some.injEq] at e1
      rw [← e1, C53_cache, if_neg (hkeep w hwm)] at e2
      cases e2)
    rw [hres, textApi_loaded hidt hne hbpe hcodes hcfg hparsed,
      textApi_loaded (load := fun _ => .ok ⟨[], ranked 0 (ms.take n)⟩) hidt hne hbpe rfl hcfg hparsed]
    refine C75_needed env t.api hbpe _ hcfg _ _ _ fun w hwm => ?_
    rw [hopt] at hwm
    exact C53_no_effect nonBpe _ w (hkeep w hwm)
  · obtain ⟨m, hm', ms, v, h1, h2, h3⟩ := hm
    have := hno m hm' ms v h1 h2
    omega

/-- **C78** After merges have been learnt, all texts together that are split with the first `n` of them have at most
`2 * |A| + |K| + 10 + n` different tokens, whatever the options of the calls are. -/
theorem C78_learnt (env : Env) (hu : env.ucd.Laws) {words : Str → List (Str × Nat) × List Str} {h : UserDir} (hh : UserHistory env.ucd words h)
    (shipped : BpeFile → Option Str) {c : CodesDir} (hc : c ∈ h.dirs) {dn : Str} {b : BpeConfig} (hb : IsBpeConfig b) (hp : PlainDataset dn)
    (hn : c.name = bpeDirName dn (some b)) (all : List (Str × Nat)) (nonBpe : List Str) (hw : words (baseBpeVocabDirName dn b) = (all, nonBpe))
    (id : Str) (hi : c.entry.codesId env.ucd = some id) (hid : '\n' ∉ id) (n : Nat) (h0 : 1 ≤ n)
    (hm : ∃ m ∈ c.subs, ∃ ms v, Spec.Holds (datasetWords all nonBpe) m ms v ∧ n ≤ ms.length ∧ ms.length < sysMaxsize)
    {A : List Char} {K : List Str} (hA : Alphabet env.ucd A) (calls : List (TextCall × Option BpeState))
    (hcalls : ∀ x ∈ calls, WrittenIn A K x.1.lexed ∧ (¬ AsksReuse x.1 ∨ x.2 = none) ∧ ∃ o, x.1.api = .bpe (id ++ '-' :: natStr n) o ∧
      ∀ parsed, convertText env.ucd x.1.lexed = .ok parsed → ∀ w ∈ needed env.ucd o (finishParsed parsed x.1.appendEof), escape w true ∉ nonBpe)
    {V : List Str} (hV : V.Nodup)
    (hV' : ∀ t ∈ V, ∃ x ∈ calls, ∃ out md, (Wear.textApi env (h.bpeDisk shipped) x.1 x.2).1 = .ok (out, md) ∧ t ∈ out) :
    V.length ≤ 2 * A.length + K.length + 10 + n := by
  obtain ⟨m, -, ms, v, -, hle, htext⟩ := C75_texts env hu hh shipped hc hb hp hn all nonBpe hw id hi hid n h0 hm
  have hlen : V.length ≤ (knownTokens ⟨[], ranked 0 (ms.take n)⟩ A K).length := by
    refine hV.length_le_of_subset ?_
    intro t ht
    obtain ⟨x, hx, out, md, h1, h2⟩ := hV' t ht
    obtain ⟨hwr, hr, o, ho, hkeep⟩ := hcalls x hx
    obtain ⟨parsed, hparsed⟩ := C25_total env.ucd hu x.1.lexed
    rw [htext x.1 o ho x.2 hr parsed hparsed (hkeep parsed hparsed)] at h1
    obtain ⟨out', md', h3, h4⟩ := C78_tokens env hu (fun _ => .ok ⟨[], ranked 0 (ms.take n)⟩) x.1.api (i := id ++ '-' :: natStr n) (by rw [ho]; rfl)
      (by simp) rfl (fun w l e => by cases e) hA x.1.lexed hwr x.1.appendEof
    rw [h1] at h3
    cases h3
    exact known_mem (h4 t h2)
  rw [known_length, ranked_length, List.length_take] at hlen
  simp only [List.map_nil, List.sum_nil] at hlen
  omega

/-- The hypotheses are met by two texts that are split with one merge; they have four different tokens. -/
example : (["xy".toList, "</t>".toList, "y".toList, "x".toList] : List Str).length ≤ 2 * asciiAlphabet.length + ([] : List Str).length + 10 + 1 := by
  obtain ⟨m, hm, ms, v, h1, h2, h3, -⟩ := twoHome_merges
  refine C78_learnt demoEnv asciiUcd_laws twoHome_history (fun _ => none) twoHome_q plainSettings_config plainName_q (by decide +kernel) [("xy".toList, 2)] []
    (by decide +kernel) "q".toList (by decide +kernel) (by decide) 1 (by decide) ⟨m, hm, ms, v, h1, h2, h3⟩ (K := []) asciiAlphabet_ok
    [(learntCall "q-1" ["xy", "xy"], none), (learntCall "q-1" ["yx"], none)] ?_ (V := ["xy".toList, "</t>".toList, "y".toList, "x".toList]) (by decide) ?_
  · intro x hx
    simp only [List.mem_cons, List.not_mem_nil, or_false] at hx
    rcases hx with rfl | rfl
    · exact ⟨by unfold WrittenIn; decide +kernel, .inr rfl, {}, rfl, by simp⟩
    · exact ⟨by unfold WrittenIn; decide +kernel, .inr rfl, {}, rfl, by simp⟩
  · have e1 : ((Wear.textApi demoEnv ((twoHome "q".toList).bpeDisk fun _ => none) (learntCall "q-1" ["xy", "xy"]) none).1.toOption.map (·.1)) =
        some ["xy".toList, "</t>".toList, "xy".toList, "</t>".toList] := by decide +kernel
    have e2 : ((Wear.textApi demoEnv ((twoHome "q".toList).bpeDisk fun _ => none) (learntCall "q-1" ["yx"]) none).1.toOption.map (·.1)) =
        some ["y".toList, "x".toList, "</t>".toList] := by decide +kernel
    have key : ∀ {r : Except PyErr (List Str × Meta)} {l : List Str}, r.toOption.map (·.1) = some l → ∀ t ∈ l, ∃ out md, r = .ok (out, md) ∧ t ∈ out := by
      intro r l h t ht
      cases r with
      | error e => cases h
      | ok x => cases h; exact ⟨x.1, x.2, rfl, ht⟩
    intro t ht
    by_cases h : t ∈ ["xy".toList, "</t>".toList, "xy".toList, "</t>".toList]
    · exact ⟨(learntCall "q-1" ["xy", "xy"], none), by simp, key e1 t h⟩
    · refine ⟨(learntCall "q-1" ["yx"], none), by simp, key e2 t ?_⟩
      simp only [List.mem_cons, List.not_mem_nil, or_false] at ht h ⊢
      rcases ht with e | e | e | e
      · exact absurd (.inl e) h
      · exact absurd (.inr (.inl e)) h
      · exact .inl e
      · exact .inr (.inl e)

end Verif.Props
