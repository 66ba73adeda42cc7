import Verif.Proofs.VocabExec
import Verif.Proofs.VocabStats
import Verif.Props.Files
import Verif.Props.Vocab
/-!
# Properties of the parallel calculation of a vocabulary: C30, C31, C32, C50
-/
namespace Verif.Props
open Verif Spec

/-- Two small partial vocabularies of the same chunk. -/
def twoParts : List (Dict Str Nat × Nat) := [([("a".toList, 1)], 0), ([("b".toList, 1), ("a".toList, 2)], 0)]

/-! ### C30: merging does not depend on the schedule -/

/-- C30: whatever happens, with any number of processes, any interleaving and any crashes, timeouts and restarts, what is in the
vocabulary file is a beginning of a text that has every word of all partial vocabularies once, with the sum of its
counts. -/
theorem C30_written {parts : List (Dict Str Nat × Nat)} {n : Nat} (hn : 0 < n) (hparts : ∀ p ∈ parts, (p.1.map (·.1)).Nodup)
    {dir : DumpDir} (hd : readyName ∉ dir.map (·.1)) {w : World} (h : Star (AnyStep parts n) (World.first dir) w)
    {text : Str} (ht : w.disk.vocab = some text) : ∃ rest, IsVocabFile (parts.map (·.1)) (text ++ rest) := by
  have hi := (reach_first hn hparts hd h).1.diskOk
  rcases hi with ⟨hv, _⟩ | ⟨d, ls, t, rest, h1, _, h3, h4⟩
  · rw [ht] at hv; cases hv
  · rw [ht] at h3
    cases h3
    exact ⟨rest, by rw [h4]; exact writeVocab_isVocabFile h1.isSum⟩

/-- The process works on the final files. -/
def finishing : PState → Prop
  | .collecting _ _ | .combining _ _ | .writingStats _ | .openVocab _ | .writingVocab _ _ | .removing => True
  | _ => False

/-- C30: a process that starts to collect the remaining vocabularies does so after all merges of other processes, and the
other processes have terminated; so only one process ever writes. -/
theorem C30_one_writer {parts : List (Dict Str Nat × Nat)} {n : Nat} (hn : 0 < n) (hparts : ∀ p ∈ parts, (p.1.map (·.1)).Nodup)
    {dir : DumpDir} (hd : readyName ∉ dir.map (·.1)) {dk : Disk} {q : Queues} {l r : List (PState × Bool)} {p : PState × Bool}
    (h : Star (AnyStep parts n) (World.first dir) ⟨dk, .running q (l ++ p :: r)⟩) (hp : finishing p.1) :
    q.mergesLeft = 0 ∧ ∀ x ∈ l ++ r, x.1 = .ended := by
  have hi := (reach_first hn hparts hd h).1
  cases (hi : RunInv _ _ dk q (l ++ p :: r)) with
  | normal tokens h1 _ _ =>
    have := h1.early p (by simp)
    cases hq : p.1 <;> simp [hq, finishing, PState.early, PState.hungry] at this hp
  | finish l' r' p' b he hend hf _ hm =>
    obtain ⟨rfl, rfl, rfl⟩ := unique_split he hend (by cases hq : p.1 <;> simp [hq, finishing] at hp ⊢)
    exact ⟨hm, hend⟩

/-- C30: if nothing goes wrong, then until the calculation has ended some process can make a step. -/
theorem C30_progress {parts : List (Dict Str Nat × Nat)} {n : Nat} (hn : 0 < n) (hparts : ∀ p ∈ parts, (p.1.map (·.1)).Nodup)
    {dir : DumpDir} (hd : readyName ∉ dir.map (·.1)) {w : World} (h : Star (WStep parts n) (World.first dir) w) :
    w.phase = .returned ∨ ∃ w', WStep parts n w w' := by
  obtain ⟨h1, h2⟩ := reach_good (E := False) hn hparts h (first_inv hd).1 ⟨.inl rfl, fun hr => absurd hr hd⟩
  exact h2.progress h1

/-- C30: no execution goes on forever, wherever it starts. -/
theorem C30_terminates (parts : List (Dict Str Nat × Nat)) (n : Nat) : WellFounded fun a b => WStep parts n b a :=
  Subrelation.wf (fun h => WStep.measure_lt h) (InvImage.wf (fun w : World => (w.phase.rank, w.inner)) lex5_wf)

/-- C30: if nothing goes wrong, then at the end the vocabulary file has every word of all partial vocabularies once, with the
sum of its counts; the file with statistics is complete; nothing is left in the directory. -/
theorem C30_result {parts : List (Dict Str Nat × Nat)} (hne : parts ≠ []) {n : Nat} (hn : 0 < n)
    (hparts : ∀ p ∈ parts, (p.1.map (·.1)).Nodup)
    {dir : DumpDir} (hd : readyName ∉ dir.map (·.1)) {dk : Disk} (h : Star (WStep parts n) (World.first dir) ⟨dk, .returned⟩) :
    (∃ text, dk.vocab = some text ∧ IsVocabFile (parts.map (·.1)) text) ∧
      (∃ d lines, IsSum (parts.map (·.1)) d ∧ dk.stats = some (.complete d.length lines)) ∧ dk.dir = [] := by
  obtain ⟨h1, h2⟩ := reach_good (E := False) hn hparts h (first_inv hd).1 ⟨.inl rfl, fun hr => absurd hr hd⟩
  rcases h2 with ⟨hc, he⟩ | he
  · obtain ⟨d, ls, text, h3, h4, h5, h6⟩ := hc.text
    exact ⟨⟨text, h5, h6⟩, ⟨d, ls, h3, h4⟩, he.resolve_right id⟩
  · exact absurd he hne

/-- C30: if nothing goes wrong, an execution can always be continued until the calculation has ended. -/
theorem C30_ends {parts : List (Dict Str Nat × Nat)} {n : Nat} (hn : 0 < n) (hparts : ∀ p ∈ parts, (p.1.map (·.1)).Nodup)
    {dir : DumpDir} (hd : readyName ∉ dir.map (·.1)) {w : World} (h : Star (WStep parts n) (World.first dir) w) :
    ∃ dk, Star (WStep parts n) w ⟨dk, .returned⟩ := by
  have hwf := (C30_terminates parts n).apply w
  induction hwf with
  | intro w _ ih =>
    rcases C30_progress hn hparts hd h with hr | ⟨w', hs⟩
    · obtain ⟨dk, ph⟩ := w
      cases hr
      exact ⟨dk, .refl⟩
    · obtain ⟨dk, hdk⟩ := ih w' hs (h.tail hs)
      exact ⟨dk, (Star.refl.tail hs).trans hdk⟩

example : 0 < 2 ∧ (∀ p ∈ twoParts, (p.1.map (·.1)).Nodup) ∧ readyName ∉ ([] : DumpDir).map (·.1) := by decide
example : ∃ dk, Star (WStep twoParts 2) (World.first []) ⟨dk, .returned⟩ := C30_ends (by decide) (by decide) (by decide) .refl
/-- The vocabulary file of the example: "a" three times and "b" once. -/
example : IsVocabFile (twoParts.map (·.1)) "a\t3\nb\t1\n".toList := by
  refine ⟨[("a".toList, 3), ("b".toList, 1)], ⟨by decide, fun w => ?_, fun w => ?_⟩, by decide, by decide⟩
  · constructor
    · intro h
      rcases List.mem_cons.mp h with rfl | h
      · exact ⟨_, List.mem_cons_self, by decide⟩
      · rcases List.mem_cons.mp h with rfl | h
        · exact ⟨_, List.mem_cons_of_mem _ List.mem_cons_self, by decide⟩
        · cases h
    · rintro ⟨t, ht, hw⟩
      rcases List.mem_cons.mp ht with rfl | ht
      · exact (by decide : ∀ w ∈ ["a".toList], w ∈ ["a".toList, "b".toList]) w hw
      · rcases List.mem_cons.mp ht with rfl | ht
        · exact (by decide : ∀ w ∈ ["b".toList, "a".toList], w ∈ ["a".toList, "b".toList]) w hw
        · cases ht
  · by_cases ha : "a".toList = w
    · subst ha; decide
    · by_cases hb : "b".toList = w
      · subst hb; decide
      · simp only [countIn, twoParts, List.filter_cons, List.map_cons, List.map_nil, List.filter_nil, ha, hb, decide_false,
          Bool.false_eq_true, if_false]
        rfl

/-! ### From the `.prep` files to the vocabulary -/

theorem zip_fst_eq {α β : Type} {l : List α} {m : List β} (h : l.length = m.length) : (l.zip m).map (·.1) = l := by
  apply List.map_fst_zip
  omega

/-- The partial vocabularies of some files have the words of the files. -/
theorem partialCounts_spec {texts : List Str} {parts : List (Dict Str Nat × Nat)} (h : partialCounts texts = .ok parts) :
    ∃ gs : List (List Str), gs.flatten.Perm texts ∧ parts.map (·.1) = gs.map getVocab := by
  unfold partialCounts fileGroups at h
  cases hg : groupify texts maxInitPartialVocabs with
  | error e => rw [hg] at h; cases h
  | ok gs =>
    rw [hg] at h
    refine ⟨gs, (C36_complete texts maxInitPartialVocabs (by decide) gs hg).1, ?_⟩
    simp only [bind, Except.bind] at h
    cases gs with
    | nil => cases h; rfl
    | cons g gs' =>
      simp only [chunkLabels_eq (g :: gs').length nChunks (by decide)] at h
      cases h
      rw [List.map_map]
      have : ((g :: gs').zip ((List.range (g :: gs').length).map (· % nChunks))).map
          ((fun p : Dict Str Nat × Nat => p.1) ∘ fun g => (getVocab g.1, g.2)) =
          (((g :: gs').zip ((List.range (g :: gs').length).map (· % nChunks))).map (·.1)).map getVocab := by
        rw [List.map_map]
        rfl
      rw [this, zip_fst_eq (by simp)]

/-- Every word is once in a vocabulary. -/
theorem getVocab_WF (texts : List Str) : (getVocab texts).WF := by
  suffices H : ∀ (texts : List Str) (d : Dict Str Nat), d.WF → (texts.foldl (fun d t => (readFileContents t).foldl
      (fun d line => counterUpdate d (pySplit ' ' line)) d) d).WF from H texts [] (by simp [Dict.WF, Dict.keys])
  intro texts
  induction texts with
  | nil => exact fun d h => h
  | cons t ts ih =>
    intro d h
    refine ih _ ?_
    simp only
    generalize readFileContents t = lines
    clear ih
    induction lines generalizing d with
    | nil => exact h
    | cons l ls ihl => exact ihl _ (counterUpdate_WF _ _ h)

/-- There are partial vocabularies for all files. -/
theorem partialCounts_ok (texts : List Str) : ∃ parts, partialCounts texts = .ok parts ∧
    (texts ≠ [] → parts ≠ []) := by
  unfold partialCounts fileGroups
  rw [C36_groups texts maxInitPartialVocabs (by decide)]
  simp only [bind, Except.bind]
  generalize hg : (List.range (min maxInitPartialVocabs texts.length)).map (fun i => atRemainder texts maxInitPartialVocabs i) = gs
  cases gs with
  | nil =>
    refine ⟨[], rfl, fun hne => ?_⟩
    have := congrArg List.length hg
    simp only [List.length_map, List.length_range, List.length_nil] at this
    have h2 : texts.length ≠ 0 := fun e => hne (List.length_eq_zero_iff.mp e)
    have h3 : maxInitPartialVocabs = 5120 := rfl
    omega
  | cons g gs' =>
    simp only [chunkLabels_eq (g :: gs').length nChunks (by decide)]
    refine ⟨_, rfl, fun _ => ?_⟩
    simp [List.range_succ_eq_map]

theorem map_preimage {α β : Type} {f : α → β} {ls : List α} {gs : List (List β)} (h : gs.flatten.Perm (ls.map f)) :
    ∃ gl : List (List α), gs = gl.map (List.map f) ∧ gl.flatten.Perm ls := by
  obtain ⟨m, h1, h2⟩ := perm_of_map h
  suffices H : ∀ (gs : List (List β)) (m : List α), gs.flatten = m.map f → ∃ gl : List (List α), gs = gl.map (List.map f) ∧ gl.flatten = m by
    obtain ⟨gl, h3, h4⟩ := H gs m h2
    exact ⟨gl, h3, h4 ▸ h1⟩
  intro gs
  induction gs with
  | nil =>
    intro m hm
    exact ⟨[], rfl, (by simpa using hm.symm)⟩
  | cons g gs ih =>
    intro m hm
    rw [List.flatten_cons] at hm
    obtain ⟨a, b, rfl, h1, h2⟩ := List.append_eq_map_iff.mp hm
    obtain ⟨gl, h3, h4⟩ := ih b h2.symm
    exact ⟨a :: gl, by rw [← h1, h3]; rfl, by rw [List.flatten_cons, h4]⟩

/-- C30: the vocabulary file calculated from `.prep` files, loaded through the API, maps exactly the subtokens that were written
to the `.prep` files to the number of times they were written, however the files were divided into partial vocabularies. -/
theorem C30_files {ls : List (List Str)} (hne : ∀ l ∈ ls, l ≠ []) (hsp : ∀ l ∈ ls, ∀ t ∈ l, ' ' ∉ t)
    {parts : List (Dict Str Nat × Nat)} (hparts : partialCounts (ls.map prepText) = .ok parts) {text : Str}
    (ht : IsVocabFile (parts.map (·.1)) text) :
    ∃ v : Dict Str Int, loadVocabDict text = .ok v ∧ v.WF ∧
      (∀ w, w ∈ v.keys ↔ w ∈ ls.flatten) ∧ (∀ w n, v.get? w = some n → n = (ls.flatten.count w : Int)) := by
  obtain ⟨gs, h1, h2⟩ := partialCounts_spec hparts
  obtain ⟨gl, rfl, h3⟩ := map_preimage h1
  obtain ⟨d, hd, rfl⟩ := ht.eq_writeVocab
  have hg : parts.map (·.1) = gl.map fun g => counterUpdate [] (g.flatten.map toLiteral) := by
    rw [h2, List.map_map]
    apply List.map_congr_left
    intro g hg
    have hsub : ∀ l ∈ g, l ∈ ls := fun l hl => h3.mem_iff.mp (List.mem_flatten.mpr ⟨g, hg, hl⟩)
    exact getVocab_prep g (fun l hl => hne l (hsub l hl)) (fun l hl => hsp l (hsub l hl))
  rw [hg] at hd
  have hp : (gl.map fun g => g.flatten).flatten.Perm ls.flatten := by
    have : (gl.map fun g => g.flatten).flatten = gl.flatten.flatten := by
      rw [List.flatten_flatten]
    rw [this]
    exact h3.flatten
  have hw0 : Dict.WF ([] : Dict Str Nat) := by simp [Dict.WF, Dict.keys]
  refine vocab_loads d ls.flatten hd.once (fun w => ?_) (fun w => ?_)
  · refine (hd.words w).trans ?_
    rw [← (hp.map toLiteral).mem_iff]
    constructor
    · rintro ⟨t, ht, hw⟩
      obtain ⟨g, hg, rfl⟩ := List.mem_map.mp ht
      have hw : w ∈ (counterUpdate [] (g.flatten.map toLiteral)).keys := hw
      rw [counterUpdate_keys] at hw
      simp only [Dict.keys, List.map_nil, List.not_mem_nil, or_false] at hw
      rw [List.map_flatten]
      exact List.mem_flatten.mpr ⟨_, List.mem_map_of_mem (List.mem_map_of_mem hg), hw⟩
    · intro hw
      rw [List.map_flatten, List.map_map] at hw
      obtain ⟨t, ht, hw⟩ := List.mem_flatten.mp hw
      obtain ⟨g, hg, rfl⟩ := List.mem_map.mp ht
      refine ⟨_, List.mem_map_of_mem hg, ?_⟩
      show w ∈ (counterUpdate [] (g.flatten.map toLiteral)).keys
      rw [counterUpdate_keys]
      exact .inl hw
  · rw [Dict.getD_eq_count hd.once, hd.counts w, ← (hp.map toLiteral).count_eq, List.map_map, List.map_flatten, List.map_map,
      List.count_flatten, List.map_map]
    congr 1
    apply List.map_congr_left
    intro g _
    show countIn (counterUpdate [] (g.flatten.map toLiteral)) w = _
    rw [← Dict.getD_eq_count (counterUpdate_WF _ _ hw0), counterUpdate_get]
    simp [Dict.get?]

/-- C30: from the `.prep` files to the loaded vocabulary, for every number of processes and every schedule. -/
theorem C30_end_to_end {ls : List (List Str)} (h0 : ls ≠ []) (hne : ∀ l ∈ ls, l ≠ []) (hsp : ∀ l ∈ ls, ∀ t ∈ l, ' ' ∉ t)
    {n : Nat} (hn : 0 < n) {dir : DumpDir} (hd : readyName ∉ dir.map (·.1)) :
    ∃ parts, partialCounts (ls.map prepText) = .ok parts ∧ ∀ dk, Star (WStep parts n) (World.first dir) ⟨dk, .returned⟩ →
      ∃ text, dk.vocab = some text ∧ ∃ v : Dict Str Int, loadVocabDict text = .ok v ∧ v.WF ∧
        (∀ w, w ∈ v.keys ↔ w ∈ ls.flatten) ∧ (∀ w n, v.get? w = some n → n = (ls.flatten.count w : Int)) := by
  obtain ⟨parts, hp, hp0⟩ := partialCounts_ok (ls.map prepText)
  refine ⟨parts, hp, fun dk h => ?_⟩
  obtain ⟨gs, h1, h2⟩ := partialCounts_spec hp
  have hnd : ∀ p ∈ parts, (p.1.map (·.1)).Nodup := by
    intro p hpm
    have : p.1 ∈ parts.map (·.1) := List.mem_map_of_mem hpm
    rw [h2] at this
    obtain ⟨g, _, hg⟩ := List.mem_map.mp this
    rw [← hg]
    exact getVocab_WF g
  obtain ⟨⟨text, h3, h4⟩, _⟩ := C30_result (hp0 (by simpa using h0)) hn hnd hd h
  exact ⟨text, h3, C30_files hne hsp hp h4⟩

example : partialCounts ([["a".toList, "b".toList], ["a".toList]].map prepText) =
    .ok [([("a".toList, 1), ("b".toList, 1)], 0), ([("a".toList, 1)], 1)] := by decide +kernel

/-! ### C31: crashes -/

/-- The vocabularies in the queues. -/
def queued (q : Queues) : List PVocab := (q.tasks.map (·.2)).flatten

/-- C31: whenever the program is started again after any crashes, also during earlier recoveries, and loads the partial
vocabularies, they have the same words and counts as the original ones: nothing is lost or counted twice. -/
theorem C31_preserved {parts : List (Dict Str Nat × Nat)} {n : Nat} (hn : 0 < n) (hparts : ∀ p ∈ parts, (p.1.map (·.1)).Nodup)
    {dir : DumpDir} (hd : readyName ∉ dir.map (·.1)) {dk : Disk} (h : Star (AnyStep parts n) (World.first dir) ⟨dk, .recovering [] none⟩)
    {dk' : Disk} {q : Queues} {ps : List (PState × Bool)} (hs : WStep parts n ⟨dk, .recovering [] none⟩ ⟨dk', .running q ps⟩) :
    (∀ w, ((queued q).map fun v => countIn v.counts w).sum = (parts.map fun p => countIn p.1 w).sum) ∧
      (∀ w, (∃ v ∈ queued q, w ∈ v.counts.map (·.1)) ↔ ∃ p ∈ parts, w ∈ p.1.map (·.1)) ∧
      ∀ v ∈ queued q, (v.counts.map (·.1)).Nodup := by
  have hi := (reach_first hn hparts hd (h.tail (.inl hs))).1
  have key : Stored (countAll parts) (wordAny parts) dk' (owned q.tasks ps) ∧ procItems ps = [] := by
    cases hs with
    | loaded hp hl =>
      refine ⟨?_, ?_⟩
      · cases (hi : RunInv _ _ _ _ _) with
        | normal _ _ _ hst => exact hst
        | finish l r p b he hend hf hst _ =>
          have : ∀ x ∈ l ++ (p, b) :: r, x = (PState.idle, true) := by
            rw [← he]; exact fun x hx => List.eq_of_mem_replicate hx
          have := this (p, b) (by simp)
          cases this
          exact hf.elim
      · unfold procItems
        rw [List.flatten_eq_nil_iff]
        intro x hx
        obtain ⟨y, hy, rfl⟩ := List.mem_map.mp hx
        rw [List.eq_of_mem_replicate hy]
        rfl
  obtain ⟨hst, hps⟩ := key
  unfold owned at hst
  rw [hps, List.append_nil] at hst
  refine ⟨fun w => ?_, fun w => ?_, fun v hv => ?_⟩
  · have := hst.2.count (.word w)
    unfold queueItems at this
    rw [List.map_map] at this
    exact this
  · refine Iff.trans ?_ (hst.2.word w)
    constructor
    · rintro ⟨v, hv, hw⟩; exact ⟨.done v, List.mem_map_of_mem hv, hw⟩
    · rintro ⟨it, hit, hw⟩
      obtain ⟨v, hv, rfl⟩ := List.mem_map.mp hit
      exact ⟨v, hv, hw⟩
  · exact (hst.1.ok (.done v) (List.mem_map_of_mem hv)).2.1

/-- C31: loading the partial vocabularies fails only because of a file that is cut off in such a way that loading it does not
raise an `EOFError`. -/
theorem C31_error {parts : List (Dict Str Nat × Nat)} {n : Nat} (hn : 0 < n) (hparts : ∀ p ∈ parts, (p.1.map (·.1)).Nodup)
    {dir : DumpDir} (hd : readyName ∉ dir.map (·.1)) {dk dk' : Disk} {todo : List Str} {cur : Option (Str × FinSt)}
    (h : Star (AnyStep parts n) (World.first dir) ⟨dk, .recovering todo cur⟩)
    (hs : WStep parts n ⟨dk, .recovering todo cur⟩ ⟨dk', .returned⟩) : ∃ name, (name, DumpFile.truncated false) ∈ dk.dir := by
  have hi := (reach_first hn hparts hd h).1
  cases hs with
  | @recoverRaised _ name st _ e hf =>
    obtain ⟨h1, items, h2, h3, it, rest, h4, h5, h6⟩ := hi
    rcases rec_step (h3.reorder h4) h6 with ⟨dir'', st'', it', e, _⟩ | ⟨dir'', it', e, _⟩ | ⟨_, hm⟩
    · rw [hf] at e; cases e
    · rw [hf] at e; cases e
    · exact ⟨_, hm⟩
  | @loadRaised _ names e hp hl =>
    obtain ⟨h1, items, h2, h3, h4⟩ := hi
    have hf : ∀ it ∈ items, it.opens = [] := by
      have : ((items.map MState.opens).flatten) = [] := List.Perm.eq_nil h4
      rw [List.flatten_eq_nil_iff] at this
      exact fun it hit => this _ (List.mem_map_of_mem hit)
    obtain ⟨ts, e', _⟩ := loadAll_ok (flat_holds h3.1 hf) hp
    rw [hl] at e'; cases e'

/-- C31: suppose the program has been started and killed any number of times, but never while it was writing the vocabulary
file, and no file is cut off in such a way that loading it does not raise an `EOFError`.  Then the next start, if nothing else
goes wrong, always can make a step until it ends, and it ends with a complete vocabulary. -/
theorem C31_recovery_partial {parts : List (Dict Str Nat × Nat)} (hne : parts ≠ []) {n : Nat} (hn : 0 < n)
    (hparts : ∀ p ∈ parts, (p.1.map (·.1)).Nodup)
    {dir : DumpDir} (hd : readyName ∉ dir.map (·.1)) {dk : Disk} (h : Star (QuietStep parts n) (World.first dir) ⟨dk, .start⟩)
    (hbad : ∀ e ∈ dk.dir, e.2 ≠ .truncated false) {w : World} (hw : Star (WStep parts n) ⟨dk, .start⟩ w) :
    (w.phase = .returned ∧ ∃ text, w.disk.vocab = some text ∧ IsVocabFile (parts.map (·.1)) text) ∨
      w.phase ≠ .returned ∧ ∃ w', WStep parts n w w' := by
  obtain ⟨h1, h2⟩ := reach_quiet hn hparts hd h
  obtain ⟨h3, h4⟩ := reach_good (E := True) hn hparts hw h1 ⟨Or.imp id (fun x => ⟨x, trivial⟩) h2, fun _ => hbad⟩
  by_cases hr : w.phase = .returned
  · left
    rw [hr] at h4
    rcases h4 with ⟨hc, _⟩ | he
    · obtain ⟨d, ls, text, _, _, h5, h6⟩ := hc.text
      exact ⟨hr, text, h5, h6⟩
    · exact absurd he hne
  · exact .inr ⟨hr, (h4.progress h3).resolve_left hr⟩

/-- The files after a crash in the middle of the first merge. -/
def crashed (eof : Bool) : Disk :=
  ⟨[("1.partvocab".toList, .vocab (PVocab.init [("a".toList, 1)] 0 "1".toList)),
    ("2.partvocab".toList, .vocab (PVocab.init [("b".toList, 1), ("a".toList, 2)] 0 "2".toList)),
    ("ready".toList, .mark), ("1_2_3.partvocab".toList, .truncated eof)], none, none⟩

/-- A crash can leave these files. -/
theorem crashed_reached (eof : Bool) : Star (QuietStep twoParts 1) (World.first []) ⟨crashed eof, .start⟩ := by
  have fresh : FreshId ((crashed eof).dir.take 3) "3".toList := by unfold FreshId IsId; decide +revert
  have h1 : WStep twoParts 1 (World.first []) ⟨⟨[], none, none⟩, .clearing⟩ := .fromScratch (by decide) rfl
  have h2 : WStep twoParts 1 ⟨⟨[], none, none⟩, .clearing⟩ ⟨⟨[], none, none⟩, .creating twoParts [] []⟩ := .cleared rfl (by decide)
  have h3 := WStep.dump (parts := twoParts) (n := 1) (dk := ⟨[], none, none⟩) (l := []) (d := [("a".toList, 1)]) (c := 0)
    (r := [([("b".toList, 1), ("a".toList, 2)], 0)]) (busy := []) (done := []) (id := "1".toList) (eof := true) (by unfold FreshId IsId; decide)
  have h4 := WStep.dumped (parts := twoParts) (n := 1) (dk := ⟨[("1.partvocab".toList, .truncated true)], none, none⟩)
    (todo := [([("b".toList, 1), ("a".toList, 2)], 0)]) (l := []) (v := PVocab.init [("a".toList, 1)] 0 "1".toList) (r := []) (done := [])
  have h5 := WStep.dump (parts := twoParts) (n := 1)
    (dk := ⟨[("1.partvocab".toList, .vocab (PVocab.init [("a".toList, 1)] 0 "1".toList))], none, none⟩)
    (l := []) (d := [("b".toList, 1), ("a".toList, 2)]) (c := 0) (r := []) (busy := [])
    (done := [PVocab.init [("a".toList, 1)] 0 "1".toList]) (id := "2".toList) (eof := true) (by unfold FreshId IsId; decide)
  have h6 := WStep.dumped (parts := twoParts) (n := 1)
    (dk := ⟨[("1.partvocab".toList, .vocab (PVocab.init [("a".toList, 1)] 0 "1".toList)),
      ("2.partvocab".toList, .truncated true)], none, none⟩)
    (todo := []) (l := []) (v := PVocab.init [("b".toList, 1), ("a".toList, 2)] 0 "2".toList) (r := [])
    (done := [PVocab.init [("a".toList, 1)] 0 "1".toList])
  have h7 := WStep.created (parts := twoParts) (n := 1)
    (dk := ⟨[("1.partvocab".toList, .vocab (PVocab.init [("a".toList, 1)] 0 "1".toList)),
      ("2.partvocab".toList, .vocab (PVocab.init [("b".toList, 1), ("a".toList, 2)] 0 "2".toList))], none, none⟩)
    (done := [PVocab.init [("a".toList, 1)] 0 "1".toList, PVocab.init [("b".toList, 1), ("a".toList, 2)] 0 "2".toList])
  have h8 := WStep.run (parts := twoParts) (n := 1) (.step (l := []) (r := []) (.take (dk := ⟨(crashed eof).dir.take 3, none, none⟩)
    (q := startQueues [PVocab.init [("a".toList, 1)] 0 "1".toList, PVocab.init [("b".toList, 1), ("a".toList, 2)] 0 "2".toList] 1)
    (c := 0) (r := [none]) rfl))
  have h9 := WStep.run (parts := twoParts) (n := 1) (.step (l := []) (r := []) (.first (dk := ⟨(crashed eof).dir.take 3, none, none⟩)
    (q := ⟨[none], [(0, [PVocab.init [("a".toList, 1)] 0 "1".toList, PVocab.init [("b".toList, 1), ("a".toList, 2)] 0 "2".toList])], 1, 1⟩)
    (c := 0) (v := PVocab.init [("a".toList, 1)] 0 "1".toList) (r := [PVocab.init [("b".toList, 1), ("a".toList, 2)] 0 "2".toList]) rfl))
  have h10 := WStep.run (parts := twoParts) (n := 1) (.step (l := []) (r := []) (.second (dk := ⟨(crashed eof).dir.take 3, none, none⟩)
    (q := ⟨[none], [(0, [PVocab.init [("b".toList, 1), ("a".toList, 2)] 0 "2".toList])], 1, 1⟩)
    (c := 0) (f := PVocab.init [("a".toList, 1)] 0 "1".toList) (v := PVocab.init [("b".toList, 1), ("a".toList, 2)] 0 "2".toList) (r := []) rfl))
  have h11 := WStep.run (parts := twoParts) (n := 1) (.step (l := []) (r := []) (.count (dk := ⟨(crashed eof).dir.take 3, none, none⟩)
    (q := ⟨[none], [(0, [])], 1, 1⟩)
    (c := 0) (f := PVocab.init [("a".toList, 1)] 0 "1".toList) (s := PVocab.init [("b".toList, 1), ("a".toList, 2)] 0 "2".toList) (n := 0) rfl))
  have h12 := WStep.run (parts := twoParts) (n := 1) (.step (l := []) (r := []) (.merge (dk := ⟨(crashed eof).dir.take 3, none, none⟩)
    (q := ⟨[none], [(0, [])], 1, 0⟩) (c := 0)
    (.create (f := PVocab.init [("a".toList, 1)] 0 "1".toList) (s := PVocab.init [("b".toList, 1), ("a".toList, 2)] 0 "2".toList)
      (id := "3".toList) (eof := eof) fresh)))
  have hq : ¬ World.writing ⟨crashed eof, .running ⟨[none], [(0, [])], 1, 0⟩ [(.merging 0 (.dumping
      (PVocab.init [("a".toList, 1)] 0 "1".toList) (PVocab.init [("b".toList, 1), ("a".toList, 2)] 0 "2".toList)
      (((PVocab.init [("a".toList, 1)] 0 "1".toList).addVocab (PVocab.init [("b".toList, 1), ("a".toList, 2)] 0 "2".toList)).1.renewId
        "3".toList) eof), true)]⟩ := by
    rintro ⟨q, ps, v, rest, b, e, hm⟩
    cases e
    simp at hm
  exact (((((((((((((Star.refl.tail (.inl h1)).tail (.inl h2)).tail (.inl h3)).tail (.inl h4)).tail (.inl h5)).tail
    (.inl h6)).tail (.inl h7)).tail (.inl h8)).tail (.inl h9)).tail (.inl h10)).tail (.inl h11)).tail (.inl h12)).tail
    (.inr ⟨.restart, hq⟩))

/-- **C31 is violated**: a crash while the result of a merge is being written can leave a file that makes every later
start fail, because loading it raises an exception that is not caught; the vocabulary is never written. -/
theorem C31_violated : Star (AnyStep twoParts 1) (World.first []) ⟨crashed false, .start⟩ ∧
    (∀ w, Star (AnyStep twoParts 1) ⟨crashed false, .start⟩ w → w.disk = crashed false) ∧
    (∀ w, Star (WStep twoParts 1) ⟨crashed false, .start⟩ w → (∀ w', ¬ WStep twoParts 1 w w') → w.phase = .returned) ∧
    (crashed false).vocab = none := by
  have key : ∀ w, Star (AnyStep twoParts 1) ⟨crashed false, .start⟩ w → w.disk = crashed false ∧
      (w.phase = .start ∨ w.phase = .recovering ["1_2_3.partvocab".toList] none ∨
        w.phase = .recovering [] (some ("1_2_3.partvocab".toList, .check)) ∨ w.phase = .returned) := by
    intro w h
    induction h with
    | refl => exact ⟨rfl, .inl rfl⟩
    | @tail b c _ hs ih =>
      obtain ⟨dk, ph⟩ := b
      obtain ⟨rfl, ih⟩ := ih
      rcases hs with hs | hs
      · rcases ih with ih | ih | ih | ih <;> simp only at ih <;> subst ih
        · cases hs with
          | exists_ h _ => cases h
          | @recover _ names _ _ hp =>
            refine ⟨rfl, .inr (.inl ?_)⟩
            have : (names.filter (fnmatch triplePattern)).Perm ["1_2_3.partvocab".toList] :=
              (hp.filter _).trans (by
                have e1 : fnmatch triplePattern "1.partvocab".toList = false := fnmatch_simple (a := "1".toList) (by unfold IsId; decide)
                have e2 : fnmatch triplePattern "2.partvocab".toList = false := fnmatch_simple (a := "2".toList) (by unfold IsId; decide)
                have e3 : fnmatch triplePattern "ready".toList = false := fnmatch_ready
                have e4 : fnmatch triplePattern "1_2_3.partvocab".toList = true :=
                  fnmatch_triple (a := "1".toList) (b := "2".toList) (c := "3".toList) (by unfold IsId; decide) (by unfold IsId; decide)
                    (by unfold IsId; decide)
                simp only [crashed, Dict.keys, List.map_cons, List.map_nil, List.filter_cons, List.filter_nil, e1, e2, e3, e4,
                  Bool.false_eq_true, if_false, if_true]
                exact List.Perm.refl _)
            show Phase.recovering _ none = _
            rw [List.perm_singleton.mp this]
          | fromScratch _ h => exact absurd h (by decide)
        · cases hs with
          | recoverFile => exact ⟨rfl, .inr (.inr (.inl rfl))⟩
        · have hf : finStep "1_2_3.partvocab".toList .check (crashed false).dir = .raised .unpicklingError := by rfl
          cases hs with
          | recoverNext h => rw [hf] at h; cases h
          | recoverLast h => rw [hf] at h; cases h
          | recoverRaised h => exact ⟨rfl, .inr (.inr (.inr rfl))⟩
        · cases hs
      · cases hs with
        | restart => exact ⟨rfl, .inl rfl⟩
        | run h => rcases ih with ih | ih | ih | ih <;> cases ih
  refine ⟨(crashed_reached false).mono fun _ _ => QuietStep.any, fun w h => (key w h).1, fun w h hstuck => ?_, rfl⟩
  obtain ⟨dk, ph⟩ := w
  obtain ⟨e, hk⟩ := key _ (h.mono fun _ _ => Or.inl)
  simp only at e hk
  subst e
  rcases hk with rfl | rfl | rfl | rfl
  · exact absurd (WStep.recover (by decide) (by decide) (List.Perm.refl _)) (hstuck _)
  · exact absurd WStep.recoverFile (hstuck _)
  · exact absurd (WStep.recoverRaised (e := .unpicklingError) rfl) (hstuck _)
  · rfl

/-- A recovery: the file that is cut off is removed and the two vocabularies are loaded. -/
example : ∃ dk dk' q ps, Star (AnyStep twoParts 1) (World.first []) ⟨dk, .recovering [] none⟩ ∧
    WStep twoParts 1 ⟨dk, .recovering [] none⟩ ⟨dk', .running q ps⟩ ∧ queued q ≠ [] := by
  have e1 : fnmatch triplePattern "1.partvocab".toList = false := fnmatch_simple (a := "1".toList) (by unfold IsId; decide)
  have e2 : fnmatch triplePattern "2.partvocab".toList = false := fnmatch_simple (a := "2".toList) (by unfold IsId; decide)
  have e3 : fnmatch triplePattern "ready".toList = false := fnmatch_ready
  have e4 : fnmatch triplePattern "1_2_3.partvocab".toList = true :=
    fnmatch_triple (a := "1".toList) (b := "2".toList) (c := "3".toList) (by unfold IsId; decide) (by unfold IsId; decide)
      (by unfold IsId; decide)
  have h1 := WStep.recover (parts := twoParts) (n := 1) (dk := crashed true) (by decide) (by decide) (List.Perm.refl _)
  have e : (Dict.keys (crashed true).dir).filter (fnmatch triplePattern) = ["1_2_3.partvocab".toList] := by
    simp only [crashed, Dict.keys, List.map_cons, List.map_nil, List.filter_cons, List.filter_nil, e1, e2, e3, e4,
      Bool.false_eq_true, if_false, if_true]
  rw [e] at h1
  have h2 := WStep.recoverFile (parts := twoParts) (n := 1) (dk := crashed true) (name := "1_2_3.partvocab".toList) (todo := [])
  have h3 := WStep.recoverLast (parts := twoParts) (n := 1) (dk := crashed true) (name := "1_2_3.partvocab".toList) (todo := [])
    (st := .check) (dir' := (crashed true).dir.take 3) rfl
  exact ⟨_, _, _, _, ((((crashed_reached true).mono fun _ _ => QuietStep.any).tail (.inl h1)).tail (.inl h2)).tail (.inl h3),
    .loaded (tasks := [PVocab.init [("a".toList, 1)] 0 "1".toList, PVocab.init [("b".toList, 1), ("a".toList, 2)] 0 "2".toList])
      (List.Perm.refl _) (by rfl), by decide⟩
example : Star (QuietStep twoParts 1) (World.first []) ⟨crashed true, .start⟩ ∧ ∀ e ∈ (crashed true).dir, e.2 ≠ .truncated false :=
  ⟨crashed_reached true, by decide⟩
example : ("1_2_3.partvocab".toList, DumpFile.truncated false) ∈ (crashed false).dir := by decide

/-! ### C32: an existing vocabulary -/

/-- C32: whenever a calculation starts or has ended, an existing vocabulary file is complete, if never anything goes wrong
while it is being written. -/
theorem C32_complete_partial {parts : List (Dict Str Nat × Nat)} {n : Nat} (hn : 0 < n)
    (hparts : ∀ p ∈ parts, (p.1.map (·.1)).Nodup)
    {dir : DumpDir} (hd : readyName ∉ dir.map (·.1)) {w : World} (h : Star (QuietStep parts n) (World.first dir) w)
    (hw : w.phase = .start ∨ w.phase = .returned) {text : Str} (ht : w.disk.vocab = some text) :
    IsVocabFile (parts.map (·.1)) text := by
  obtain ⟨h1, h2⟩ := reach_quiet hn hparts hd h
  have hset : Settled (countAll parts) (wordAny parts) w.disk := by
    rcases hw with e | e <;> rw [e] at h2 <;> exact h2
  rcases hset with hv | hc
  · rw [ht] at hv; cases hv
  · obtain ⟨d, ls, text', _, _, h5, h6⟩ := hc.text
    rw [ht] at h5
    cases h5
    exact h6

/-- One partial vocabulary. -/
def onePart : List (Dict Str Nat × Nat) := [([("a".toList, 1)], 0)]

/-- The files after a crash just when the vocabulary file has been opened for writing. -/
def opened : Disk :=
  ⟨[("1.partvocab".toList, .vocab (PVocab.init [("a".toList, 1)] 0 "1".toList)), ("ready".toList, .mark)], some (.complete 1 [(1, 1, 0)]), some []⟩

/-- A crash can leave these files. -/
theorem opened_reached : Star (AnyStep onePart 1) (World.first []) ⟨opened, .start⟩ := by
  have h1 : WStep onePart 1 (World.first []) ⟨⟨[], none, none⟩, .clearing⟩ := .fromScratch (by decide) rfl
  have h2 : WStep onePart 1 ⟨⟨[], none, none⟩, .clearing⟩ ⟨⟨[], none, none⟩, .creating onePart [] []⟩ := .cleared rfl (by decide)
  have h3 := WStep.dump (parts := onePart) (n := 1) (dk := ⟨[], none, none⟩) (l := []) (d := [("a".toList, 1)]) (c := 0)
    (r := []) (busy := []) (done := []) (id := "1".toList) (eof := true) (by unfold FreshId IsId; decide)
  have h4 := WStep.dumped (parts := onePart) (n := 1) (dk := ⟨[("1.partvocab".toList, .truncated true)], none, none⟩)
    (todo := []) (l := []) (v := PVocab.init [("a".toList, 1)] 0 "1".toList) (r := []) (done := [])
  have h5 := WStep.created (parts := onePart) (n := 1)
    (dk := ⟨[("1.partvocab".toList, .vocab (PVocab.init [("a".toList, 1)] 0 "1".toList))], none, none⟩)
    (done := [PVocab.init [("a".toList, 1)] 0 "1".toList])
  have h6 := WStep.run (parts := onePart) (n := 1) (.step (l := []) (r := []) (.takeEnd (dk := ⟨opened.dir, none, none⟩)
    (q := startQueues [PVocab.init [("a".toList, 1)] 0 "1".toList] 1) (r := []) rfl))
  have h7 := WStep.run (parts := onePart) (n := 1) (.step (l := []) (r := []) (.lastProcess (dk := ⟨opened.dir, none, none⟩)
    (q := ⟨[], [(0, [PVocab.init [("a".toList, 1)] 0 "1".toList])], 1, 0⟩) rfl))
  have h8 := WStep.run (parts := onePart) (n := 1) (.step (l := []) (r := []) (.collect (dk := ⟨opened.dir, none, none⟩)
    (q := ⟨[], [(0, [PVocab.init [("a".toList, 1)] 0 "1".toList])], 0, 0⟩) (c := 0) (todo := []) (got := [])
    (v := PVocab.init [("a".toList, 1)] 0 "1".toList) (r := []) rfl))
  have h9 := WStep.run (parts := onePart) (n := 1) (.step (l := []) (r := []) (.collected (dk := ⟨opened.dir, none, none⟩)
    (q := ⟨[], [(0, [])], 0, 0⟩) (got := []) (v := PVocab.init [("a".toList, 1)] 0 "1".toList)))
  have h10 := WStep.run (parts := onePart) (n := 1) (.step (l := []) (r := []) (.combined (dk := ⟨opened.dir, none, none⟩)
    (q := ⟨[], [(0, [])], 0, 0⟩) (v := PVocab.init [("a".toList, 1)] 0 "1".toList)))
  have h11 := WStep.run (parts := onePart) (n := 1) (.step (l := []) (r := []) (.statsWritten
    (dk := ⟨opened.dir, some .incomplete, none⟩)
    (q := ⟨[], [(0, [])], 0, 0⟩) (v := PVocab.init [("a".toList, 1)] 0 "1".toList) (n := 1) (ls := [(1, 1, 0)]) (by decide)))
  have h12 := WStep.run (parts := onePart) (n := 1) (.step (l := []) (r := []) (.vocabOpened
    (dk := ⟨opened.dir, some (.complete 1 [(1, 1, 0)]), none⟩)
    (q := ⟨[], [(0, [])], 0, 0⟩) (v := PVocab.init [("a".toList, 1)] 0 "1".toList)))
  exact (((((((((((((Star.refl.tail (.inl h1)).tail (.inl h2)).tail (.inl h3)).tail (.inl h4)).tail (.inl h5)).tail
    (.inl h6)).tail (.inl h7)).tail (.inl h8)).tail (.inl h9)).tail (.inl h10)).tail (.inl h11)).tail (.inl h12)).tail
    (.inr .restart))

/-- **C32 is violated**: a crash while the vocabulary file is being written can leave an incomplete file, which every later
start accepts. -/
theorem C32_violated : Star (AnyStep onePart 1) (World.first []) ⟨opened, .start⟩ ∧
    WStep onePart 1 ⟨opened, .start⟩ ⟨opened, .returned⟩ ∧
    (∀ w, Star (AnyStep onePart 1) ⟨opened, .start⟩ w → w.disk.vocab = some []) ∧
    ¬ IsVocabFile (onePart.map (·.1)) [] := by
  refine ⟨opened_reached, .exists_ rfl rfl, fun w h => ?_, ?_⟩
  · have key : w.disk = opened ∧ (w.phase = .start ∨ w.phase = .returned) := by
      induction h with
      | refl => exact ⟨rfl, .inl rfl⟩
      | @tail b c _ hs ih =>
        obtain ⟨dk, ph⟩ := b
        obtain ⟨rfl, ih⟩ := ih
        rcases hs with hs | hs
        · rcases ih with ih | ih <;> simp only at ih <;> subst ih
          · cases hs with
            | exists_ _ _ => exact ⟨rfl, .inr rfl⟩
            | recover h _ _ => exact absurd (by decide) h
            | fromScratch h _ => exact absurd (by decide) h
          · cases hs
        · cases hs with
          | restart => exact ⟨rfl, .inl rfl⟩
          | run h => rcases ih with ih | ih <;> cases ih
    rw [key.1]
    rfl
  · rintro ⟨d, h1, _, h3⟩
    have : "a".toList ∈ d.map (·.1) := (h1.words _).mpr ⟨_, List.mem_cons_self, by decide⟩
    cases d with
    | nil => cases this
    | cons e d =>
      rw [List.map_cons, List.flatten_cons] at h3
      have := congrArg List.length h3
      simp at this

/-! ### C50: the vocabulary size -/

/-- C50: whenever the file with statistics is complete, with any crashes, timeouts and restarts, the vocabulary size in it is the
number of different words of all partial vocabularies. -/
theorem C50_vocab_size {parts : List (Dict Str Nat × Nat)} {n : Nat} (hn : 0 < n)
    (hparts : ∀ p ∈ parts, (p.1.map (·.1)).Nodup)
    {dir : DumpDir} (hd : readyName ∉ dir.map (·.1)) {w : World} (h : Star (AnyStep parts n) (World.first dir) w)
    {m : Nat} {lines : List (Nat × Nat × Nat)} (hm : w.disk.stats = some (.complete m lines)) :
    ∃ words : List Str, words.Nodup ∧ (∀ x, x ∈ words ↔ ∃ p ∈ parts, x ∈ p.1.map (·.1)) ∧ m = words.length := by
  obtain ⟨v, h1, -, h2, h3⟩ := (reach_first hn hparts hd h).2 m lines hm
  obtain ⟨ls, h4⟩ := writeStats_ok h2
  rw [h3] at h4
  cases h4
  exact ⟨v.counts.keys, h1.wf, h1.word, by simp [Dict.keys]⟩

example : opened.stats = some (.complete 1 [(1, 1, 0)]) := rfl

/-- C50: whenever the file with statistics is complete, with any crashes, timeouts and restarts, its lines are in increasing order, the
first one has the means over all partial vocabularies, the last one is about the whole corpus, and no line has more words, or
more words that are not English, than the whole corpus. -/
theorem C50_statistics {parts : List (Dict Str Nat × Nat)} {n : Nat} (hn : 0 < n)
    (hparts : ∀ p ∈ parts, (p.1.map (·.1)).Nodup)
    {dir : DumpDir} (hd : readyName ∉ dir.map (·.1)) {w : World} (h : Star (AnyStep parts n) (World.first dir) w)
    {m : Nat} {lines : List (Nat × Nat × Nat)} (hm : w.disk.stats = some (.complete m lines)) :
    IsStatistics (parts.map (·.1)) m lines := by
  obtain ⟨v, h1, h2, h3, h4⟩ := (reach_first hn hparts hd h).2 m lines hm
  exact isStatistics hparts h1 h2 h3 h4

example : IsStatistics (onePart.map (·.1)) 1 [(1, 1, 0)] :=
  C50_statistics (n := 1) (by decide) (by decide) (by simp) opened_reached rfl

/-- Two partial vocabularies with words that are not English: the lines say that a single one has two words on average, three
times a word that is not English, and both together three words, seven times a word that is not English. -/
example : ((PVocab.init [("a".toList, 2), ("<non-en>".toList, 3)] 0 []).addVocab
    (PVocab.init [("<non-en>".toList, 4), ("b".toList, 1), ("a".toList, 1)] 0 [])).1.writeStats =
      .ok (3, [(1, 2, 3), (2, 3, 7)]) := by decide

end Verif.Props
