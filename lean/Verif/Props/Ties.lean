import Verif.Proofs.Ties
import Verif.Props.VocabMerge
import Verif.Spec.LearnDisk
/-!
# C88: Learning merges is reproducible unless pairs are equally frequent
-/
namespace Verif.Props
open Verif Spec

/-- **C88 (partial)** What is learnt depends on the frequencies of the words and not on their order, if no other pair was as frequent as
one that was merged.  Missing: with ties it depends on the order (`C88_order_violated`). -/
theorem C88_order_partial (words words' : Dict Str Nat) (hw : words.WF) (hp : ∀ e ∈ words, 0 < e.2) (h : words.Perm words') (n : Nat)
    (ms : List ((Str × Str) × Int)) (v : SplitVocab) (hl : doMerges (trainingVocab words) n = .ok (v, ranked 0 ms))
    (ht : NoTies (trainingVocab words) (ms.map (·.1))) :
    ∃ v', doMerges (trainingVocab words') n = .ok (v', ranked 0 ms) ∧ v.Perm v' := by
  obtain ⟨ms1, v1, h1, h2, h3, h4, -⟩ := learn_result words hw hp n
  have hw' : words'.WF := (h.map _).nodup_iff.1 hw
  obtain ⟨ms2, v2, g1, g2, g3, g4, -⟩ := learn_result words' hw' (fun e he => hp e (h.mem_iff.2 he)) n
  rw [hl] at h1
  obtain ⟨rfl, he⟩ := Prod.mk.inj (Except.ok.inj h1)
  obtain rfl := ranked_inj he
  obtain ⟨rfl, hv⟩ := learns_perm h2 g2 (h.map _) ht h3 h4 g3 g4
  exact ⟨v2, g1, hv⟩

/-- It is enough to look at the neighbours in the words. -/
theorem noTies_cons {v : List (List Str × Nat)} {p : Str × Str} {ms : List (Str × Str)} (h0 : 0 < weightedCount v p)
    (h : ∀ e ∈ v, ∀ q ∈ e.1.zip e.1.tail, q = p ∨ weightedCount v q < weightedCount v p) (hm : NoTies (mergeIn p v) ms) : NoTies v (p :: ms) := by
  refine .cons (fun q hq => ?_) hm
  rcases Nat.eq_zero_or_pos (weightedCount v q) with hz | hz
  · omega
  obtain ⟨s, f, hs, ha⟩ := weightedCount_pos hz
  refine (h _ hs q ?_).resolve_left hq
  obtain ⟨l, r, e⟩ := ha
  show q ∈ s.zip s.tail
  rw [e]
  clear e hs h
  induction l with
  | nil => exact List.mem_cons_self
  | cons c l ih =>
    cases l with
    | nil => exact List.mem_cons_of_mem _ ih
    | cons d l => exact List.mem_cons_of_mem _ ih

/-- The words of the examples. -/
def clearWords : Dict Str Nat := [("ab".toList, 2), ("abc".toList, 3), ("c".toList, 1)]

set_option synthInstance.maxSize 1000 in
theorem clearWords_learnt : doMerges (trainingVocab clearWords) 3 = .ok ([(["ab".toList, "@".toList], 2), (["abc@".toList], 3), (["c@".toList], 1)],
    ranked 0 [(("a".toList, "b".toList), 5), (("c".toList, "@".toList), 4), (("ab".toList, "c@".toList), 3)]) := by
  decide +kernel

theorem clearWords_clear : NoTies (trainingVocab clearWords)
    [("a".toList, "b".toList), ("c".toList, "@".toList), ("ab".toList, "c@".toList)] :=
  noTies_cons (by decide +kernel) (by decide +kernel) (noTies_cons (by decide +kernel) (by decide +kernel)
    (noTies_cons (by decide +kernel) (by decide +kernel) .nil))

/-- Non-vacuity: three merges are learnt from three words without ties, in whatever order the words are. -/
example (words' : Dict Str Nat) (h : clearWords.Perm words') :
    ∃ v', doMerges (trainingVocab words') 3 =
      .ok (v', ranked 0 [(("a".toList, "b".toList), 5), (("c".toList, "@".toList), 4), (("ab".toList, "c@".toList), 3)]) := by
  obtain ⟨v', h', -⟩ := C88_order_partial clearWords words' (by decide) (by decide) h 3 _ _ clearWords_learnt clearWords_clear
  exact ⟨v', h'⟩

/-- **C88** Words that are all `k` times as frequent lead to the same merges, each `k` times as frequent, and to the same splittings. -/
theorem C88_times (k : Nat) (hk : 0 < k) (v : SplitVocab) (n : Nat) :
    doMerges (timesWords k v) n = (doMerges v n).map fun x => (timesWords k x.1, timesMerges k x.2) := by
  unfold doMerges getStats
  rw [Times.statsDict_nums, Times.init_queue]
  exact Times.doMergesLoop_times hk n 0 v _ []

/-- Non-vacuity: seven times as frequent. -/
example : doMerges [(["a".toList, "b".toList, "@".toList], 14), (["a".toList, "b".toList, "c".toList, "@".toList], 21), (["c".toList, "@".toList], 7)] 3 =
    .ok ([(["ab".toList, "@".toList], 14), (["abc@".toList], 21), (["c@".toList], 7)],
      ranked 0 [(("a".toList, "b".toList), 35), (("c".toList, "@".toList), 28), (("ab".toList, "c@".toList), 21)]) := by
  refine (C88_times 7 (by decide) (trainingVocab clearWords) 3).trans ?_
  rw [clearWords_learnt]
  rfl

theorem loaded_perm {ls ls' : List (List Str)} (h : ls.flatten.Perm ls'.flatten) {v v' : Dict Str Int} (hv : v.WF) (hv' : v'.WF)
    (h1 : ∀ w, w ∈ v.keys ↔ w ∈ ls.flatten) (h2 : ∀ w n, v.get? w = some n → n = (ls.flatten.count w : Int))
    (g1 : ∀ w, w ∈ v'.keys ↔ w ∈ ls'.flatten) (g2 : ∀ w n, v'.get? w = some n → n = (ls'.flatten.count w : Int)) : v.Perm v' := by
  have nd : ∀ {v : Dict Str Int}, v.WF → v.Nodup := fun h => List.Nodup.of_map _ h
  refine (List.perm_ext_iff_of_nodup (nd hv) (nd hv')).2 ?_
  have one : ∀ {ls ls' : List (List Str)}, ls.flatten.Perm ls'.flatten → ∀ {v v' : Dict Str Int}, v.WF → v'.WF →
      (∀ w, w ∈ v.keys ↔ w ∈ ls.flatten) → (∀ w n, v.get? w = some n → n = (ls.flatten.count w : Int)) →
      (∀ w, w ∈ v'.keys ↔ w ∈ ls'.flatten) → (∀ w n, v'.get? w = some n → n = (ls'.flatten.count w : Int)) → ∀ e ∈ v, e ∈ v' := by
    intro ls ls' h v v' hv hv' h1 h2 g1 g2 e he
    obtain ⟨w, n⟩ := e
    have hk : w ∈ v'.keys := (g1 w).2 (h.mem_iff.1 ((h1 w).1 (List.mem_map_of_mem (f := (·.1)) he)))
    obtain ⟨⟨w', n'⟩, he', e⟩ := List.mem_map.1 hk
    simp only at e
    subst e
    have e1 := h2 _ _ (Dict.mem_get? hv he)
    have e2 := g2 _ _ (Dict.mem_get? hv' he')
    rw [e1, h.count_eq, ← e2]
    exact he'
  exact fun e => ⟨one h hv hv' h1 h2 g1 g2 e, one h.symm hv' hv g1 g2 h1 h2 e⟩

/-- **C88 (partial)** The merges learnt from a corpus are the same however many processes calculated its vocabulary, in whatever order the
files were listed and the partial vocabularies merged, if no other pair was as frequent as one that was merged.  Missing: with ties they
depend on the schedule (`C88_schedule_violated`). -/
theorem C88_schedule_partial {ls ls' : List (List Str)} (h0 : ls ≠ []) (hne : ∀ l ∈ ls, l ≠ []) (hsp : ∀ l ∈ ls, ∀ t ∈ l, ' ' ∉ t)
    (hperm : ls.Perm ls') {c c' : Nat} (hc : 0 < c) (hc' : 0 < c') {dir dir' : DumpDir} (hd : readyName ∉ dir.map (·.1))
    (hd' : readyName ∉ dir'.map (·.1)) :
    ∃ parts parts', partialCounts (ls.map prepText) = .ok parts ∧ partialCounts (ls'.map prepText) = .ok parts' ∧
      ∀ dk dk', Star (WStep parts c) (World.first dir) ⟨dk, .returned⟩ → Star (WStep parts' c') (World.first dir') ⟨dk', .returned⟩ →
      ∃ text text' all all', dk.vocab = some text ∧ dk'.vocab = some text' ∧
        loadVocabDict text = .ok (all.map fun e => (e.1, (e.2 : Int))) ∧ loadVocabDict text' = .ok (all'.map fun e => (e.1, (e.2 : Int))) ∧
        all.Perm all' ∧
        ∀ nonBpe n ms v, doMerges (trainingVocab (datasetWords all nonBpe).learnt) n = .ok (v, ranked 0 ms) →
          NoTies (trainingVocab (datasetWords all nonBpe).learnt) (ms.map (·.1)) →
          ∃ v', doMerges (trainingVocab (datasetWords all' nonBpe).learnt) n = .ok (v', ranked 0 ms) ∧ v.Perm v' := by
  have h0' : ls' ≠ [] := fun e => h0 (by rw [e] at hperm; exact hperm.eq_nil)
  obtain ⟨parts, hp, hr⟩ := C30_end_to_end h0 hne hsp hc hd
  obtain ⟨parts', hp', hr'⟩ := C30_end_to_end h0' (fun l hl => hne l (hperm.mem_iff.2 hl)) (fun l hl => hsp l (hperm.mem_iff.2 hl)) hc' hd'
  refine ⟨parts, parts', hp, hp', fun dk dk' hx hx' => ?_⟩
  obtain ⟨text, t1, v, t2, t3, t4, t5⟩ := hr dk hx
  obtain ⟨text', t1', v', t2', t3', t4', t5'⟩ := hr' dk' hx'
  have hv := loaded_perm hperm.flatten t3 t3' t4 t5 t4' t5'
  have pos : ∀ {ls : List (List Str)} {v : Dict Str Int}, v.WF → (∀ w, w ∈ v.keys ↔ w ∈ ls.flatten) →
      (∀ w n, v.get? w = some n → n = (ls.flatten.count w : Int)) → ∀ e ∈ v, 0 < e.2 := by
    intro ls v hv h1 h2 e he
    have := h2 _ _ (Dict.mem_get? hv (k := e.1) (v := e.2) he)
    have hm : e.1 ∈ ls.flatten := (h1 _).1 (List.mem_map_of_mem (f := (·.1)) he)
    have := List.count_pos_iff.2 hm
    omega
  have back : ∀ v : Dict Str Int, (∀ e ∈ v, 0 < e.2) → (v.map fun e => (e.1, e.2.toNat)).map (fun e => (e.1, (e.2 : Int))) = v := by
    intro v hv
    rw [List.map_map]
    refine (List.map_congr_left fun e he => ?_).trans (List.map_id v)
    have := hv e he
    show (e.1, ((e.2.toNat : Nat) : Int)) = e
    rw [Int.toNat_of_nonneg (by omega)]
  have hpos := pos t3 t4 t5
  refine ⟨text, text', v.map (fun e => (e.1, e.2.toNat)), v'.map (fun e => (e.1, e.2.toNat)), t1, t1', ?_, ?_, hv.map _, ?_⟩
  · rw [back v hpos]; exact t2
  · rw [back v' (pos t3' t4' t5')]; exact t2'
  · intro nonBpe n ms w hl ht
    refine C88_order_partial _ _ ?_ ?_ ((hv.map _).filter _) n ms w hl ht
    · have : (v.map fun e => (e.1, e.2.toNat)).map (·.1) = v.map (·.1) := by rw [List.map_map]; rfl
      exact ((List.filter_sublist).map _).nodup (by rw [this]; exact t3)
    · intro e he
      obtain ⟨x, hx, rfl⟩ := List.mem_map.1 (List.mem_filter.1 he).1
      have := hpos x hx
      show 0 < x.2.toNat
      omega

/-- Non-vacuity: the words of two files lead to the three merges whatever was first and however many processes there were. -/
example {c : Nat} (hc : 0 < c) : ∃ parts, partialCounts (["ab", "abc", "abc", "c"].map (·.toList) :: [["abc", "ab"].map (·.toList)] |>.map prepText) = .ok parts ∧
    ∀ dk, Star (WStep parts c) (World.first []) ⟨dk, .returned⟩ →
      ∃ text all, dk.vocab = some text ∧ loadVocabDict text = .ok (all.map fun e => (e.1, (e.2 : Int))) ∧
        ∀ nonBpe n ms v, doMerges (trainingVocab (datasetWords all nonBpe).learnt) n = .ok (v, ranked 0 ms) →
          NoTies (trainingVocab (datasetWords all nonBpe).learnt) (ms.map (·.1)) →
          ∀ dk', Star (WStep parts c) (World.first []) ⟨dk', .returned⟩ → ∃ text' all' v', dk'.vocab = some text' ∧
            loadVocabDict text' = .ok (all'.map fun e => (e.1, (e.2 : Int))) ∧
            doMerges (trainingVocab (datasetWords all' nonBpe).learnt) n = .ok (v', ranked 0 ms) := by
  obtain ⟨parts, parts', h1, h1', h2⟩ := C88_schedule_partial (ls := ["ab", "abc", "abc", "c"].map (·.toList) :: [["abc", "ab"].map (·.toList)])
    (by decide) (by decide) (by decide) (List.Perm.refl _) hc hc (dir := []) (dir' := []) (by decide) (by decide)
  obtain rfl : parts = parts' := Except.ok.inj (h1.symm.trans h1')
  refine ⟨parts, h1, fun dk hdk => ?_⟩
  obtain ⟨text, text', all, all', t1, t1', t2, t2', t3, t4⟩ := h2 dk dk hdk hdk
  refine ⟨text, all, t1, t2, fun nonBpe n ms v hl ht dk' hdk' => ?_⟩
  obtain ⟨text2, text2', all2, all2', u1, u1', u2, u2', u3, u4⟩ := h2 dk dk' hdk hdk'
  obtain rfl : text = text2 := Option.some.inj (t1.symm.trans u1)
  obtain rfl : all = all2 := by
    have := Except.ok.inj (t2.symm.trans u2)
    refine List.map_injective_iff.2 ?_ this
    intro a b e
    have e1 := congrArg Prod.fst e
    have e2 := congrArg Prod.snd e
    exact Prod.ext e1 (Int.ofNat.inj e2)
  obtain ⟨v', hv', -⟩ := u4 nonBpe n ms v hl ht
  exact ⟨text2', all2', v', u1', u2', hv'⟩

/-! ## Ties -/

/-- Two files with one word each. -/
def tieParts : List (Dict Str Nat × Nat) := [([("ab".toList, 1)], 0), ([("bc".toList, 1)], 0)]

/-- The partial vocabulary with the number `i`. -/
def tiePart (i : Str) (d : Dict Str Nat) : PVocab := PVocab.init d 0 i

/-- The two partial vocabularies merged. -/
def tieMerged (a b : Dict Str Nat) : PVocab := ((tiePart "1".toList a).addVocab (tiePart "2".toList b)).1.renewId "3".toList

/-- The directory while they are merged. -/
def tieDir (a b : Dict Str Nat) (rest : DumpDir) : DumpDir :=
  ("1.partvocab".toList, .vocab (tiePart "1".toList a)) :: ("2.partvocab".toList, .vocab (tiePart "2".toList b)) :: ("ready".toList, .mark) :: rest

/-- One process merges two partial vocabularies in the order in which they were finished. -/
theorem tie_run {a b : Dict Str Nat} {m : Nat} {ls : List (Nat × Nat × Nat)} (hs : (tieMerged a b).writeStats = .ok (m, ls))
    (hne : writeVocab (tieMerged a b).counts ≠ [])
    (h : Star (WStep tieParts 1) (World.first []) ⟨⟨[("1.partvocab".toList, .vocab (tiePart "1".toList a)),
      ("2.partvocab".toList, .vocab (tiePart "2".toList b))], none, none⟩, .creating [] [] [tiePart "1".toList a, tiePart "2".toList b]⟩) :
    Star (WStep tieParts 1) (World.first []) ⟨⟨[], some (.complete m ls), some (writeVocab (tieMerged a b).counts)⟩, .returned⟩ := by
  have s1 : Star (WStep tieParts 1) (World.first []) ⟨⟨tieDir a b [], none, none⟩,
      .running ⟨[some 0, none], [(0, [tiePart "1".toList a, tiePart "2".toList b])], 1, 1⟩ [(.idle, true)]⟩ := h.tail .created
  have s2 : Star (WStep tieParts 1) (World.first []) ⟨⟨tieDir a b [], none, none⟩,
      .running ⟨[none], [(0, [tiePart "1".toList a, tiePart "2".toList b])], 1, 1⟩ [(.assigned 0, true)]⟩ :=
    s1.tail (.run (.step (l := []) (r := []) (.take rfl)))
  have s3 : Star (WStep tieParts 1) (World.first []) ⟨⟨tieDir a b [], none, none⟩,
      .running ⟨[none], [(0, [tiePart "2".toList b])], 1, 1⟩ [(.holding 0 (tiePart "1".toList a), true)]⟩ :=
    s2.tail (.run (.step (l := []) (r := []) (.first (r := [tiePart "2".toList b]) rfl)))
  have s4 : Star (WStep tieParts 1) (World.first []) ⟨⟨tieDir a b [], none, none⟩,
      .running ⟨[none], [(0, [])], 1, 1⟩ [(.counting 0 (tiePart "1".toList a) (tiePart "2".toList b), true)]⟩ :=
    s3.tail (.run (.step (l := []) (r := []) (.second (r := []) rfl)))
  have s5 : Star (WStep tieParts 1) (World.first []) ⟨⟨tieDir a b [], none, none⟩,
      .running ⟨[none], [(0, [])], 1, 0⟩ [(.merging 0 (.ready (tiePart "1".toList a) (tiePart "2".toList b)), true)]⟩ :=
    s4.tail (.run (.step (l := []) (r := []) (.count rfl)))
  have fresh : FreshId (tieDir a b []) "3".toList := by
    refine ⟨by unfold IsId; decide, ?_⟩
    show ∀ name ∈ ["1.partvocab".toList, "2.partvocab".toList, "ready".toList], _
    decide
  have s6 : Star (WStep tieParts 1) (World.first []) ⟨⟨tieDir a b [("1_2_3.partvocab".toList, .truncated true)], none, none⟩,
      .running ⟨[none], [(0, [])], 1, 0⟩
        [(.merging 0 (.dumping (tiePart "1".toList a) (tiePart "2".toList b) (tieMerged a b) true), true)]⟩ :=
    s5.tail (.run (.step (l := []) (r := []) (.merge (.create fresh))))
  have s7 : Star (WStep tieParts 1) (World.first []) ⟨⟨tieDir a b [("1_2_3.partvocab".toList, .vocab (tieMerged a b))], none, none⟩,
      .running ⟨[none], [(0, [])], 1, 0⟩
        [(.merging 0 (.finishing (tiePart "1".toList a) (tiePart "2".toList b) (tieMerged a b) .check), true)]⟩ :=
    s6.tail (.run (.step (l := []) (r := []) (.merge .complete)))
  have s8 : Star (WStep tieParts 1) (World.first []) ⟨⟨tieDir a b [("1_2_3.partvocab".toList, .vocab (tieMerged a b))], none, none⟩,
      .running ⟨[none], [(0, [])], 1, 0⟩
        [(.merging 0 (.finishing (tiePart "1".toList a) (tiePart "2".toList b) (tieMerged a b) .first), true)]⟩ :=
    s7.tail (.run (.step (l := []) (r := []) (.merge (.next rfl))))
  have s9 : Star (WStep tieParts 1) (World.first []) ⟨⟨(tieDir a b [("1_2_3.partvocab".toList, .vocab (tieMerged a b))]).drop 1, none, none⟩,
      .running ⟨[none], [(0, [])], 1, 0⟩
        [(.merging 0 (.finishing (tiePart "1".toList a) (tiePart "2".toList b) (tieMerged a b) .second), true)]⟩ :=
    s8.tail (.run (.step (l := []) (r := []) (.merge (.next rfl))))
  have s10 : Star (WStep tieParts 1) (World.first []) ⟨⟨(tieDir a b [("1_2_3.partvocab".toList, .vocab (tieMerged a b))]).drop 2, none, none⟩,
      .running ⟨[none], [(0, [])], 1, 0⟩
        [(.merging 0 (.finishing (tiePart "1".toList a) (tiePart "2".toList b) (tieMerged a b) .rename), true)]⟩ :=
    s9.tail (.run (.step (l := []) (r := []) (.merge (.next rfl))))
  have s11 : Star (WStep tieParts 1) (World.first []) ⟨⟨[("ready".toList, .mark), ("3.partvocab".toList, .vocab (tieMerged a b))], none, none⟩,
      .running ⟨[none], [(0, [])], 1, 0⟩ [(.merging 0 (.done (tieMerged a b)), true)]⟩ :=
    s10.tail (.run (.step (l := []) (r := []) (.merge (.last rfl))))
  have s12 : Star (WStep tieParts 1) (World.first []) ⟨⟨[("ready".toList, .mark), ("3.partvocab".toList, .vocab (tieMerged a b))], none, none⟩,
      .running ⟨[none], [(0, [tieMerged a b])], 1, 0⟩ [(.idle, true)]⟩ :=
    s11.tail (.run (.step (l := []) (r := []) (.put (l := []) rfl)))
  have s13 : Star (WStep tieParts 1) (World.first []) ⟨⟨[("ready".toList, .mark), ("3.partvocab".toList, .vocab (tieMerged a b))], none, none⟩,
      .running ⟨[], [(0, [tieMerged a b])], 1, 0⟩ [(.stopping, true)]⟩ :=
    s12.tail (.run (.step (l := []) (r := []) (.takeEnd rfl)))
  have s14 : Star (WStep tieParts 1) (World.first []) ⟨⟨[("ready".toList, .mark), ("3.partvocab".toList, .vocab (tieMerged a b))], none, none⟩,
      .running ⟨[], [(0, [tieMerged a b])], 0, 0⟩ [(.collecting [0] [], true)]⟩ :=
    s13.tail (.run (.step (l := []) (r := []) (.lastProcess rfl)))
  have s15 : Star (WStep tieParts 1) (World.first []) ⟨⟨[("ready".toList, .mark), ("3.partvocab".toList, .vocab (tieMerged a b))], none, none⟩,
      .running ⟨[], [(0, [])], 0, 0⟩ [(.collecting [] [tieMerged a b], true)]⟩ :=
    s14.tail (.run (.step (l := []) (r := []) (.collect (r := []) rfl)))
  have s16 : Star (WStep tieParts 1) (World.first []) ⟨⟨[("ready".toList, .mark), ("3.partvocab".toList, .vocab (tieMerged a b))], none, none⟩,
      .running ⟨[], [(0, [])], 0, 0⟩ [(.combining (.done (tieMerged a b)) [], true)]⟩ :=
    s15.tail (.run (.step (l := []) (r := []) (.collected (got := []))))
  have s17 : Star (WStep tieParts 1) (World.first [])
      ⟨⟨[("ready".toList, .mark), ("3.partvocab".toList, .vocab (tieMerged a b))], some .incomplete, none⟩,
      .running ⟨[], [(0, [])], 0, 0⟩ [(.writingStats (tieMerged a b), true)]⟩ :=
    s16.tail (.run (.step (l := []) (r := []) .combined))
  have s18 : Star (WStep tieParts 1) (World.first [])
      ⟨⟨[("ready".toList, .mark), ("3.partvocab".toList, .vocab (tieMerged a b))], some (.complete m ls), none⟩,
      .running ⟨[], [(0, [])], 0, 0⟩ [(.openVocab (tieMerged a b), true)]⟩ :=
    s17.tail (.run (.step (l := []) (r := []) (.statsWritten hs)))
  have s19 : Star (WStep tieParts 1) (World.first [])
      ⟨⟨[("ready".toList, .mark), ("3.partvocab".toList, .vocab (tieMerged a b))], some (.complete m ls), some []⟩,
      .running ⟨[], [(0, [])], 0, 0⟩ [(.writingVocab (tieMerged a b) (writeVocab (tieMerged a b).counts), true)]⟩ :=
    s18.tail (.run (.step (l := []) (r := []) .vocabOpened))
  have s20 : Star (WStep tieParts 1) (World.first [])
      ⟨⟨[("ready".toList, .mark), ("3.partvocab".toList, .vocab (tieMerged a b))], some (.complete m ls),
        some (writeVocab (tieMerged a b).counts)⟩, .running ⟨[], [(0, [])], 0, 0⟩ [(.writingVocab (tieMerged a b) [], true)]⟩ := by
    have := PStep.write (dk := ⟨[("ready".toList, .mark), ("3.partvocab".toList, .vocab (tieMerged a b))], some (.complete m ls), some []⟩)
      (q := ⟨[], [(0, [])], 0, 0⟩) (v := tieMerged a b) (a := writeVocab (tieMerged a b).counts) (b := []) (t := []) hne rfl
    rw [List.append_nil] at this
    exact s19.tail (.run (.step (l := []) (r := []) this))
  have s21 : Star (WStep tieParts 1) (World.first [])
      ⟨⟨[("ready".toList, .mark), ("3.partvocab".toList, .vocab (tieMerged a b))], some (.complete m ls),
        some (writeVocab (tieMerged a b).counts)⟩, .running ⟨[], [(0, [])], 0, 0⟩ [(.removing, true)]⟩ :=
    s20.tail (.run (.step (l := []) (r := []) .written))
  have s22 : Star (WStep tieParts 1) (World.first [])
      ⟨⟨[("3.partvocab".toList, .vocab (tieMerged a b))], some (.complete m ls),
        some (writeVocab (tieMerged a b).counts)⟩, .running ⟨[], [(0, [])], 0, 0⟩ [(.removing, true)]⟩ :=
    s21.tail (.run (.step (l := []) (r := []) (.remove (l := []) rfl)))
  have s23 : Star (WStep tieParts 1) (World.first [])
      ⟨⟨[], some (.complete m ls), some (writeVocab (tieMerged a b).counts)⟩, .running ⟨[], [(0, [])], 0, 0⟩ [(.removing, true)]⟩ :=
    s22.tail (.run (.step (l := []) (r := []) (.remove (l := []) rfl)))
  have s24 : Star (WStep tieParts 1) (World.first [])
      ⟨⟨[], some (.complete m ls), some (writeVocab (tieMerged a b).counts)⟩, .running ⟨[], [(0, [])], 0, 0⟩ [(.ended, true)]⟩ :=
    s23.tail (.run (.step (l := []) (r := []) (.removed rfl)))
  exact s24.tail (.joined (by simp))

/-- The first of the two files is ready first. -/
theorem tie_first : Star (WStep tieParts 1) (World.first []) ⟨⟨[], some (.complete 2 [(1, 1, 0), (2, 2, 0)]), some "ab\t1\nbc\t1\n".toList⟩, .returned⟩ := by
  have h1 : Star (WStep tieParts 1) (World.first []) ⟨⟨[], none, none⟩, .creating tieParts [] []⟩ :=
    (Star.refl.tail (.fromScratch (by decide) rfl)).tail (.cleared rfl (by decide))
  have h2 := (h1.tail (.dump (l := []) (id := "1".toList) (eof := true) (by unfold FreshId IsId; decide))).tail (.dumped (l := []))
  have h3 := (h2.tail (.dump (l := []) (id := "2".toList) (eof := true)
    (by
      refine ⟨by unfold IsId; decide, ?_⟩
      show ∀ name ∈ ["1.partvocab".toList], _
      decide))).tail (.dumped (l := []))
  have := tie_run (a := [("ab".toList, 1)]) (b := [("bc".toList, 1)]) (m := 2) (ls := [(1, 1, 0), (2, 2, 0)]) (by decide +kernel) (by decide +kernel) h3
  exact (show writeVocab (tieMerged [("ab".toList, 1)] [("bc".toList, 1)]).counts = "ab\t1\nbc\t1\n".toList by decide +kernel) ▸ this

/-- The second of the two files is ready first. -/
theorem tie_second : Star (WStep tieParts 1) (World.first []) ⟨⟨[], some (.complete 2 [(1, 1, 0), (2, 2, 0)]), some "bc\t1\nab\t1\n".toList⟩, .returned⟩ := by
  have h1 : Star (WStep tieParts 1) (World.first []) ⟨⟨[], none, none⟩, .creating tieParts [] []⟩ :=
    (Star.refl.tail (.fromScratch (by decide) rfl)).tail (.cleared rfl (by decide))
  have h2 := (h1.tail (.dump (l := [([("ab".toList, 1)], 0)]) (id := "1".toList) (eof := true) (by unfold FreshId IsId; decide))).tail
    (.dumped (l := []))
  have h3 := (h2.tail (.dump (l := []) (id := "2".toList) (eof := true)
    (by
      refine ⟨by unfold IsId; decide, ?_⟩
      show ∀ name ∈ ["1.partvocab".toList], _
      decide))).tail (.dumped (l := []))
  have := tie_run (a := [("bc".toList, 1)]) (b := [("ab".toList, 1)]) (m := 2) (ls := [(1, 1, 0), (2, 2, 0)]) (by decide +kernel) (by decide +kernel) h3
  exact (show writeVocab (tieMerged [("bc".toList, 1)] [("ab".toList, 1)]).counts = "bc\t1\nab\t1\n".toList by decide +kernel) ▸ this

set_option synthInstance.maxSize 1000 in
/-- **C88 is violated** for ties: the same words in another order can lead to other merges, with which other words are split in another
way. -/
theorem C88_order_violated : ∃ (words words' : Dict Str Nat) (ms ms' : MergeList) (v v' : SplitVocab), words.Perm words' ∧ words.WF ∧
    (∀ e ∈ words, 0 < e.2) ∧ doMerges (trainingVocab words) 1 = .ok (v, ms) ∧ doMerges (trainingVocab words') 1 = .ok (v', ms') ∧
    getBpeSubwords "abc".toList ⟨[], ms⟩ ≠ getBpeSubwords "abc".toList ⟨[], ms'⟩ := by
  refine ⟨[("ab".toList, 1), ("bc".toList, 1)], [("bc".toList, 1), ("ab".toList, 1)], [(("a".toList, "b".toList), (some 1, 0))],
    [(("b".toList, "c".toList), (some 1, 0))], [(["ab".toList, "@".toList], 1), (["b".toList, "c".toList, "@".toList], 1)],
    [(["bc".toList, "@".toList], 1), (["a".toList, "b".toList, "@".toList], 1)], List.Perm.swap _ _ _, by decide, by decide, by decide +kernel,
    by decide +kernel, by decide +kernel⟩

set_option synthInstance.maxSize 1000 in
/-- **C88 is violated** for ties: which merges are learnt from a corpus can depend on which of its files was ready first when its
vocabulary was calculated. -/
theorem C88_schedule_violated : ∃ (dk dk' : Disk) (text text' : Str) (all all' : List (Str × Nat)) (ms ms' : MergeList) (v v' : SplitVocab),
    Star (WStep tieParts 1) (World.first []) ⟨dk, .returned⟩ ∧ Star (WStep tieParts 1) (World.first []) ⟨dk', .returned⟩ ∧
    dk.vocab = some text ∧ dk'.vocab = some text' ∧ loadVocabDict text = .ok (all.map fun e => (e.1, (e.2 : Int))) ∧
    loadVocabDict text' = .ok (all'.map fun e => (e.1, (e.2 : Int))) ∧
    doMerges (trainingVocab (datasetWords all []).learnt) 1 = .ok (v, ms) ∧ doMerges (trainingVocab (datasetWords all' []).learnt) 1 = .ok (v', ms') ∧
    getBpeSubwords "abc".toList ⟨[], ms⟩ ≠ getBpeSubwords "abc".toList ⟨[], ms'⟩ := by
  refine ⟨_, _, _, _, [("ab".toList, 1), ("bc".toList, 1)], [("bc".toList, 1), ("ab".toList, 1)], [(("a".toList, "b".toList), (some 1, 0))],
    [(("b".toList, "c".toList), (some 1, 0))], [(["ab".toList, "@".toList], 1), (["b".toList, "c".toList, "@".toList], 1)],
    [(["bc".toList, "@".toList], 1), (["a".toList, "b".toList, "@".toList], 1)], tie_first, tie_second, rfl, rfl, by decide +kernel,
    by decide +kernel, by decide +kernel, by decide +kernel, by decide +kernel⟩

end Verif.Props
