import Verif.Proofs.WildInit
import Verif.Spec.WildStats
/-!
# The performance statistics of `wild_bpe`
-/
namespace Verif.Wild
open Verif Verif.Spec

/-! ## The keys of the location index -/

theorem wf_del {loc : Loc} (h : loc.WF) (k : Str) : (loc.del k).WF := by
  unfold Dict.WF Dict.keys Dict.del at *
  exact h.sublist (List.filter_sublist.map _)

theorem wf_record {loc : Loc} (h : loc.WF) (ch : List Change) (x d : Str) (l m : List Int) : (record loc ch x d l m).1.WF := by
  cases l with
  | nil => exact h
  | cons p r => exact Dict.WF_set h _ _

theorem wf_updateDouble {pair : Str} {main : List Int} {side : Side} {d : Str} {l : List Int} {s : Loc × List Change}
    {r : List Int × Loc × List Change} (hs : s.1.WF) (h : updateDouble pair main side d l s = .ok r) : r.2.1.WF := by
  unfold updateDouble at h
  cases h1 : canBeConcat d pair side with
  | error e => simp [h1, bind, Except.bind] at h
  | ok c =>
    simp only [h1, bind, Except.bind] at h
    split at h
    · cases h2 : positionShift pair d side with
      | error e => simp [h2] at h
      | ok s0 =>
        simp only [h2] at h
        cases h3 : positionShift pair d side.opposite with
        | error e => simp [h3] at h
        | ok s1 =>
          simp only [h3] at h
          cases h4 : mergeListsBoth main l s0 s1 with
          | error e => simp [h4] at h
          | ok m =>
            simp only [h4, pure, Except.pure, Except.ok.injEq] at h
            subst h
            exact wf_record hs _ _ _ _ _
    · simp only [pure, Except.pure, Except.ok.injEq] at h
      subst h
      exact hs

theorem wf_updateOne {pair : Str} {main : List Int} {dis : Option (List Int)} {side : Side} {s s' : Loc × List Change} {d : Str}
    (hs : s.1.WF) (h : updateOne pair main dis side s d = .ok s') : s'.1.WF := by
  unfold updateOne at h
  cases h1 : positionsOf pair dis side d s.1 with
  | error e => simp [h1, bind, Except.bind] at h
  | ok p =>
    simp only [h1, bind, Except.bind] at h
    cases p with
    | none =>
      simp only [pure, Except.pure, Except.ok.injEq] at h
      subst h
      exact hs
    | some l =>
      simp only at h
      cases h2 : updateDouble pair main side d l s with
      | error e => simp [h2] at h
      | ok r =>
        simp only [h2] at h
        cases h3 : concatPairs pair d side with
        | error e => simp [h3] at h
        | ok ap =>
          simp only [h3] at h
          cases h4 : positionShift pair d side with
          | error e => simp [h4] at h
          | ok sh =>
            simp only [h4, pure, Except.pure, Except.ok.injEq] at h
            subst h
            exact Dict.WF_set (wf_record (wf_updateDouble hs h2) _ _ _ _ _) _ _

theorem wf_loop {f : Loc × List Change → Str → Except PyErr (Loc × List Change)} (hf : ∀ s d s', s.1.WF → f s d = .ok s' → s'.1.WF) :
    ∀ (l : List Str) {s s' : Loc × List Change}, s.1.WF → loopM f l s = .ok s' → s'.1.WF
  | [], s, s', hs, h => by cases h; exact hs
  | x :: r, s, s', hs, h => by
    unfold loopM at h
    cases h1 : f s x with
    | error e => simp [h1, bind, Except.bind] at h
    | ok t =>
      simp only [h1, bind, Except.bind] at h
      exact wf_loop hf r (hf s x t hs h1) h

theorem wf_dropEmpty : ∀ (ds : List Str) {loc : Loc}, loc.WF → (dropEmpty loc ds).WF
  | [], _, h => h
  | d :: r, loc, h => by
    unfold dropEmpty
    split
    · exact wf_dropEmpty r (wf_del h d)
    · exact wf_dropEmpty r h

/-- The location index stays a dict: no key twice. -/
theorem wf_updateLocation {o : Order Entry} {loc : Loc} {nb : Nb} {pair : Str} {r : Loc × List Change} (hl : loc.WF)
    (h : updateLocation o loc nb pair = .ok r) : r.1.WF := by
  unfold updateLocation at h
  cases h1 : mainPositions loc nb pair with
  | error e => simp [h1, bind, Except.bind] at h
  | ok m =>
    simp only [h1, bind, Except.bind] at h
    cases h2 : loopM (updateOne pair m.1 m.2 .right) (o.iter ((nbs nb pair).at .right)) (loc, []) with
    | error e => simp [h2] at h
    | ok s =>
      simp only [h2] at h
      cases h3 : loopM (updateOne pair m.1 m.2 .left) (o.iter ((nbs nb pair).at .left)) s with
      | error e => simp [h3] at h
      | ok t =>
        simp only [h3, pure, Except.pure, Except.ok.injEq] at h
        subst h
        have hs := wf_loop (fun s d s' => wf_updateOne) _ (s := (loc, [])) hl h2
        have ht := wf_loop (fun s d s' => wf_updateOne) _ hs h3
        exact wf_del (wf_dropEmpty _ (wf_dropEmpty _ ht)) _

/-! ## The numbers of entries -/

open Classical in
/-- The pair a key stands for. -/
noncomputable def pairOfKey (s : List Str) (k : Str) : Str × Str :=
  if h : ∃ p : Str × Str, join p.1 p.2 = k ∧ Adjacent p s then h.choose else ([], [])

theorem adjacent_ns {s : List Str} (hs : NoSpace s) {p : Str × Str} (h : Adjacent p s) : NS p.1 ∧ NS p.2 := by
  obtain ⟨pre, post, rfl⟩ := h
  exact ⟨hs _ (by simp), hs _ (by simp)⟩

theorem key_iff {seg : Str → List Str} {s : List Str} {loc : Loc} {nb : Nb} {q : Queue} (h : MainInv seg s loc nb q) (hw : loc.WF) (k : Str) :
    k ∈ loc.map (·.1) ↔ ∃ p : Str × Str, join p.1 p.2 = k ∧ Adjacent p s := by
  constructor
  · intro hk
    obtain ⟨⟨k', l⟩, hm, rfl⟩ := List.mem_map.mp hk
    have hg := Dict.mem_get? hw hm
    have hne : kpos k' 0 s ≠ [] := by
      rw [← h.loc.look k']
      unfold look
      rw [hg]
      intro e
      exact h.loc.ne k' (hg.trans (congrArg some e))
    have hform : ∃ a b, NS a ∧ NS b ∧ k' = join a b := Classical.byContradiction fun hno =>
      hne (kpos_other h.ns 0 fun x y hx hy e => hno ⟨x, y, hx, hy, e⟩)
    obtain ⟨a, b, ha, hb, rfl⟩ := hform
    rw [kpos_join ha h.ns] at hne
    exact ⟨(a, b), rfl, (ppos_nonempty h.coh.ne).mp hne⟩
  · rintro ⟨⟨a, b⟩, rfl, hp⟩
    have hne := (ppos_nonempty h.coh.ne).mpr hp
    rw [← kpos_join (adjacent_ns h.ns hp).1 h.ns, ← h.loc.look] at hne
    unfold look at hne
    cases hg : loc.get? (join a b) with
    | none => rw [hg] at hne; exact absurd rfl hne
    | some l => exact List.mem_map.mpr ⟨_, (mem_iff_get? hw _ _).mpr hg, rfl⟩

theorem pairOfKey_join {s : List Str} (hs : NoSpace s) {p : Str × Str} (h : Adjacent p s) : pairOfKey s (join p.1 p.2) = p := by
  have hex : ∃ p' : Str × Str, join p'.1 p'.2 = join p.1 p.2 ∧ Adjacent p' s := ⟨p, rfl, h⟩
  unfold pairOfKey
  rw [dif_pos hex]
  obtain ⟨e, ha⟩ := hex.choose_spec
  obtain ⟨e1, e2⟩ := (join_inj (adjacent_ns hs ha).1 (adjacent_ns hs h).1).mp e
  exact Prod.ext e1 e2

/-- The index has one entry for every pair. -/
theorem hasPairs {seg : Str → List Str} {s : List Str} {loc : Loc} {nb : Nb} {q : Queue} (h : MainInv seg s loc nb q) (hw : loc.WF) :
    HasPairs s loc.length := by
  refine ⟨(loc.map (·.1)).map (pairOfKey s), ?_, ?_, by simp⟩
  · refine List.pairwise_map.mpr (hw.imp_of_mem ?_)
    intro a b ha hb hab e
    obtain ⟨p, rfl, hp⟩ := (key_iff h hw a).mp ha
    obtain ⟨r, rfl, hr⟩ := (key_iff h hw b).mp hb
    rw [pairOfKey_join h.ns hp, pairOfKey_join h.ns hr] at e
    exact hab (e ▸ rfl)
  · intro p
    constructor
    · intro hp
      obtain ⟨k, hk, rfl⟩ := List.mem_map.mp hp
      obtain ⟨r, rfl, hr⟩ := (key_iff h hw k).mp hk
      rwa [pairOfKey_join h.ns hr]
    · intro hp
      exact List.mem_map.mpr ⟨_, (key_iff h hw _).mpr ⟨p, rfl, hp⟩, pairOfKey_join h.ns hp⟩

/-- The queue has at least as many entries as the index. -/
theorem queue_more {seg : Str → List Str} {s : List Str} {loc : Loc} {nb : Nb} {q : Queue} (h : MainInv seg s loc nb q) (hw : loc.WF) :
    loc.length ≤ q.pq.length := by
  have : (loc.map (·.1)).length ≤ (q.pq.filterMap (·.key)).length := by
    refine List.Nodup.length_le_of_subset hw ?_
    intro k hk
    obtain ⟨p, rfl, hp⟩ := (key_iff h hw k).mp hk
    have hne := (ppos_nonempty h.coh.ne).mpr hp
    rw [← kpos_join (adjacent_ns h.ns hp).1 h.ns] at hne
    obtain ⟨c, r, e⟩ := List.exists_cons_of_ne_nil hne
    obtain ⟨x, hx, hxk⟩ := h.rep.ex (join p.1 p.2) _ (by rw [e]; rfl)
    exact List.mem_filterMap.mpr ⟨x, hx, hxk⟩
  rw [List.length_map] at this
  exact Nat.le_trans this (List.length_filterMap_le _ _)

/-! ## The run -/

theorem measured_iff {every : Int} (he : 0 < every) (i : Nat) : measured every i = true ↔ (i = 0 ∨ i = 1 ∨ every ∣ (i : Int)) := by
  unfold measured
  simp only [Bool.and_eq_true, Bool.or_eq_true, decide_eq_true_eq, he, true_and, ← Int.dvd_iff_emod_eq_zero]
  constructor
  · rintro (h | h)
    · exact .inr (.inl h)
    · exact .inr (.inr h)
  · rintro (h | h | h)
    · subst h; exact .inr (Int.dvd_zero _)
    · exact .inl h
    · exact .inr h

theorem tooMuch_iff (m : Memory) : tooMuch m = true ↔ ¬ WithinLimit m := by
  unfold tooMuch WithinLimit
  simp

theorem runStatsLoop_spec {o : Order Entry} (ho : AnyOrder o) (hh : IsHeap o) (mem : Measure) {every : Int} (he : 0 < every) :
    ∀ (n i : Nat) {seg : Str → List Str} {s : List Str} {loc : Loc} {nb : Nb} {q : Queue} {st : List StatEntry} {last : Option Memory},
      MainInv seg s loc nb q → loc.WF → (i = 0 ∨ ∃ m, last = some m ∧ WithinLimit m) →
      ∃ l, runStatsLoop o mem every n i loc nb q (some st) last = .ok l ∧ Reported every n i s st l := by
  intro n
  induction n with
  | zero => intro i seg s loc nb q st last _ _ _; exact ⟨[], rfl, .zero _ _ _⟩
  | succ n ih =>
    intro i seg s loc nb q st last h hw hlast
    have hpop := h.rep.popLoop hh (Nat.le_refl q.pq.length)
    unfold runStatsLoop Queue.popPair
    generalize Queue.popLoop o q.pq.length q = res at hpop
    cases res with
    | none =>
      refine ⟨[], rfl, .done _ _ s _ ?_⟩
      simp only at hpop
      cases s with
      | nil => simp
      | cons x r =>
        cases r with
        | nil => simp
        | cons y r =>
          have hadj : Adjacent (x, y) (x :: y :: r) := ⟨[], r, rfl⟩
          have := hpop (join x y)
          rw [kpos_join (h.ns x (by simp)) h.ns] at this
          obtain ⟨d, t, e⟩ := List.exists_cons_of_ne_nil ((ppos_nonempty h.coh.ne).mpr hadj)
          rw [e] at this; cases this
    | some w =>
      obtain ⟨k, occ, q'⟩ := w
      simp only at hpop
      obtain ⟨hrep, c0, hk, hmin⟩ := hpop
      have hform : ∃ a b, NS a ∧ NS b ∧ k = join a b := Classical.byContradiction fun hno => by
        rw [kpos_other h.ns 0 (fun x y hx hy e => hno ⟨x, y, hx, hy, e⟩)] at hk
        cases hk
      obtain ⟨a, b, ha, hb, rfl⟩ := hform
      rw [kpos_join ha h.ns] at hk
      obtain ⟨c, r, hp, hv⟩ := summ_some hk
      obtain ⟨rfl, rfl⟩ := Prod.mk.inj hv
      have hadj : Adjacent (a, b) s := (ppos_nonempty h.coh.ne).mp (by rw [hp]; simp)
      obtain ⟨loc', ch, nb', e1, e2, hinv, hocc⟩ := h.step ho hadj hrep
      have hbest := isBest_of h.coh.ne h.ns hadj hp hmin
      have hw' : loc'.WF := wf_updateLocation hw e1
      simp only [e1, e2, bind, Except.bind, pure, Except.pure]
      rw [hocc, join_eq]
      rw [join_eq] at hinv hocc
      generalize (applyChanges (a ++ ' ' :: b) ch q' (ppos a b 0 s).length).1 = q2 at *
      have hdesc : Describes (statEntry mem i loc' nb' q2) i (replaceAll (a, b) s) :=
        ⟨rfl, hasPairs hinv hw', queue_more hinv hw'⟩
      unfold takeStats isFull
      cases hm : measured every i with
      | true =>
        simp only [if_true, he]
        cases ht : tooMuch (mem loc' nb' q2) with
        | true =>
          refine ⟨_, rfl, ?_⟩
          exact .full hbest ((measured_iff he i).mp hm) hdesc ((tooMuch_iff _).mp ht)
        | false =>
          have hl : WithinLimit (mem loc' nb' q2) := Classical.byContradiction fun hn => by
            rw [(tooMuch_iff _).mpr hn] at ht; cases ht
          obtain ⟨l, e3, hr⟩ := ih (i + 1) hinv hw' (st := st ++ [statEntry mem i loc' nb' q2]) (last := some (mem loc' nb' q2))
            (.inr ⟨_, rfl, hl⟩)
          simp only [Bool.false_eq_true, if_false, e3]
          exact ⟨_, rfl, .entry hbest ((measured_iff he i).mp hm) hdesc hl hr⟩
      | false =>
        have hni : ¬ (i = 0 ∨ i = 1 ∨ every ∣ (i : Int)) := fun h => by rw [(measured_iff he i).mpr h] at hm; cases hm
        rcases hlast with rfl | ⟨m, rfl, hl⟩
        · exact absurd (.inl rfl) hni
        have ht : tooMuch m = false := by
          cases ht : tooMuch m with
          | false => rfl
          | true => exact absurd hl ((tooMuch_iff _).mp ht)
        obtain ⟨l, e3, hr⟩ := ih (i + 1) hinv hw' (st := st) (last := some m) (.inr ⟨_, rfl, hl⟩)
        simp only [Bool.false_eq_true, if_false, he, if_true, ht, e3]
        exact ⟨_, rfl, .quiet hbest hni hr⟩

/-- The beginning of a run. -/
theorem start_inv {s : List Str} (hs : Single s) (hne : s ≠ []) :
    ∃ loc nb es, buildIndices s = .ok (loc, nb) ∧ loc.mapM queueEntry = .ok es ∧ loc.WF ∧
      MainInv (fun x => x.map fun c => [c]) s loc nb (Queue.init es) := by
  obtain ⟨c, r, rfl⟩ := List.exists_cons_of_ne_nil hne
  have hb : BuildInv ([] ++ [c]) [] [] := by
    refine ⟨fun k => rfl, (fun k h => nomatch h), List.nodup_nil, ⟨?_, ?_, fun _ => List.nodup_nil, fun _ => List.nodup_nil, ?_⟩, ?_⟩
    · intro l r h; cases h
    · intro l r h; cases h
    · intro k; exact ⟨fun h => h, fun h => h⟩
    · intro p x y z r e
      have := congrArg List.length e
      simp at this; omega
  have h := buildLoop_spec r [] c none [] [] hs hb rfl
  obtain ⟨es, e1, hr⟩ := init_rep h
  exact ⟨_, _, es, rfl, e1, h.nodup, hs.coh, hs.ns, LocOK.mk h.look h.ne, h.nbi, fun p x y z t1 t2 t3 => by
      obtain ⟨p, r, e⟩ := triple_split hs.coh.ne t1 t2 t3
      exact h.cover p x y z r e, hr⟩

theorem runStats_spec {o : Order Entry} (ho : AnyOrder o) (hh : IsHeap o) (mem : Measure) {every : Int} (he : 0 < every) {s : List Str}
    (hs : Single s) (hne : s ≠ []) (n : Nat) :
    ∃ e l, runStats o mem every s n = .ok l ∧ Describes e 0 s ∧ Reported every n 0 s [e] l := by
  obtain ⟨loc, nb, es, h1, h2, h3, h4⟩ := start_inv hs hne
  obtain ⟨l, h5, h6⟩ := runStatsLoop_spec ho hh mem he n 0 (st := [statEntry mem 0 loc nb (Queue.init es)]) (last := none) h4 h3 (.inl rfl)
  refine ⟨statEntry mem 0 loc nb (Queue.init es), l, ?_, ⟨rfl, hasPairs h4 h3, queue_more h4 h3⟩, h6⟩
  unfold runStats
  simp only [h1, h2, bind, Except.bind]
  rw [if_pos (by omega)]
  exact h5

/-! ## Comparison with runs without statistics -/

theorem runStatsLoop_off {o : Order Entry} {mem : Measure} {every : Int} (he : every ≤ 0) : ∀ (n i : Nat) (loc : Loc) (nb : Nb) (q : Queue)
    (st : Option (List StatEntry)) (last : Option Memory),
    runStatsLoop o mem every n i loc nb q st last = (runLoop o n loc nb q).map fun l => l.map fun x => (x.1, x.2, st) := by
  intro n
  induction n with
  | zero => intros; rfl
  | succ n ih =>
    intro i loc nb q st last
    have hn : ¬ 0 < every := by omega
    unfold runStatsLoop runLoop
    cases hp : q.popPair o with
    | none => rfl
    | some w =>
      obtain ⟨pair, occ, q'⟩ := w
      simp only [bind, Except.bind, pure, Except.pure]
      cases h1 : updateLocation o loc nb pair with
      | error e => rfl
      | ok r =>
        simp only
        cases h2 : updateNb o r.1 nb pair with
        | error e => rfl
        | ok nb' =>
          have hm : measured every i = false := by simp [measured, hn]
          simp only [takeStats, hm, isFull, hn, if_false, Bool.false_eq_true, ih]
          cases runLoop o n r.1 nb' (applyChanges pair r.2 q' occ).1 with
          | error e => rfl
          | ok l => rfl

theorem runStatsLoop_on {o : Order Entry} {mem : Measure} {every : Int} (he : 0 < every) : ∀ (n i : Nat) {loc : Loc} {nb : Nb} {q : Queue}
    {st : List StatEntry} {last : Option Memory} {l : List (Str × Int)}, (i = 0 ∨ last ≠ none) → runLoop o n loc nb q = .ok l →
    ∃ l', runStatsLoop o mem every n i loc nb q (some st) last = .ok l' ∧ (l'.map fun x => (x.1, x.2.1)) <+: l ∧
      ((∀ m, last = some m → tooMuch m = false) → (∀ loc nb q, tooMuch (mem loc nb q) = false) → (l'.map fun x => (x.1, x.2.1)) = l) := by
  intro n
  induction n with
  | zero => intro i loc nb q st last l _ h; cases h; exact ⟨[], rfl, List.prefix_refl _, fun _ _ => rfl⟩
  | succ n ih =>
    intro i loc nb q st last l hlast h
    unfold runLoop at h
    unfold runStatsLoop
    cases hp : q.popPair o with
    | none => simp only [hp] at h ⊢; cases h; exact ⟨[], rfl, List.prefix_refl _, fun _ _ => rfl⟩
    | some w =>
      obtain ⟨pair, occ, q'⟩ := w
      simp only [hp, bind, Except.bind, pure, Except.pure] at h ⊢
      cases h1 : updateLocation o loc nb pair with
      | error e => simp [h1] at h
      | ok r =>
        simp only [h1] at h ⊢
        cases h2 : updateNb o r.1 nb pair with
        | error e => simp [h2] at h
        | ok nb' =>
          simp only [h2] at h ⊢
          generalize (applyChanges pair r.2 q' occ).1 = q2 at *
          cases h3 : runLoop o n r.1 nb' q2 with
          | error e => simp [h3] at h
          | ok l2 =>
            simp only [h3, Except.ok.injEq] at h
            subst h
            unfold takeStats isFull
            cases hm : measured every i with
            | true =>
              simp only [if_true, he]
              cases ht : tooMuch (mem r.1 nb' q2) with
              | true =>
                refine ⟨_, rfl, ?_, fun _ hall => ?_⟩
                · simp
                · rw [hall] at ht; cases ht
              | false =>
                obtain ⟨l', e, g1, g2⟩ := ih (i + 1) (st := st ++ [statEntry mem i r.1 nb' q2]) (last := some (mem r.1 nb' q2))
                  (.inr (by simp)) h3
                simp only [Bool.false_eq_true, if_false, e]
                refine ⟨_, rfl, ?_, fun _ hall => ?_⟩
                · simpa using g1
                · simp only [List.map_cons]
                  rw [g2 (fun m hm => by cases hm; exact ht) hall]
            | false =>
              have hni : ¬ (i = 0 ∨ i = 1 ∨ every ∣ (i : Int)) := fun h => by rw [(measured_iff he i).mpr h] at hm; cases hm
              cases last with
              | none =>
                rcases hlast with h | h
                · exact absurd (.inl h) hni
                · exact absurd rfl h
              | some m =>
                simp only [Bool.false_eq_true, if_false, he, if_true]
                cases ht : tooMuch m with
                | true =>
                  refine ⟨_, rfl, ?_, fun hl _ => ?_⟩
                  · simp
                  · rw [hl m rfl] at ht; cases ht
                | false =>
                  obtain ⟨l', e, g1, g2⟩ := ih (i + 1) (st := st) (last := some m) (.inr (by simp)) h3
                  simp only [Bool.false_eq_true, if_false, e]
                  refine ⟨_, rfl, ?_, fun hl hall => ?_⟩
                  · simpa using g1
                  · simp only [List.map_cons]
                    rw [g2 hl hall]

end Verif.Wild
