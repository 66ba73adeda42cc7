import Verif.Props.Modes
import Verif.Proofs.BpeLearnMore
import Verif.Spec.Fewer
/-!
# Splitting with fewer merges
-/
namespace Verif.Props
open Verif Spec

/-! ## Fewer merges, fewer steps -/

theorem firstOf_ranksOk {few many : MergeList} (h : FirstOf few many) (hm : RanksOk many) : RanksOk few := by
  obtain ⟨k, h⟩ := h
  exact ⟨fun p q r hp hq => hm.inj p q r ((h p r).1 hp).1 ((h q r).1 hq).1, fun p r hp => hm.lt p r ((h p r).1 hp).1⟩

theorem firstOf_step {few many : MergeList} (h : FirstOf few many) {s t : List Str} (hs : Step few.priority? s t) :
    Step many.priority? s t := by
  obtain ⟨k, h⟩ := h
  obtain ⟨p, r, h1, h2, h3, h4⟩ := hs
  obtain ⟨g1, g2⟩ := (h p r).1 h1
  refine ⟨p, r, g1, h2, ?_, h4⟩
  intro q r' hq ha
  by_cases hr : r' < k
  · exact h3 q r' ((h q r').2 ⟨hq, hr⟩) ha
  · omega

theorem firstOf_steps {few many : MergeList} (h : FirstOf few many) {s t : List Str} (hs : Steps few.priority? s t) :
    Steps many.priority? s t := by
  induction hs with
  | refl s => exact .refl s
  | head h1 _ ih => exact .head (firstOf_step h h1) ih

/-- Steps lead on to the end. -/
theorem steps_final {m : MergeList} (hm : RanksOk m) {s t r : List Str} (h1 : Steps m.priority? s t) (h2 : Steps m.priority? s r)
    (hf : Final m.priority? r) : Steps m.priority? t r := by
  induction h1 with
  | refl s => exact h2
  | head h _ ih =>
    cases h2 with
    | refl =>
      obtain ⟨p, k, hp, ha, -⟩ := h
      rw [hf p ha] at hp
      cases hp
    | head g g2 =>
      obtain rfl := C02_spec_deterministic m hm _ _ _ h g
      exact ih g2

theorem replaceAll_coarsens (p : Str × Str) (s : List Str) : Coarsens (replaceAll p s) s := by
  induction s using replaceAll.induct p with
  | case1 => exact ⟨[], rfl, by simp, rfl⟩
  | case2 a => exact ⟨[[a]], rfl, by simp, by simp [replaceAll]⟩
  | case3 a b r h ih =>
    obtain ⟨g, h1, h2, h3⟩ := ih
    refine ⟨[a, b] :: g, by simp [h1], ?_, ?_⟩
    · intro x hx
      rcases List.mem_cons.1 hx with rfl | hx
      · simp
      · exact h2 x hx
    · rw [replaceAll, if_pos h, h3]; simp
  | case4 a b r h ih =>
    obtain ⟨g, h1, h2, h3⟩ := ih
    refine ⟨[a] :: g, by simp [h1], ?_, ?_⟩
    · intro x hx
      rcases List.mem_cons.1 hx with rfl | hx
      · simp
      · exact h2 x hx
    · rw [replaceAll, if_neg h, h3]; simp

theorem steps_coarsens {rank : Str × Str → Option Nat} {s t : List Str} (h : Steps rank s t) : Coarsens t s := by
  induction h with
  | refl s => exact ⟨s.map ([·]), by induction s with | nil => rfl | cons a r ih => simp [ih], by simp, by simp [Function.comp_def]⟩
  | head h _ ih =>
    obtain ⟨p, k, -, -, -, rfl⟩ := h
    exact ih.trans (replaceAll_coarsens _ _)

theorem coarsens_length {c f : List Str} (h : Coarsens c f) : c.length ≤ f.length := by
  obtain ⟨g, rfl, h2, rfl⟩ := h
  induction g with
  | nil => simp
  | cons x r ih =>
    have := ih fun y hy => h2 y (by simp [hy])
    have hx := List.length_pos_iff.2 (h2 x (by simp))
    simp only [List.map_cons, List.length_cons, List.flatten_cons, List.length_append] at this ⊢
    omega

/-- The same word encoded with more merges. -/
theorem encodeWord_fewer {few many : MergeList} (h : FirstOf few many) (hm : RanksOk many) {w : Str} (hs : ' ' ∉ w) {r r' : List Str}
    (hr : encodeWord (escape w true) many = .ok r) (hr' : encodeWord (escape w true) few = .ok r') : Coarsens r r' := by
  obtain ⟨x, g1, -, g2⟩ := encodeWord_escape w many hs
  obtain ⟨y, k1, -, k2⟩ := encodeWord_escape w few hs
  rw [hr] at g1
  rw [hr'] at k1
  cases g1
  cases k1
  obtain ⟨a1, a2⟩ := encodeLoop_steps hm _ _ _ g2
  obtain ⟨b1, -⟩ := encodeLoop_steps (firstOf_ranksOk h hm) _ _ _ k2
  exact steps_coarsens (steps_final hm (firstOf_steps h b1) a1 a2)

/-! ## From encoded to visible subtokens -/

/-- What is done with the last element is different. -/
def tailed (f : Str → Str) (e : Str) : List Str → List Str
  | [] => []
  | [x] => [f x ++ e]
  | x :: y :: r => f x :: tailed f e (y :: r)

theorem tailed_append (f : Str → Str) (e : Str) (p : List Str) {q : List Str} (h : q ≠ []) :
    tailed f e (p ++ q) = p.map f ++ tailed f e q := by
  induction p with
  | nil => rfl
  | cons x p ih =>
    cases hp : p ++ q with
    | nil => exact absurd (List.append_eq_nil_iff.1 hp).2 h
    | cons y r =>
      rw [List.cons_append, hp, tailed, ← hp, ih, List.map_cons, List.cons_append]

theorem tailed_length (f : Str → Str) (e : Str) (l : List Str) : (tailed f e l).length = l.length := by
  induction l using tailed.induct with
  | case1 => rfl
  | case2 x => rfl
  | case3 x y r ih => simp only [tailed, List.length_cons] at ih ⊢; rw [ih]

theorem tailed_markEnd (l : List Str) : markEnd l = tailed id "</t>".toList l := by
  induction l using markEnd.induct with
  | case1 => rfl
  | case2 x => rfl
  | case3 x y r ih => rw [markEnd, ih]; rfl

/-- A regrouping stays one when the last element is marked. -/
theorem coarsens_markEnd {l l' : List Str} (h : Coarsens l l') : Coarsens (markEnd l) (markEnd l') := by
  obtain ⟨g, rfl, h2, rfl⟩ := h
  by_cases hg : g = []
  · subst hg; exact ⟨[], rfl, by simp, rfl⟩
  obtain ⟨gi, gl, rfl⟩ : ∃ gi gl, g = gi ++ [gl] := ⟨g.dropLast, g.getLast hg, (List.dropLast_concat_getLast hg).symm⟩
  have hgl : gl ≠ [] := h2 gl (by simp)
  refine ⟨gi ++ [markEnd gl], ?_, ?_, ?_⟩
  · rw [tailed_markEnd, tailed_markEnd, List.flatten_append, List.flatten_append]
    simp only [List.flatten_cons, List.flatten_nil, List.append_nil]
    rw [tailed_append _ _ _ hgl, List.map_id]
  · intro x hx
    rcases List.mem_append.1 hx with hx | hx
    · exact h2 x (by simp [hx])
    · rw [List.mem_singleton.1 hx]
      intro e
      have := markEnd_len gl
      rw [e] at this
      exact hgl (List.length_eq_zero_iff.1 this.symm)
  · rw [List.map_append, List.map_append, tailed_markEnd, tailed_append _ _ _ (by simp), List.map_id]
    simp only [List.map_cons, List.map_nil, tailed, id]
    rw [markEnd_flatten hgl]

/-- The encoded form of a part of a word. -/
def coded (s : Str) : Str := (s.map unitOf).flatten

theorem coded_inj {a b : Str} (h : coded a = coded b) : a = b := by
  have := congrArg undoubleEsc h
  rwa [coded, coded, undouble_units, undouble_units] at this

theorem coded_flatten (l : List Str) : (l.map coded).flatten = coded l.flatten := by
  induction l with
  | nil => rfl
  | cons x r ih => rw [List.map_cons, List.flatten_cons, ih]; simp [coded]

theorem tailed_coded_flatten {l : List Str} (h : l ≠ []) : (tailed coded [escChar] l).flatten = coded l.flatten ++ [escChar] := by
  obtain ⟨a, b, rfl⟩ : ∃ a b, l = a ++ [b] := ⟨l.dropLast, l.getLast h, (List.dropLast_concat_getLast h).symm⟩
  rw [tailed_append _ _ _ (by simp), List.flatten_append, coded_flatten]
  simp [tailed, coded]

/-- Regroupings of encoded words are regroupings of what is visible. -/
theorem coarsens_visible (g : List (List Str)) (h2 : ∀ x ∈ g, x ≠ []) : ∀ (v v' : List Str), v' ≠ [] →
    g.flatten = tailed coded [escChar] v' → tailed coded [escChar] v = g.map List.flatten → Coarsens v v' := by
  induction g with
  | nil =>
    intro v v' hv' h1 _
    have := congrArg List.length h1
    rw [tailed_length] at this
    exact absurd (List.length_eq_zero_iff.1 this.symm) hv'
  | cons x xs ih =>
    intro v v' hv' h1 h3
    by_cases hxs : xs = []
    · subst hxs
      simp only [List.flatten_cons, List.flatten_nil, List.append_nil, List.map_cons, List.map_nil] at h1 h3
      have hl := congrArg List.length h3
      rw [tailed_length] at hl
      match v, hl with
      | [a], _ =>
        rw [h1, tailed_coded_flatten hv'] at h3
        simp only [tailed, List.cons.injEq, and_true] at h3
        have := coded_inj (List.append_inj' h3 rfl).1
        exact ⟨[v'], by simp, by simpa using hv', by simp [this]⟩
    · have hlen := congrArg List.length h1
      rw [tailed_length, List.flatten_cons, List.length_append] at hlen
      have hpos : 0 < xs.flatten.length := by
        cases xs with
        | nil => exact absurd rfl hxs
        | cons y ys =>
          have := List.length_pos_iff.2 (h2 y (by simp))
          rw [List.flatten_cons, List.length_append]
          omega
      have hq : v'.drop x.length ≠ [] := by
        intro e
        have := congrArg List.length e
        rw [List.length_drop] at this
        simp only [List.length_nil] at this
        omega
      have hsplit := tailed_append coded [escChar] (v'.take x.length) hq
      rw [List.take_append_drop, ← h1, List.flatten_cons] at hsplit
      obtain ⟨e1, e2⟩ := List.append_inj hsplit (by rw [List.length_map, List.length_take]; omega)
      have hl := congrArg List.length h3
      rw [tailed_length] at hl
      match v, hl, h3 with
      | [a], hl, _ =>
        simp only [List.length_map, List.length_cons, List.length_nil] at hl
        exact absurd (List.length_eq_zero_iff.1 (by omega)) hxs
      | a :: b :: r, _, h3 =>
        rw [tailed, List.map_cons, e1, coded_flatten] at h3
        injection h3 with h3a h3b
        obtain ⟨gs, k1, k2, k3⟩ := ih (fun y hy => h2 y (by simp [hy])) (b :: r) _ hq e2 h3b
        refine ⟨v'.take x.length :: gs, by rw [List.flatten_cons, k1, List.take_append_drop], ?_, ?_⟩
        · intro y hy
          rcases List.mem_cons.1 hy with rfl | hy
          · intro e
            rw [e] at e1
            exact h2 x (by simp) e1
          · exact k2 y hy
        · rw [List.map_cons, ← k3, coded_inj h3a]

/-! ## Words -/

/-- A genuine cache makes no difference. -/
theorem genuine_encoded {d : BpeData} (hg : GenuineWords d) {w : Str} (hs : ' ' ∉ w) {l : List Str} (h : getBpeSubwords w d = .ok l) :
    l ≠ [] ∧ encodeWord (escape w true) d.merges = .ok (tailed coded [escChar] l) := by
  have h' : getBpeSubwords w ⟨[], d.merges⟩ = .ok l := by
    unfold getBpeSubwords getBpeSubwordsSt at h ⊢
    cases hc : d.cache.get? (escape w true) with
    | some r =>
      simp only [hc] at h
      simp only [Dict.get?, hg _ _ hc]
      cases hu : unescape r with
      | error e => simp [hu, bind, Except.bind, Except.map] at h
      | ok x => simpa only [hu, bind, Except.bind, Except.map] using h
    | none =>
      simp only [hc] at h
      simp only [Dict.get?]
      cases he : encodeWord (escape w true) d.merges with
      | error e => simp [he, bind, Except.bind, Except.map] at h
      | ok r =>
        cases hu : unescape r with
        | error e => simp [he, hu, bind, Except.bind, Except.map] at h
        | ok x => simpa only [he, hu, bind, Except.bind, Except.map] using h
  obtain ⟨v, r, h1, -, h2, -, -, h3, h4⟩ := getBpeSubwords_miss w ⟨[], d.merges⟩ hs rfl
  unfold getBpeSubwords at h'
  rw [h2] at h'
  cases h'
  refine ⟨h3, ?_⟩
  rw [h1, h4]
  obtain ⟨a, b, rfl⟩ : ∃ a b, v = a ++ [b] := ⟨v.dropLast, v.getLast h3, (List.dropLast_concat_getLast h3).symm⟩
  rw [tailed_append _ _ _ (by simp)]
  simp [tailed, coded]

theorem subwords_fewer {d d' : BpeData} (hg : GenuineWords d) (hg' : GenuineWords d') (h : FirstOf d'.merges d.merges)
    (hm : RanksOk d.merges) {w : Str} (hs : ' ' ∉ w) {l l' : List Str} (hl : getBpeSubwords w d = .ok l)
    (hl' : getBpeSubwords w d' = .ok l') : Coarsens l l' := by
  obtain ⟨-, h2⟩ := genuine_encoded hg hs hl
  obtain ⟨k1, k2⟩ := genuine_encoded hg' hs hl'
  obtain ⟨g, j1, j2, j3⟩ := encodeWord_fewer h hm hs h2 k2
  exact coarsens_visible g j2 l l' k1 j1 j3

/-! ## Texts -/

theorem coarsens_refl (l : List Str) : Coarsens l l :=
  ⟨l.map ([·]), by induction l with | nil => rfl | cons a r ih => simp [ih], by simp, by simp [Function.comp_def]⟩

theorem spelledAny_fewer {u : Ucd} (hu : u.Laws) (hk : KeepsWhite u) {d d' : BpeData} (hg : GenuineWords d) (hg' : GenuineWords d')
    (hfm : FirstOf d'.merges d.merges) (hm : RanksOk d.merges)
    {p : Piece} {l l' : List Str} (hf : Fit p) (h : SpelledAny u (.bpe d) p l) (h' : SpelledAny u (.bpe d') p l') : Coarsens l l' := by
  cases h with
  | same hw h =>
    cases h with
    | space => cases h' with | same _ h' => cases h'; exact coarsens_refl _
    | fixed => cases h' with | same _ h' => cases h'; exact coarsens_refl _
    | constant => cases h' with | same _ h' => cases h'; exact coarsens_refl _
    | quotes => cases h' with | same _ h' => cases h'; exact coarsens_refl _
    | numberBpe h =>
      cases h' with
      | same _ h' =>
        cases h' with
        | numberBpe h' => exact subwords_fewer hg hg' hfm hm (hf.1 (.inr rfl)).2 h h'
    | wordBpe h => exact absurd rfl hw
    | literalBpe h =>
      cases h' with
      | same _ h' =>
        cases h' with
        | literalBpe h' => exact subwords_fewer hg hg' hfm hm (hf.2 rfl) h h'
  | wordBpe h1 h2 =>
    cases h' with
    | same hw _ => exact absurd rfl hw
    | wordBpe h1' h2' =>
      obtain rfl := identSplit_unique hu h1 h1'
      exact subwords_fewer hg hg' hfm hm (shown_white hk (c := ' ') (by simp) h1 (hf.1 (.inl rfl)).2) h2 h2'

theorem spelledAnyAll_fewer {u : Ucd} (hu : u.Laws) (hk : KeepsWhite u) {d d' : BpeData} (hg : GenuineWords d) (hg' : GenuineWords d')
    (hfm : FirstOf d'.merges d.merges) (hm : RanksOk d.merges)
    {ns : Bool} {ps : List Piece} {us vs : List FullTok} (hf : ∀ p ∈ ps, Fit p) (h : SpelledAnyAll u (.bpe d) ns ps us)
    (g : SpelledAnyAll u (.bpe d') ns ps vs) :
    us.length = vs.length ∧ ∀ x ∈ us.zip vs, Coarsens x.1.subs x.2.subs := by
  induction h generalizing vs with
  | nil => cases g; exact ⟨rfl, by simp⟩
  | skip h1 h2 _ ih =>
    cases g with
    | skip _ _ g => exact ih (fun p hp => hf p (by simp [hp])) g
    | cons g1 _ _ =>
      rcases g1 with g1 | g1
      · rw [h1] at g1; cases g1
      · exact absurd h2 g1
  | cons h1 h2 _ ih =>
    cases g with
    | skip g1 g2 _ =>
      rcases h1 with h1 | h1
      · rw [g1] at h1; cases h1
      · exact absurd g2 h1
    | cons _ g2 g =>
      obtain ⟨k1, k2⟩ := ih (fun p hp => hf p (by simp [hp])) g
      have j := spelledAny_fewer hu hk hg hg' hfm hm (hf _ (by simp)) h2 g2
      refine ⟨by simp [k1], ?_⟩
      intro x hx
      rw [List.zip_cons_cons] at hx
      rcases List.mem_cons.mp hx with rfl | hx
      · exact j
      · exact k2 x hx

theorem coarse_total : ∀ {gs hs : List (List Str)}, gs.length = hs.length → (∀ x ∈ gs.zip hs, Coarsens x.1 x.2) →
    gs.flatten.length ≤ hs.flatten.length
  | [], [], _, _ => by simp
  | a :: gs, b :: hs, hl, h => by
    have h1 : a.length ≤ b.length := coarsens_length (h (a, b) (by simp))
    have h2 := coarse_total (gs := gs) (hs := hs) (by simpa using hl) fun x hx => h x (by simp [hx])
    rw [List.flatten_cons, List.flatten_cons, List.length_append, List.length_append]
    omega
  | [], _ :: _, hl, _ => by simp at hl
  | _ :: _, [], hl, _ => by simp at hl

/-! ## Files of merges -/

/-- Merges are numbered by their positions. -/
def Numbered (m : MergeList) : Prop := Dict.WF m ∧ ∀ i (h : i < m.length), (m[i]).2.2 = i

theorem numbered_nil : Numbered [] := ⟨by simp [Dict.WF, Dict.keys], by intro i h; simp at h⟩

theorem numbered_priority {m : MergeList} (h : Numbered m) {p : Str × Str} {r : Nat} :
    m.priority? p = some r ↔ ∃ hr : r < m.length, (m[r]).1 = p := by
  unfold MergeList.priority?
  rw [Option.map_eq_some_iff]
  constructor
  · rintro ⟨e, h1, rfl⟩
    have := Dict.get?_some_mem h1
    obtain ⟨i, hi, he⟩ := List.getElem_of_mem this
    have h2 := h.2 i hi
    rw [he] at h2
    simp only at h2
    subst h2
    exact ⟨hi, by rw [he]⟩
  · rintro ⟨hr, rfl⟩
    refine ⟨(m[r]).2, ?_, h.2 r hr⟩
    exact Dict.mem_get? h.1 (List.getElem_mem hr)

theorem numbered_ranksOk {m : MergeList} (h : Numbered m) (hl : m.length ≤ sysMaxsize) : RanksOk m := by
  constructor
  · intro p q k hp hq
    obtain ⟨_, rfl⟩ := (numbered_priority h).1 hp
    obtain ⟨_, rfl⟩ := (numbered_priority h).1 hq
    rfl
  · intro p k hp
    obtain ⟨hk, -⟩ := (numbered_priority h).1 hp
    omega

theorem numbered_firstOf {few rest : MergeList} (h : Numbered few) (h2 : Numbered (few ++ rest)) : FirstOf few (few ++ rest) := by
  refine ⟨few.length, fun p r => ?_⟩
  rw [numbered_priority h, numbered_priority h2]
  constructor
  · rintro ⟨hr, rfl⟩
    exact ⟨⟨by rw [List.length_append]; omega, by rw [List.getElem_append_left hr]⟩, hr⟩
  · rintro ⟨⟨hr, rfl⟩, hk⟩
    exact ⟨hk, by rw [List.getElem_append_left hk]⟩

theorem set_length_le {α β : Type} [DecidableEq α] (d : Dict α β) (k : α) (v : β) :
    (d.set k v).length ≤ d.length + 1 ∧ ((d.set k v).length = d.length + 1 → k ∉ d.keys) := by
  induction d with
  | nil => exact ⟨by simp [Dict.set], by simp [Dict.keys]⟩
  | cons e d ih =>
    obtain ⟨k', v'⟩ := e
    simp only [Dict.set]
    by_cases hk : k' = k
    · rw [if_pos hk]
      exact ⟨by simp, by simp⟩
    · rw [if_neg hk]
      refine ⟨by simpa using ih.1, fun h => ?_⟩
      have := ih.2 (by simpa using h)
      simp only [Dict.keys, List.map_cons, List.mem_cons, not_or] at this ⊢
      exact ⟨fun e => hk e.symm, this⟩

theorem parseFileEntry_priority {line : Str} {i : Nat} {mg : Merge} (h : parseFileEntry line i = .ok mg) : mg.priority = some i := by
  unfold parseFileEntry at h
  cases hl : toNonLiteral line with
  | error e => simp [hl, bind, Except.bind] at h
  | ok x =>
    simp only [hl, bind, Except.bind] at h
    split at h
    · cases h; rfl
    · split at h
      · cases h
      · cases h; rfl
    · cases h

theorem append_grows {m r : MergeList} {mg : Merge} {i : Nat} (hp : mg.priority = some i) (h : m.append mg = .ok r) :
    i = m.length ∧ r = m.set mg.pair (mg.freq, i) := by
  unfold MergeList.append at h
  rw [hp] at h
  simp only at h
  split at h
  · cases h
  · next e => cases h; exact ⟨Classical.not_not.1 e, rfl⟩

theorem loop_grows (lines : List Str) : ∀ (i : Nat) (m r : MergeList), readMergesLoop none i m lines = .ok r →
    r.length ≤ m.length + lines.length ∧
      (r.length = m.length + lines.length → Numbered m → Numbered r ∧ ∃ rest, r = m ++ rest) := by
  induction lines with
  | nil =>
    intro i m r h
    simp only [readMergesLoop] at h
    cases h
    exact ⟨by simp, fun _ hn => ⟨hn, [], by simp⟩⟩
  | cons line lines ih =>
    intro i m r h
    simp only [readMergesLoop, limitReached, Bool.false_eq_true, if_false, bind, Except.bind] at h
    cases hp : parseFileEntry (rstripNl line) i with
    | error e => simp [hp] at h
    | ok mg =>
      simp only [hp] at h
      cases ha : m.append mg with
      | error e => simp [ha] at h
      | ok m' =>
        simp only [ha] at h
        obtain ⟨rfl, rfl⟩ := append_grows (parseFileEntry_priority hp) ha
        obtain ⟨h1, h2⟩ := ih _ _ _ h
        obtain ⟨s1, s2⟩ := set_length_le m mg.pair (mg.freq, m.length)
        refine ⟨by rw [List.length_cons]; omega, fun he hn => ?_⟩
        rw [List.length_cons] at he
        have hk := s2 (by omega)
        have hset := Dict.set_of_not_mem m mg.pair (mg.freq, m.length) hk
        obtain ⟨k1, rest, k2⟩ := h2 (by omega) (by
          rw [hset]
          refine ⟨?_, ?_⟩
          · have := hn.1
            unfold Dict.WF Dict.keys at this ⊢
            rw [List.map_append, List.nodup_append]
            refine ⟨this, by simp, ?_⟩
            intro a ha b hb e
            simp only [List.map_cons, List.map_nil, List.mem_singleton] at hb
            subst e
            subst hb
            exact hk ha
          · intro j hj
            by_cases hjm : j < m.length
            · rw [List.getElem_append_left hjm]; exact hn.2 j hjm
            · rw [List.length_append, List.length_singleton] at hj
              have : j = m.length := by omega
              subst this
              simp)
        exact ⟨k1, (mg.pair, (mg.freq, m.length)) :: rest, by rw [k2, hset]; simp⟩

theorem loop_append (a b : List Str) : ∀ (i : Nat) (m : MergeList), readMergesLoop none i m (a ++ b) =
    Except.bind (readMergesLoop none i m a) fun r => readMergesLoop none (i + a.length) r b := by
  induction a with
  | nil => intro i m; rfl
  | cons line a ih =>
    intro i m
    simp only [List.cons_append, readMergesLoop, limitReached, Bool.false_eq_true, if_false, bind]
    cases hp : parseFileEntry (rstripNl line) i with
    | error e => rfl
    | ok mg =>
      cases ha : m.append mg with
      | error e => simp only [Except.bind, ha]
      | ok m' =>
        simp only [Except.bind, ha]
        rw [ih, List.length_cons]
        have : i + 1 + a.length = i + (a.length + 1) := by omega
        rw [this]
        rfl

theorem loop_take (n : Nat) (lines : List Str) : ∀ (i : Nat) (m : MergeList), readMergesLoop (some (n + 1)) i m lines =
    readMergesLoop none i m (lines.take (n + 1 - i)) := by
  induction lines with
  | nil => intro i m; simp [readMergesLoop]
  | cons line lines ih =>
    intro i m
    by_cases hi : n + 1 ≤ i
    · have : n + 1 - i = 0 := by omega
      rw [this]
      simp [readMergesLoop, limitReached, hi]
    · have : n + 1 - i = (n + 1 - (i + 1)) + 1 := by omega
      rw [this, List.take_succ_cons]
      simp only [readMergesLoop]
      rw [if_neg (by simp [limitReached, hi]), if_neg (by simp [limitReached])]
      simp only [ih]

theorem read_fewer {t : Str} {m n : Nat} (hm : 1 ≤ m) (hmn : m ≤ n) {many : MergeList} (h : readMerges t (some n) = .ok many)
    (hr : NoneRepeated t n many) :
    ∃ few, readMerges t (some m) = .ok few ∧ NoneRepeated t m few ∧ FirstOf few many ∧ Numbered many := by
  obtain ⟨m, rfl⟩ : ∃ k, m = k + 1 := ⟨m - 1, by omega⟩
  obtain ⟨n, rfl⟩ : ∃ k, n = k + 1 := ⟨n - 1, by omega⟩
  unfold readMerges at h ⊢
  unfold NoneRepeated at hr ⊢
  rw [loop_take, Nat.sub_zero] at h ⊢
  have hsplit : (readLines t).take (n + 1) = (readLines t).take (m + 1) ++ ((readLines t).drop (m + 1)).take (n - m) := by
    have : n + 1 = (m + 1) + (n - m) := by omega
    rw [this, List.take_add]
  rw [hsplit, loop_append] at h
  cases hf : readMergesLoop none 0 [] ((readLines t).take (m + 1)) with
  | error e => rw [hf] at h; cases h
  | ok few =>
    rw [hf] at h
    simp only [Except.bind] at h
    obtain ⟨f1, f2⟩ := loop_grows _ _ _ _ hf
    obtain ⟨g1, g2⟩ := loop_grows _ _ _ _ h
    simp only [List.length_nil, Nat.zero_add, List.length_take, List.length_drop] at f1 f2 g1 g2
    obtain ⟨k1, -⟩ := f2 (by omega) numbered_nil
    obtain ⟨k2, rest, rfl⟩ := g2 (by omega) k1
    exact ⟨few, rfl, by omega, numbered_firstOf k1 k2, k2⟩

end Verif.Props
