import Verif.Proofs.VocabRun
/-!
# The invariant of the merger processes is kept
-/
namespace Verif
open Spec

theorem keys_set_of_get? {β : Type} {t : Dict Nat β} {c : Nat} {x y : β} (h : t.get? c = some x) : (t.set c y).keys = t.keys := by
  obtain ⟨l, r, h1, h2⟩ := dict_split h
  rw [h2, h1]
  simp [Dict.keys]

theorem get?_mem_keys {β : Type} {t : Dict Nat β} {c : Nat} {x : β} (h : t.get? c = some x) : c ∈ t.keys := by
  obtain ⟨l, r, h1, -⟩ := dict_split h
  rw [h1]; simp [Dict.keys]

theorem mem_keys_get? {β : Type} {t : Dict Nat β} {c : Nat} (h : c ∈ t.keys) : ∃ x, t.get? c = some x := by
  induction t with
  | nil => simp [Dict.keys] at h
  | cons e t ih =>
    obtain ⟨k, v⟩ := e
    by_cases hk : k = c
    · exact ⟨v, by simp [Dict.get?, hk]⟩
    · have : c ∈ Dict.keys t := by simpa [Dict.keys, Ne.symm hk, eq_comm] using h
      simpa only [Dict.get?, hk, if_false] using ih this

theorem wf_set {β : Type} {t : Dict Nat β} {c : Nat} {x y : β} (h : t.get? c = some x) (hw : t.WF) : (t.set c y).WF := by
  show (Dict.keys _).Nodup
  rw [keys_set_of_get? h]; exact hw

/-- What is known about a state with one process picked out. -/
theorem Normal.take {tokens q l r c rest b} (h : Normal tokens q (l ++ (.idle, b) :: r)) (hq : q.chunkQ = some c :: rest) :
    ∃ ts, tokens = c :: ts ∧ Normal ts { q with chunkQ := rest } (l ++ (.assigned c, b) :: r) := by
  cases tokens with
  | nil =>
    have := h.queue
    rw [hq] at this
    simp only [List.map_nil, List.nil_append] at this
    have hm : some c ∈ some c :: rest := List.mem_cons_self
    rw [this] at hm
    exact absurd (List.eq_of_mem_replicate hm) (by simp)
  | cons t ts =>
    have h0 := h.queue
    rw [hq] at h0
    simp only [List.map_cons, List.cons_append, List.cons.injEq, Option.some.injEq] at h0
    obtain ⟨rfl, h0⟩ := h0
    refine ⟨ts, rfl, ?_⟩
    have hall : ∀ p ∈ l ++ (PState.idle, b) :: r, p.1.hungry = true := h.started (by simp)
    constructor
    · simpa [PState.hungry] using h0
    · intro _ p hp
      simp only [List.mem_append, List.mem_cons] at hp hall
      rcases hp with hp | rfl | hp
      · exact hall p (.inl hp)
      · rfl
      · exact hall p (.inr (.inr hp))
    · intro p hp
      have := h.early
      simp only [List.mem_append, List.mem_cons] at hp this
      rcases hp with hp | rfl | hp
      · exact this p (.inl hp)
      · rfl
      · exact this p (.inr (.inr hp))
    · simpa [PState.notEnded] using h.counter
    · exact h.active
    · exact h.wf
    · exact h.nonempty
    · exact fun c hc => h.tokensIn c (by simp [hc])
    · intro p hp d hd
      have := h.procsIn
      simp only [List.mem_append, List.mem_cons] at hp this
      rcases hp with hp | rfl | hp
      · exact this p (.inl hp) d hd
      · simp only [PState.chunk?, Option.some.injEq] at hd
        exact hd ▸ h.tokensIn c (by simp)
      · exact this p (.inr (.inr hp)) d hd
    · intro d m hm
      have := h.balance d m hm
      simp only [List.countP_append, List.countP_cons, PState.merges, PState.wants, List.count_cons] at this ⊢
      by_cases hcd : c = d <;> simp [hcd] at this ⊢ <;> omega
    · have := h.merges
      simp only [List.countP_append, List.countP_cons, PState.uncounted, List.length_cons] at this ⊢
      simp at this ⊢
      omega

/-- Changing one process, with the tokens unchanged. -/
theorem Normal.change {tokens q l r p p' q' b b'} (h : Normal tokens q (l ++ (p, b) :: r))
    (hq : q'.chunkQ = tokens.map some ++
      List.replicate ((l ++ r).countP (fun p => p.1.hungry) + if p'.hungry then 1 else 0) none)
    (hst : p.hungry = true → p'.hungry = false → tokens = [])
    (he : p'.early = true)
    (hc : q'.counter = (l ++ r).countP (fun p => p.1.notEnded) + if p'.notEnded then 1 else 0)
    (ha : 1 ≤ q'.counter) (hw : q'.tasks.WF) (hk : q'.tasks.keys = q.tasks.keys)
    (hch : ∀ c, p'.chunk? = some c → c ∈ q.tasks.keys)
    (hb : ∀ c m, q'.tasks.get? c = some m → ∃ m0, q.tasks.get? c = some m0 ∧
      m.length + (if p'.merges c then 1 else 0) + (if p.wants c then 1 else 0) =
        m0.length + (if p.merges c then 1 else 0) + (if p'.wants c then 1 else 0))
    (hm : q'.mergesLeft = tokens.length + (l ++ r).countP (fun p => p.1.uncounted) + if p'.uncounted then 1 else 0) :
    Normal tokens q' (l ++ (p', b') :: r) := by
  have split : ∀ {P : PState × Bool → Prop} {x y}, (∀ z ∈ l ++ x :: r, P z) → P y → ∀ z ∈ l ++ y :: r, P z := by
    intro P x y h1 h2 z hz
    simp only [List.mem_append, List.mem_cons] at hz h1
    rcases hz with hz | rfl | hz
    · exact h1 z (.inl hz)
    · exact h2
    · exact h1 z (.inr (.inr hz))
  constructor
  · rw [hq]
    congr 2
    simp only [List.countP_append, List.countP_cons]
    omega
  · intro ht
    have hall := h.started ht
    refine split hall ?_
    have hp : p.hungry = true := hall (p, b) (by simp)
    cases hx : p'.hungry with
    | true => rfl
    | false => exact absurd (hst hp hx) ht
  · exact split h.early he
  · rw [hc]; simp only [List.countP_append, List.countP_cons]; omega
  · exact ha
  · exact hw
  · rw [hk]; exact h.nonempty
  · rw [hk]; exact h.tokensIn
  · rw [hk]; exact split h.procsIn hch
  · intro c m hg
    obtain ⟨m0, h0, he⟩ := hb c m hg
    have := h.balance c m0 h0
    simp only [List.countP_append, List.countP_cons] at this ⊢
    omega
  · rw [hm]; simp only [List.countP_append, List.countP_cons]; omega

theorem Normal.replicate {tokens q l r p b} (h : Normal tokens q (l ++ (p, b) :: r)) : q.chunkQ = tokens.map some ++
      List.replicate ((l ++ r).countP (fun p => p.1.hungry) + if p.hungry then 1 else 0) none := by
  rw [h.queue]
  congr 2
  simp only [List.countP_append, List.countP_cons]
  omega

theorem Normal.count {tokens q l r p b} (h : Normal tokens q (l ++ (p, b) :: r)) :
    q.counter = (l ++ r).countP (fun p => p.1.notEnded) + if p.notEnded then 1 else 0 := by
  rw [h.counter]
  simp only [List.countP_append, List.countP_cons]
  omega

theorem Normal.left {tokens q l r p b} (h : Normal tokens q (l ++ (p, b) :: r)) :
    q.mergesLeft = tokens.length + (l ++ r).countP (fun p => p.1.uncounted) + if p.uncounted then 1 else 0 := by
  rw [h.merges]
  simp only [List.countP_append, List.countP_cons]
  omega

theorem Normal.notLastStep {tokens q l r b n} (h : Normal tokens q (l ++ (.stopping, b) :: r)) (hq : q.counter = n + 1) (hn : n ≠ 0) :
    Normal tokens { q with counter := n } (l ++ (.ended, b) :: r) := by
  refine h.change h.replicate (fun h => by cases h) rfl ?_ (Nat.pos_of_ne_zero hn) h.wf rfl (fun c hc => by cases hc)
    (fun c m hg => ⟨m, hg, rfl⟩) h.left
  have := h.count
  simp [PState.notEnded] at this ⊢
  omega

theorem Normal.takeEnd {tokens q l r rest b} (h : Normal tokens q (l ++ (.idle, b) :: r)) (hq : q.chunkQ = none :: rest) :
    tokens = [] ∧ Normal [] { q with chunkQ := rest } (l ++ (.stopping, b) :: r) := by
  have h0 := h.replicate
  rw [hq] at h0
  have ht : tokens = [] := by
    cases tokens with
    | nil => rfl
    | cons t ts => simp at h0
  subst ht
  refine ⟨rfl, ?_⟩
  refine h.change (b' := b) ?_ (fun _ _ => rfl) rfl h.count h.active h.wf rfl (fun c hc => by cases hc) (fun c m hg => ⟨m, hg, rfl⟩) h.left
  simp only [PState.hungry, if_true, List.map_nil, List.nil_append, List.replicate_succ, List.cons.injEq, true_and] at h0
  simpa [PState.hungry] using h0

theorem Normal.firstStep {tokens q l r c v rest b} (h : Normal tokens q (l ++ (.assigned c, b) :: r))
    (hg : q.tasks.get? c = some (v :: rest)) :
    Normal tokens { q with tasks := q.tasks.set c rest } (l ++ (.holding c v, b) :: r) := by
  refine h.change h.replicate (fun _ h => by cases h) rfl h.count h.active (wf_set hg h.wf) (keys_set_of_get? hg)
    (fun d hd => ?_) (fun d m hm => ?_) h.left
  · simp only [PState.chunk?, Option.some.injEq] at hd
    exact hd ▸ get?_mem_keys hg
  · simp only [Dict.get?_set] at hm
    by_cases hcd : c = d
    · subst hcd
      rw [if_pos rfl] at hm
      cases hm
      exact ⟨_, hg, by simp [PState.merges, PState.wants]⟩
    · rw [if_neg hcd] at hm
      exact ⟨m, hm, by simp [PState.merges, PState.wants, hcd]⟩

theorem Normal.secondStep {tokens q l r c f v rest b} (h : Normal tokens q (l ++ (.holding c f, b) :: r))
    (hg : q.tasks.get? c = some (v :: rest)) :
    Normal tokens { q with tasks := q.tasks.set c rest } (l ++ (.counting c f v, b) :: r) := by
  refine h.change h.replicate (fun _ h => by cases h) rfl h.count h.active (wf_set hg h.wf) (keys_set_of_get? hg)
    (fun d hd => ?_) (fun d m hm => ?_) h.left
  · simp only [PState.chunk?, Option.some.injEq] at hd
    exact hd ▸ get?_mem_keys hg
  · simp only [Dict.get?_set] at hm
    by_cases hcd : c = d
    · subst hcd
      rw [if_pos rfl] at hm
      cases hm
      exact ⟨_, hg, by simp [PState.merges, PState.wants]⟩
    · rw [if_neg hcd] at hm
      exact ⟨m, hm, by simp [PState.merges, PState.wants, hcd]⟩

theorem Normal.putStep {tokens q l r c v m l' b} (h : Normal tokens q (l ++ (.merging c m, b) :: r))
    (hg : q.tasks.get? c = some l') :
    Normal tokens { q with tasks := q.tasks.set c (l' ++ [v]) } (l ++ (.idle, b) :: r) := by
  refine h.change h.replicate (fun _ h => by cases h) rfl h.count h.active (wf_set hg h.wf) (keys_set_of_get? hg)
    (fun d hd => by cases hd) (fun d m hm => ?_) h.left
  simp only [Dict.get?_set] at hm
  by_cases hcd : c = d
  · subst hcd
    rw [if_pos rfl] at hm
    cases hm
    exact ⟨_, hg, by simp [PState.merges, PState.wants]⟩
  · rw [if_neg hcd] at hm
    exact ⟨m, hm, by simp [PState.merges, PState.wants, hcd]⟩

theorem Normal.giveBackStep {tokens q l r c f l' b b'} (h : Normal tokens q (l ++ (.holding c f, b) :: r))
    (hg : q.tasks.get? c = some l') :
    Normal tokens { q with tasks := q.tasks.set c (l' ++ [f]) } (l ++ (.assigned c, b') :: r) := by
  refine h.change h.replicate (fun _ h => by cases h) rfl h.count h.active (wf_set hg h.wf) (keys_set_of_get? hg)
    (fun d hd => ?_) (fun d m hm => ?_) h.left
  · simp only [PState.chunk?, Option.some.injEq] at hd
    exact hd ▸ get?_mem_keys hg
  · simp only [Dict.get?_set] at hm
    by_cases hcd : c = d
    · subst hcd
      rw [if_pos rfl] at hm
      cases hm
      exact ⟨_, hg, by simp [PState.merges, PState.wants]⟩
    · rw [if_neg hcd] at hm
      exact ⟨m, hm, by simp [PState.merges, PState.wants, hcd]⟩

theorem Normal.countStep {tokens q l r c f s n b} (h : Normal tokens q (l ++ (.counting c f s, b) :: r))
    (hn : q.mergesLeft = n + 1) (m : MState) :
    Normal tokens { q with mergesLeft := n } (l ++ (.merging c m, b) :: r) := by
  refine h.change h.replicate (fun _ h => by cases h) rfl h.count h.active h.wf rfl
    (fun d hd => ?_) (fun d m hm => ⟨m, hm, rfl⟩) ?_
  · exact h.procsIn (.counting c f s, b) (by simp) d hd
  · have := h.left
    simp [PState.uncounted] at this ⊢
    omega

theorem Normal.mergeStep {tokens q l r c m b} (h : Normal tokens q (l ++ (.merging c m, b) :: r)) (m' : MState) :
    Normal tokens q (l ++ (.merging c m', b) :: r) := by
  refine h.change h.replicate (fun _ h => by cases h) rfl h.count h.active h.wf rfl
    (fun d hd => ?_) (fun d m hm => ⟨m, hm, rfl⟩) h.left
  exact h.procsIn (.merging c m, b) (by simp) d hd

theorem Normal.last {tokens q l r b} (h : Normal tokens q (l ++ (.stopping, b) :: r)) (hq : q.counter = 1) :
    (∀ x ∈ l ++ r, x.1 = .ended) ∧ ∀ c ∈ q.tasks.keys, ∃ v, q.tasks.get? c = some [v] := by
  have hend : ∀ x ∈ l ++ r, x.1 = .ended := by
    have := h.count
    rw [hq] at this
    simp only [show PState.stopping.notEnded = true from rfl, if_true] at this
    have h0 : (l ++ r).countP (fun p => p.1.notEnded) = 0 := by omega
    rw [List.countP_eq_zero] at h0
    intro x hx
    have := h0 x hx
    revert this
    cases x.1 <;> simp [PState.notEnded]
  refine ⟨hend, fun c hc => ?_⟩
  obtain ⟨m, hm⟩ := mem_keys_get? hc
  have ht : tokens = [] := by
    cases htt : tokens with
    | nil => rfl
    | cons a t => exact absurd (h.started (by simp [htt]) (.stopping, b) (by simp)) (by simp [PState.hungry])
  have hb := h.balance c m hm
  have z : ∀ P : PState × Bool → Bool, (∀ x, x.1 = .ended → P x = false) → (l ++ r).countP P = 0 := by
    intro P hP
    rw [List.countP_eq_zero]
    intro x hx
    rw [hP x (hend x hx)]; simp
  have z1 := z (fun p => p.1.merges c) (by intro x hx; simp [hx, PState.merges])
  have z2 := z (fun p => p.1.wants c) (by intro x hx; simp [hx, PState.wants])
  simp only [List.countP_append, List.countP_cons, ht, List.count_nil] at hb z1 z2
  simp only [show PState.stopping.merges c = false from rfl, show PState.stopping.wants c = false from rfl,
    Bool.false_eq_true, if_false] at hb
  have hlen : m.length = 1 := by omega
  obtain ⟨v, hv⟩ := List.length_eq_one_iff.mp hlen
  exact ⟨v, by rw [hm, hv]⟩

theorem Normal.noMerges {tokens q l r b} (h : Normal tokens q (l ++ (.stopping, b) :: r)) (hq : q.counter = 1) :
    q.mergesLeft = 0 := by
  obtain ⟨hend, -⟩ := h.last hq
  have ht : tokens = [] := by
    cases htt : tokens with
    | nil => rfl
    | cons a t => exact absurd (h.started (by simp [htt]) (.stopping, b) (by simp)) (by simp [PState.hungry])
  have z : (l ++ r).countP (fun p => p.1.uncounted) = 0 := by
    rw [List.countP_eq_zero]
    intro x hx
    rw [hend x hx]; simp [PState.uncounted]
  rw [h.left, z, ht]; rfl

/-! ### Steps before the merges are finished -/

theorem Stored.split {C W dk t l r p b} (h : Stored C W dk (owned t (l ++ (p, b) :: r))) :
    Stored C W dk (p.items ++ (queueItems t ++ procItems (l ++ r))) := h.reorder (owned_split t l r (p, b))

theorem Stored.unsplit {C W dk t l r p b} (h : Stored C W dk (p.items ++ (queueItems t ++ procItems (l ++ r)))) :
    Stored C W dk (owned t (l ++ (p, b) :: r)) := h.reorder (owned_split t l r (p, b)).symm

theorem Stored.mstep {C W} {dk : Disk} {m m' : MState} {rest : List MState} {dir' : DumpDir} (h : Stored C W dk (m :: rest))
    (hs : MStep dk.dir m dir' m') : Stored C W { dk with dir := dir' } (m' :: rest) := by
  obtain ⟨h1, h2⟩ := hs.holds h.1
  exact ⟨h1, h.2.change h2⟩

theorem Stored.pair {C W dk} {f s : PVocab} {rest : List MState} (h : Stored C W dk (.done f :: .done s :: rest)) :
    Stored C W dk (.ready f s :: rest) := ⟨h.1.pair, h.2.pair⟩

theorem Normal.step {C W tokens dk q p dk' q' p' l r b} (h : Normal tokens q (l ++ (p, b) :: r)) (hv : dk.vocab = none)
    (hs : Stored C W dk (owned q.tasks (l ++ (p, b) :: r))) (hp : PStep dk q p dk' q' p') :
    RunInv C W dk' q' (l ++ (p', b) :: r) := by
  have he : p.early = true := h.early (p, b) (by simp)
  have hs' := hs.split
  cases hp with
  | take hq =>
    obtain ⟨ts, -, h'⟩ := h.take hq
    exact .normal ts h' hv (Stored.unsplit hs')
  | takeEnd hq =>
    obtain ⟨-, h'⟩ := h.takeEnd hq
    exact .normal [] h' hv (Stored.unsplit hs')
  | @first c v rest hg =>
    refine .normal tokens (h.firstStep hg) hv (Stored.unsplit ?_)
    exact hs'.reorder ((queue_pop hg).append_right _)
  | @second c f v rest hg =>
    refine .normal tokens (h.secondStep hg) hv (Stored.unsplit ?_)
    refine Stored.pair (hs'.reorder ?_)
    exact (((queue_pop hg).append_right _)).cons _
  | count hn => exact .normal tokens (h.countStep hn _) hv (Stored.unsplit hs')
  | merge hm => exact .normal tokens (h.mergeStep _) hv (Stored.unsplit (hs'.mstep hm))
  | @put c v l' hg =>
    refine .normal tokens (h.putStep hg) hv (Stored.unsplit ?_)
    exact hs'.reorder ((queue_push hg v).symm.append_right _)
  | lastProcess hq =>
    obtain ⟨h1, h2⟩ := h.last hq
    refine .finish l r _ b rfl h1 ⟨hv, h.wf, [], rfl, rfl, h.nonempty, by simp, h2⟩ (fun _ => Stored.unsplit hs') (h.noMerges hq)
  | notLast hq hn => exact .normal tokens (h.notLastStep hq hn) hv (Stored.unsplit hs')
  | collect _ => cases he
  | collected => cases he
  | combine => cases he
  | combineStep _ => cases he
  | combined => cases he
  | statsWritten _ => cases he
  | vocabOpened => cases he
  | write _ _ => cases he
  | written => cases he
  | remove _ => cases he
  | removed _ => cases he

/-! ### Steps while the merges are finished -/

theorem foldl_max_le {l : List Nat} {n a : Nat} (ha : a ≤ n) (h : ∀ x ∈ l, x ≤ n) : l.foldl max a ≤ n := by
  induction l generalizing a with
  | nil => exact ha
  | cons x t ih => exact ih (Nat.max_le.mpr ⟨ha, h x (by simp)⟩) (fun y hy => h y (by simp [hy]))

theorem le_foldl_max {l : List Nat} {a x : Nat} (h : x ≤ a ∨ x ∈ l) : x ≤ l.foldl max a := by
  induction l generalizing a with
  | nil => simpa using h
  | cons y t ih =>
    simp only [List.foldl_cons]
    apply ih
    rcases h with h | h
    · exact .inl (Nat.le_trans h (Nat.le_max_left _ _))
    · rcases List.mem_cons.mp h with rfl | h
      · exact .inl (Nat.le_max_right _ _)
      · exact .inr h

theorem writeStats_ok {v : PVocab} (h : StatsOk v) : ∃ ls, v.writeStats = .ok (v.counts.length, ls) := by
  obtain ⟨-, h2, h3⟩ := h
  have hm : v.nFiles ∈ v.stats.map (·.1) := by
    have : (v.nFiles, v.counts.length, PVocab.nonEngCount v.counts) ∈ v.stats.filter fun e => e.1 = v.nFiles := by
      rw [h3]; simp
    exact List.mem_map.mpr ⟨_, (List.mem_filter.mp this).1, rfl⟩
  have hmax : (v.stats.map (·.1)).foldl max 0 = v.nFiles := by
    refine Nat.le_antisymm (foldl_max_le (Nat.zero_le _) ?_) (le_foldl_max (.inr hm))
    intro x hx
    obtain ⟨e, he, rfl⟩ := List.mem_map.mp hx
    exact (h2 e he).2.1
  have hks : ∃ ks, (List.range ((v.stats.map (·.1)).foldl max 0 + 1)).filter (fun k => k ∈ v.stats.map (·.1)) =
      ks ++ [v.nFiles] := by
    refine ⟨(List.range v.nFiles).filter (fun k => k ∈ v.stats.map (·.1)), ?_⟩
    rw [hmax, List.range_succ, List.filter_append]
    congr 1
    rw [List.filter_cons, if_pos (by simpa using hm)]; rfl
  obtain ⟨ks, hks⟩ := hks
  unfold PVocab.writeStats PVocab.groupStats
  simp only [hks, List.map_append, List.map_cons, List.map_nil, h3, List.getLast?_append, List.getLast?_singleton, Option.some_or]
  exact ⟨_, by simp [PVocab.meanOf]; rfl⟩

theorem queueItems_nil {t : Dict Nat (List PVocab)} (hw : t.WF) (h : ∀ c ∈ t.keys, t.get? c = some []) : queueItems t = [] := by
  unfold queueItems
  rw [List.map_eq_nil_iff, List.flatten_eq_nil_iff]
  intro x hx
  obtain ⟨e, he, rfl⟩ := List.mem_map.mp hx
  have h1 := h e.1 (List.mem_map_of_mem he)
  rw [Dict.mem_get? hw he] at h1
  exact Option.some.inj h1

theorem procItems_ended {ps : List (PState × Bool)} (h : ∀ x ∈ ps, x.1 = .ended) : procItems ps = [] := by
  unfold procItems
  rw [List.flatten_eq_nil_iff]
  intro x hx
  obtain ⟨e, he, rfl⟩ := List.mem_map.mp hx
  rw [h e he]; rfl

theorem unique_split {l r l' r' : List (PState × Bool)} {a b : PState × Bool} (h : l ++ a :: r = l' ++ b :: r')
    (hend : ∀ x ∈ l' ++ r', x.1 = .ended) (ha : a.1 ≠ .ended) : l = l' ∧ a = b ∧ r = r' := by
  rw [List.append_eq_append_iff] at h
  rcases h with ⟨m, h1, h2⟩ | ⟨m, h1, h2⟩
  · cases m with
    | nil => simp at h1 h2; exact ⟨h1.symm, h2.1, h2.2⟩
    | cons x m =>
      simp only [List.cons_append, List.cons.injEq] at h2
      refine absurd (hend a ?_) ha
      rw [h1, ← h2.1]; simp
  · cases m with
    | nil => simp at h1 h2; exact ⟨h1, h2.1.symm, h2.2.symm⟩
    | cons x m =>
      simp only [List.cons_append, List.cons.injEq] at h2
      refine absurd (hend a ?_) ha
      rw [h2.2]; simp

theorem PStep.not_ended {dk q p dk' q' p'} (h : PStep dk q p dk' q' p') : p ≠ .ended := by
  cases h <;> simp

theorem Tot.total {C W} {v : PVocab} {dir : DumpDir} (hh : Holds [.done v] dir) (h : Tot C W [.done v]) : IsTotal C W v.counts where
  wf := (hh.ok (.done v) (by simp)).2.1
  count w := by simpa [MState.count, PVocab.tally] using h.count (.word w)
  word w := by simpa [MState.hasWord] using h.word w

theorem FinOk.step {C W dk q p dk' q' p' l r b} (hend : ∀ x ∈ l ++ r, x.1 = .ended) (h : FinOk C W dk q p)
    (hs : p.after = false → Stored C W dk (owned q.tasks (l ++ (p, b) :: r))) (hp : PStep dk q p dk' q' p') :
    FinOk C W dk' q' p' ∧ (p'.after = false → Stored C W dk' (owned q'.tasks (l ++ (p', b) :: r))) ∧ q'.mergesLeft = q.mergesLeft := by
  have hpi := procItems_ended hend
  cases hp with
  | take hq => exact h.elim
  | takeEnd hq => exact h.elim
  | first hg => exact h.elim
  | second hg => exact h.elim
  | count hn => exact h.elim
  | merge hm => exact h.elim
  | put hg => exact h.elim
  | lastProcess hq => exact h.elim
  | notLast hq _ => exact h.elim
  | @collect c todo got v rest hg =>
    obtain ⟨h1, h2, ks, h3, h4, h5, h6, h7⟩ := h
    obtain ⟨v', hv'⟩ := h7 c (by simp)
    rw [hg] at hv'
    simp only [Option.some.injEq, List.cons.injEq] at hv'
    obtain ⟨rfl, rfl⟩ := hv'
    have hnd : (ks ++ c :: todo).Nodup := by
      have hw : (Dict.keys q.tasks).Nodup := h2
      rw [h3] at hw; exact hw
    have hck : c ∉ ks := fun hh => (List.nodup_append.mp hnd).2.2 c hh c (by simp) rfl
    have hct : c ∉ todo := (List.nodup_cons.mp (List.nodup_append.mp hnd).2.1).1
    refine ⟨⟨h1, wf_set hg h2, ks ++ [c], ?_, by simp [h4], ?_, ?_, ?_⟩, fun _ => Stored.unsplit ?_, rfl⟩
    · simp only [keys_set_of_get? hg, h3, List.append_assoc, List.cons_append, List.nil_append]
    · simpa only [keys_set_of_get? hg] using h5
    · intro d hd
      simp only [Dict.get?_set]
      by_cases hcd : c = d
      · rw [if_pos hcd]
      · rw [if_neg hcd]
        simp only [List.mem_append, List.mem_singleton] at hd
        rcases hd with hd | hd
        · exact h6 d hd
        · exact absurd hd.symm hcd
    · intro d hd
      have hcd : c ≠ d := fun e => hct (e ▸ hd)
      simp only [Dict.get?_set]
      rw [if_neg hcd]
      exact h7 d (by simp [hd])
    · refine ((hs rfl).split).reorder ?_
      simp only [PState.items, List.map_append, List.map_cons, List.map_nil, List.append_assoc]
      exact ((queue_pop hg).append_right _).append_left _
  | @collected got v =>
    obtain ⟨h1, h2, ks, h3, h4, h5, h6, h7⟩ := h
    refine ⟨⟨h1, queueItems_nil h2 (by rw [h3]; simpa using h6)⟩, fun _ => Stored.unsplit ?_, rfl⟩
    refine ((hs rfl).split).reorder ?_
    refine List.Perm.append_right _ ?_
    simp only [PState.items, List.map_append, List.map_cons, List.map_nil]
    exact List.perm_append_singleton _ _
  | combine =>
    refine ⟨h, fun _ => Stored.unsplit (Stored.pair ?_), rfl⟩
    exact (hs rfl).split
  | combineStep hm =>
    refine ⟨h, fun _ => Stored.unsplit ?_, rfl⟩
    exact Stored.mstep (hs rfl).split hm
  | combined => exact ⟨h, fun _ => Stored.unsplit (hs rfl).split, rfl⟩
  | @statsWritten v n ls hst =>
    have hss := (hs rfl).split
    obtain ⟨ls', hls⟩ := writeStats_ok (hss.1.ok (.done v) (by simp [PState.items])).2.2
    rw [hst] at hls
    have hn : n = v.counts.length := by injection hls with e; exact (Prod.mk.inj e).1
    subst hn
    exact ⟨⟨h.1, h.2, ls, rfl⟩, fun _ => Stored.unsplit hss, rfl⟩
  | vocabOpened => exact ⟨⟨h.2.1, h.2.2, [], rfl, rfl⟩, fun _ => Stored.unsplit (hs rfl).split, rfl⟩
  | @write v a b' t ha ht =>
    obtain ⟨h1, h2, t', h3, h4⟩ := h
    rw [ht] at h3
    cases h3
    exact ⟨⟨h1, h2, _, rfl, by rw [List.append_assoc, h4]⟩, fun _ => Stored.unsplit (hs rfl).split, rfl⟩
  | @written v =>
    obtain ⟨h1, ⟨ls, h2⟩, t, h3, h4⟩ := h
    have hss := (hs rfl).split
    simp only [h1, hpi, PState.items, List.append_nil] at hss
    refine ⟨⟨v.counts, ls, Tot.total hss.1 hss.2, h2, ?_⟩, (fun hh => by cases hh), rfl⟩
    rw [h3, ← h4, List.append_nil]
  | remove _ => exact ⟨h, (fun hh => by cases hh), rfl⟩
  | removed hd => exact ⟨⟨h, hd⟩, (fun hh => by cases hh), rfl⟩

/-- A step keeps the invariant. -/
theorem RunInv.step {C W R R'} (h : RunInv C W R.disk R.queues R.procs) (hs : RunStep R R') :
    RunInv C W R'.disk R'.queues R'.procs := by
  cases hs with
  | step hp =>
    cases h with
    | normal tokens h1 h2 h3 => exact h1.step h2 h3 hp
    | finish l' r' p0 b0 he hend hf hs hm =>
      simp only at he
      obtain ⟨rfl, e, rfl⟩ := unique_split he hend hp.not_ended
      obtain ⟨rfl, rfl⟩ := Prod.mk.inj e
      obtain ⟨h1, h2, h3⟩ := hf.step hend hs hp
      exact .finish _ _ _ _ rfl hend h1 h2 (h3.trans hm)

theorem Normal.die {tokens q l r p b b'} (h : Normal tokens q (l ++ (p, b) :: r)) : Normal tokens q (l ++ (p, b') :: r) := by
  refine h.change h.replicate (fun h1 h2 => by rw [h1] at h2; cases h2) (h.early (p, b) (by simp)) h.count h.active h.wf rfl
    (fun c hc => h.procsIn (p, b) (by simp) c hc) (fun c m hg => ⟨m, hg, rfl⟩) h.left

/-- Problems keep the invariant. -/
theorem RunInv.fault {C W R R'} (h : RunInv C W R.disk R.queues R.procs) (hs : RunFault R R') :
    RunInv C W R'.disk R'.queues R'.procs := by
  cases hs with
  | @die dk q l p r =>
    cases h with
    | normal tokens h1 h2 h3 => exact .normal tokens h1.die h2 (Stored.unsplit h3.split)
    | finish l' r' p0 b0 he hend hf hs hm =>
      simp only at he hs hf
      by_cases hp : p = .ended
      · subst hp
        have hown : ∀ t, (owned t (l ++ (PState.ended, false) :: r)) = owned t (l ++ (PState.ended, true) :: r) := by
          intro t
          simp [owned, procItems]
        rw [List.append_eq_append_iff] at he
        rcases he with ⟨m, e1, e2⟩ | ⟨m, e1, e2⟩
        · cases m with
          | nil =>
            simp only [List.append_nil, List.nil_append, List.cons.injEq] at e1 e2
            subst e1
            obtain ⟨e3, rfl⟩ := e2
            obtain ⟨rfl, rfl⟩ := Prod.mk.inj e3
            exact .finish _ _ _ _ rfl hend hf (fun hh => by rw [hown]; exact hs hh) hm
          | cons x m =>
            simp only [List.cons_append, List.cons.injEq] at e2
            obtain ⟨rfl, rfl⟩ := e2
            refine .finish (l ++ (.ended, false) :: m) r' p0 b0 (by simp) ?_ hf (fun hh => by rw [hown]; exact hs hh) hm
            intro x hx
            simp only [e1, List.append_assoc, List.cons_append, List.mem_append, List.mem_cons] at hend hx
            rcases hx with hx | rfl | hx | hx
            · exact hend x (.inl hx)
            · rfl
            · exact hend x (.inr (.inr (.inl hx)))
            · exact hend x (.inr (.inr (.inr hx)))
        · cases m with
          | nil =>
            simp only [List.append_nil, List.nil_append, List.cons.injEq] at e1 e2
            subst e1
            obtain ⟨e3, rfl⟩ := e2
            obtain ⟨rfl, rfl⟩ := Prod.mk.inj e3
            exact .finish _ _ _ _ rfl hend hf (fun hh => by rw [hown]; exact hs hh) hm
          | cons x m =>
            simp only [List.cons_append, List.cons.injEq] at e2
            obtain ⟨rfl, rfl⟩ := e2
            refine .finish l' (m ++ (.ended, false) :: r) p0 b0 (by simp [e1]) ?_ hf (fun hh => by rw [hown]; exact hs hh) hm
            intro x hx
            simp only [List.mem_append, List.mem_cons] at hend hx
            rcases hx with hx | hx | rfl | hx
            · exact hend x (.inl hx)
            · exact hend x (.inr (.inl hx))
            · rfl
            · exact hend x (.inr (.inr (.inr hx)))
      · obtain ⟨rfl, e, rfl⟩ := unique_split he hend hp
        obtain ⟨rfl, rfl⟩ := Prod.mk.inj e
        exact .finish _ _ _ _ rfl hend hf (fun hh => Stored.unsplit (hs hh).split) hm
  | @giveBack dk q l c f r qs hg =>
    cases h with
    | normal tokens h1 h2 h3 =>
      refine .normal tokens (h1.giveBackStep hg) h2 (Stored.unsplit ?_)
      exact h3.split.reorder ((queue_push hg f).symm.append_right _)
    | finish l' r' p0 b0 he hend hf hs hm =>
      simp only at he
      obtain ⟨rfl, e, rfl⟩ := unique_split he hend (by simp)
      obtain ⟨rfl, rfl⟩ := Prod.mk.inj e
      exact hf.elim

end Verif
