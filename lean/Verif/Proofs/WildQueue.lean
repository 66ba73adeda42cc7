import Verif.Spec.WildBpe
import Verif.Proofs.WildKeys
/-!
# The queue
-/
namespace Verif.Wild
open Verif Verif.Spec

def upd {β : Type} (f : Str → β) (k : Str) (v : β) : Str → β := fun k' => if k' = k then v else f k'

theorem upd_same {β : Type} (f : Str → β) (k : Str) (v : β) : upd f k v k = v := if_pos rfl
theorem upd_other {β : Type} {f : Str → β} {k k' : Str} {v : β} (h : k' ≠ k) : upd f k v k' = f k' := if_neg h

/-- The queue holds the numbers `f`. -/
structure Rep (q : Queue) (f : Str → Option (Int × Int)) : Prop where
  key : ∀ e ∈ q.pq, ∀ k, e.key = some k → f k = some (-e.prio, e.count)
  ex : ∀ k v, f k = some v → ∃ e ∈ q.pq, e.key = some k
  finder : ∀ k, q.finder.get? k = (f k).map fun v => -v.1
  uniq : q.pq.Pairwise fun e e' => ∀ k, e.key = some k → e'.key ≠ some k

theorem Rep.remove {q : Queue} {f} (h : Rep q f) (k : Str) : Rep (q.remove k) (upd f k none) := by
  refine ⟨?_, ?_, ?_, ?_⟩
  · intro e he k' hk
    obtain ⟨e0, h0, rfl⟩ := List.mem_map.mp he
    by_cases hc : e0.key = some k
    · rw [if_pos hc] at hk; cases hk
    · rw [if_neg hc] at hk ⊢
      have : k' ≠ k := fun g => hc (g ▸ hk)
      rw [upd_other this]; exact h.key e0 h0 k' hk
  · intro k' v hv
    have hne : k' ≠ k := by rintro rfl; rw [upd_same] at hv; cases hv
    rw [upd_other hne] at hv
    obtain ⟨e, he, hk⟩ := h.ex k' v hv
    refine ⟨e, List.mem_map.mpr ⟨e, he, ?_⟩, hk⟩
    rw [if_neg]
    rw [hk]; simpa using hne
  · intro k'
    show (q.finder.del k).get? k' = _
    rw [get?_del, h.finder]
    unfold upd
    split <;> rfl
  · refine List.pairwise_map.mpr (h.uniq.imp ?_)
    intro e e' hee k' h1 h2
    have g1 : e.key = some k' := by
      by_cases hc : e.key = some k
      · rw [if_pos hc] at h1; cases h1
      · rwa [if_neg hc] at h1
    have g2 : e'.key = some k' := by
      by_cases hc : e'.key = some k
      · rw [if_pos hc] at h2; cases h2
      · rwa [if_neg hc] at h2
    exact hee k' g1 g2

theorem Rep.push {q : Queue} {f} (h : Rep q f) {k : Str} (hk : f k = none) (p c : Int) :
    Rep (q.push k p c) (upd f k (if p = 0 then none else some (-p, c))) := by
  unfold Queue.push
  by_cases hp : p = 0
  · rw [if_neg (by simpa using hp), if_pos hp]
    have : upd f k none = f := by
      funext k'; unfold upd; split
      · next e => rw [e, hk]
      · rfl
    rwa [this]
  · rw [if_pos hp, if_neg hp]
    refine ⟨?_, ?_, ?_, ?_⟩
    · intro e he k' hk'
      rcases List.mem_cons.mp he with rfl | he
      · simp only [Option.some.injEq] at hk'
        subst hk'; rw [upd_same]
      · have := h.key e he k' hk'
        have hne : k' ≠ k := by rintro rfl; rw [hk] at this; cases this
        rw [upd_other hne]; exact this
    · intro k' v hv
      by_cases hne : k' = k
      · subst hne; exact ⟨_, List.mem_cons_self, rfl⟩
      · rw [upd_other hne] at hv
        obtain ⟨e, he, hk⟩ := h.ex k' v hv
        exact ⟨e, List.mem_cons_of_mem _ he, hk⟩
    · intro k'
      show (q.finder.set k p).get? k' = _
      rw [Dict.get?_set, h.finder]
      unfold upd
      by_cases g : k = k'
      · subst g; simp
      · rw [if_neg g, if_neg (Ne.symm g)]
    · refine List.pairwise_cons.mpr ⟨?_, h.uniq⟩
      intro e he k' h1 h2
      simp only [Option.some.injEq] at h1
      subst h1
      have := h.key e he _ h2
      rw [hk] at this; cases this

/-- The number and first position after a change. -/
def bump (v : Option (Int × Int)) (n c : Int) : Option (Int × Int) :=
  let m := (match v with | some x => x.1 | none => 0) + n
  if m = 0 then none else some (m, c)

theorem upd_upd {β : Type} (f : Str → β) (k : Str) (v w : β) : upd (upd f k v) k w = upd f k w := by
  funext k'; unfold upd; split <;> rfl

theorem Rep.add {q : Queue} {f} (h : Rep q f) (k : Str) (n c : Int) : Rep (q.add k n c) (upd f k (bump (f k) n c)) := by
  unfold Queue.add
  have hf := h.finder k
  cases hk : f k with
  | none =>
    rw [hk] at hf; simp only [Option.map_none] at hf
    rw [hf]
    have := h.push hk (-n) c
    have e : (if -n = 0 then none else some (- -n, c)) = bump none n c := by
      unfold bump
      by_cases hn : n = 0
      · simp [hn]
      · rw [if_neg (by omega), if_neg (by simpa using hn)]; simp
    rwa [e] at this
  | some v =>
    rw [hk] at hf; simp only [Option.map_some] at hf
    rw [hf]
    have := (h.remove k).push (upd_same f k none) (-v.1 + -n) c
    rw [upd_upd] at this
    have e : (if -v.1 + -n = 0 then none else some (-(-v.1 + -n), c)) = bump (some v) n c := by
      unfold bump
      by_cases hn : v.1 + n = 0
      · rw [if_pos (by omega)]; simp [hn]
      · rw [if_neg (by omega), if_neg (by simpa using hn)]; congr 2; simp only; omega
    rwa [e] at this

theorem Rep.popLoop {o : Order Entry} (ho : IsHeap o) : ∀ {n : Nat} {q : Queue} {f}, Rep q f → q.pq.length ≤ n →
    match Queue.popLoop o n q with
    | none => ∀ k, f k = none
    | some (k, occ, q') => Rep q' (upd f k none) ∧ ∃ c, f k = some (occ, c) ∧
        ∀ k' v, f k' = some v → v.1 < occ ∨ (v.1 = occ ∧ c ≤ v.2) := by
  intro n
  induction n with
  | zero =>
    intro q f h hn k
    cases hk : f k with
    | none => rfl
    | some v =>
      obtain ⟨e, he, -⟩ := h.ex k v hk
      have : q.pq = [] := List.length_eq_zero_iff.mp (by omega)
      rw [this] at he; cases he
  | succ n ih =>
    intro q f h hn
    unfold Queue.popLoop
    by_cases hq : q.pq = []
    · rw [hq, ho.1]
      intro k
      cases hk : f k with
      | none => rfl
      | some v =>
        obtain ⟨e, he, -⟩ := h.ex k v hk
        rw [hq] at he; cases he
    · obtain ⟨e, r, hp, hperm, hmin⟩ := ho.2 q.pq hq
      rw [hp]
      have hu : (e :: r).Pairwise fun e e' => ∀ k, e.key = some k → e'.key ≠ some k :=
        (hperm.pairwise_iff (fun hxy k h1 h2 => hxy k h2 h1)).mpr h.uniq
      obtain ⟨hu1, hu2⟩ := List.pairwise_cons.mp hu
      have hlen := hperm.length_eq
      simp only [List.length_cons] at hlen
      have heq : e ∈ q.pq := hperm.mem_iff.mp List.mem_cons_self
      cases hk : e.key with
      | some k =>
        simp only [hk]
        refine ⟨⟨?_, ?_, ?_, hu2⟩, e.count, h.key e heq k hk, ?_⟩
        · intro e' he' k' hk'
          have hne : k' ≠ k := by rintro rfl; exact hu1 e' he' k' hk hk'
          rw [upd_other hne]
          exact h.key e' (hperm.mem_iff.mp (List.mem_cons_of_mem _ he')) k' hk'
        · intro k' v hv
          have hne : k' ≠ k := by rintro rfl; rw [upd_same] at hv; cases hv
          rw [upd_other hne] at hv
          obtain ⟨e', he', hk'⟩ := h.ex k' v hv
          rcases List.mem_cons.mp (hperm.mem_iff.mpr he') with rfl | g
          · rw [hk] at hk'; cases hk'; exact absurd rfl hne
          · exact ⟨e', g, hk'⟩
        · intro k'
          show (q.finder.del k).get? k' = _
          rw [get?_del, h.finder]
          unfold upd
          split <;> rfl
        · intro k' v hv
          obtain ⟨e', he', hk'⟩ := h.ex k' v hv
          have g1 := h.key e' he' k' hk'
          rw [hv] at g1
          have g2 := hmin e' he'
          cases g1
          simp only
          rcases g2 with g2 | ⟨g2, g3⟩
          · exact .inl (by omega)
          · exact .inr ⟨by omega, g3⟩
      | none =>
        simp only [hk]
        refine ih ⟨?_, ?_, h.finder, hu2⟩ (by simp only; omega)
        · intro e' he' k' hk'
          exact h.key e' (hperm.mem_iff.mp (List.mem_cons_of_mem _ he')) k' hk'
        · intro k' v hv
          obtain ⟨e', he', hk'⟩ := h.ex k' v hv
          rcases List.mem_cons.mp (hperm.mem_iff.mpr he') with rfl | g
          · rw [hk] at hk'; cases hk'
          · exact ⟨e', g, hk'⟩

theorem Rep.init {d : List (Str × Int × Int)} (hd : (d.map (·.1)).Nodup) {f : Str → Option (Int × Int)}
    (hf : ∀ k v, f k = some v ↔ (k, v) ∈ d) : Rep (Queue.init d) f := by
  refine ⟨?_, ?_, ?_, ?_⟩
  · intro e he k hk
    obtain ⟨x, hx, rfl⟩ := List.mem_map.mp he
    simp only [Option.some.injEq] at hk
    subst hk
    rw [(hf x.1 x.2).mpr hx]; simp
  · intro k v hv
    exact ⟨_, List.mem_map.mpr ⟨(k, v), (hf k v).mp hv, rfl⟩, rfl⟩
  · intro k
    have key : ∀ d : List (Str × Int × Int), (d.map (·.1)).Nodup → ∀ v,
        Dict.get? (d.map fun e => (e.1, -e.2.1)) k = some v ↔ ∃ w, (k, w) ∈ d ∧ v = -w.1 := by
      intro d
      induction d with
      | nil => intro _ v; simp [Dict.get?]
      | cons x d ih =>
        intro hd v
        obtain ⟨h1, h2⟩ := List.nodup_cons.mp hd
        simp only [List.map_cons, Dict.get?]
        by_cases hx : x.1 = k
        · rw [if_pos hx]
          constructor
          · intro g; cases g; exact ⟨x.2, by simp [← hx], rfl⟩
          · rintro ⟨w, hw, rfl⟩
            rcases List.mem_cons.mp hw with hw | hw
            · rw [← hw]
            · exact absurd (List.mem_map.mpr ⟨_, hw, hx.symm⟩) h1
        · rw [if_neg hx, ih h2 v]
          constructor
          · rintro ⟨w, hw, e⟩; exact ⟨w, by simp [hw], e⟩
          · rintro ⟨w, hw, e⟩
            rcases List.mem_cons.mp hw with hw | hw
            · exact absurd (by rw [← hw]) hx
            · exact ⟨w, hw, e⟩
    show Dict.get? (d.map fun e => (e.1, -e.2.1)) k = _
    cases hk : f k with
    | none =>
      cases hg : Dict.get? (d.map fun e => (e.1, -e.2.1)) k with
      | none => rfl
      | some v =>
        obtain ⟨w, hw, -⟩ := (key d hd v).mp hg
        rw [(hf k w).mpr hw] at hk; cases hk
    | some v => exact (key d hd _).mpr ⟨v, (hf k v).mp hk, rfl⟩
  · refine List.pairwise_map.mpr ?_
    refine (List.pairwise_map.mp hd).imp ?_
    intro x y hxy k h1 h2
    simp only [Option.some.injEq] at h1 h2
    exact hxy (h1.trans h2.symm)

end Verif.Wild
