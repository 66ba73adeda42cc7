import Verif.Spec.Corpus
import Verif.Proofs.Stages
/-!
# The invariant of calls for whole corpora
-/
namespace Verif.Corpus
open Verif Stage

/-! ## Single stages -/

theorem inv_arch {results : List (Bytes × Str)} {dir : Option RDir} {m : Option (Option Nat)} {a a' : List (Nat × RDir)} {now : Nat} {p : Pc}
    (h : Inv results ⟨dir, m, a, now, p⟩) : Inv results ⟨dir, m, a', now, p⟩ := by
  cases p <;> exact h

theorem inv_off {results : List (Bytes × Str)} {dir : Option RDir} {m : Option (Option Nat)} {a : List (Nat × RDir)} {now : Nat} {p : Pc}
    (h : Inv results ⟨dir, m, a, now, p⟩) : Inv results ⟨dir, m, a, now, .off⟩ := by
  have := inv_quiet h
  exact this

theorem call_now {results : List (Bytes × Str)} {marks : Bool} {u v : World} (h : CallStep results marks u v) : u.now ≤ v.now := by
  cases h <;> first | exact Nat.le_refl _ | assumption

theorem expected_names (input : List (Bytes × Str)) (repr : Str → Str → Str) (cfg : Str) :
    (expected input repr cfg).map (·.1) = input.map (·.1) := by
  simp [expected, Function.comp_def]

theorem find_file {files : List RFile} {n : Bytes} {t : Str} (hn : (files.map (·.name)).Nodup)
    (h : (n, t) ∈ files.map fun f => (f.name, f.content)) : ∃ f, files.find? (·.name = n) = some f ∧ f.content = t := by
  obtain ⟨f, hf, he⟩ := List.mem_map.mp h
  obtain ⟨rfl, rfl⟩ := Prod.mk.inj he
  induction files with
  | nil => cases hf
  | cons g r ih =>
    rw [List.map_cons, List.nodup_cons] at hn
    by_cases hg : g.name = f.name
    · refine ⟨g, by simp [hg], ?_⟩
      rcases List.mem_cons.mp hf with rfl | hf
      · rfl
      · exact absurd (hg ▸ List.mem_map_of_mem hf) hn.1
    · have hf' : f ∈ r := by
        rcases List.mem_cons.mp hf with rfl | hf
        · exact absurd rfl hg
        · exact hf
      obtain ⟨x, hx, hc⟩ := ih hn.2 hf' (List.mem_map.mpr ⟨f, hf', rfl⟩)
      exact ⟨x, by rw [List.find?_cons_of_neg (by simpa using hg)]; exact hx, hc⟩

theorem prepResults_eq {input : List (Bytes × Str)} (hn : (input.map (·.1)).Nodup) {files : List RFile}
    (h : (files.map fun f => (f.name, f.content)).Perm input) (repr : Str → Str → Str) (cfg : Str) :
    prepResults (input.map (·.1)) repr cfg files = expected input repr cfg := by
  have hf : (files.map (·.name)).Nodup := by
    have := (h.map (·.1)).nodup_iff.mpr hn
    rwa [List.map_map] at this
  have hm : ∀ e ∈ input, e ∈ files.map fun f => (f.name, f.content) := fun e he => h.mem_iff.mpr he
  clear h hn
  unfold prepResults expected
  induction input with
  | nil => rfl
  | cons e l ih =>
    obtain ⟨f, h1, h2⟩ := find_file (n := e.1) (t := e.2) hf (hm e List.mem_cons_self)
    have h3 := ih fun x hx => hm x (List.mem_cons_of_mem _ hx)
    rw [List.map_cons, List.filterMap_cons, h3]
    simp only [h1, Option.map_some]
    rw [h2]
    rfl

theorem not_missing {input : List (Bytes × Str)} {files results : List RFile}
    (h : (files.map fun f => (f.name, f.content)).Perm input) : ¬ Missing (input.map (·.1)) files results := by
  rintro ⟨n, hn, hp, -⟩
  have := (h.map (·.1)).mem_iff.2 hn
  rw [List.map_map] at this
  exact hp this

/-! ## Where the stages are -/

/-- Where the first stage is. -/
def parsePc : CPc → Pc
  | .off => .off
  | .create _ => .off
  | .createOut _ => .ready
  | .look _ => .ready
  | .parse _ p => p
  | .prep _ _ => .done
  | .count _ => .done
  | .counting _ => .done
  | .returned _ true => .ready
  | .returned _ false => .done

/-- The call that works on the results, and where the second stage is. -/
def prepAt : CPc → Option (Call × Pc)
  | .off => none
  | .create _ => none
  | .createOut _ => none
  | .look c => some (c, .ready)
  | .parse c _ => some (c, .ready)
  | .prep c p => some (c, p)
  | .count c => some (c, .done)
  | .counting c => some (c, .done)
  | .returned c true => some (c, .ready)
  | .returned c false => some (c, .done)

/-- Where the second stage is, for the given directory and configuration. -/
def prepPc (pc : CPc) (out cfg : Str) : Pc :=
  match prepAt pc with
  | none => .off
  | some (c, p) => if out = c.out ∧ cfg = c.cfg then p else .off

/-- The invariant. -/
structure CInv (input : List (Bytes × Str)) (repr : Str → Str → Str) (w : CWorld) : Prop where
  parsed : Inv input (w.parseStage (parsePc w.pc))
  prep : ∀ out cfg, Inv (expected input repr cfg) (w.prepStage out cfg (prepPc w.pc out cfg))
  vocab : ∀ cfg t, w.vocab cfg = some (.whole t) → RightVocab input repr cfg t

theorem upd_same {α β : Type} [DecidableEq α] (f : α → β) (a : α) (b : β) : upd f a b a = b := if_pos rfl

theorem upd_other {α β : Type} [DecidableEq α] (f : α → β) {a x : α} (b : β) (h : x ≠ a) : upd f a b x = f x := if_neg h

theorem upd2_same (f : Str → Str → Place) (o c : Str) (b : Place) : upd f o (upd (f o) c b) o c = b := by
  rw [upd_same, upd_same]

theorem upd2_other (f : Str → Str → Place) {o c x y : Str} (b : Place) (h : ¬ (x = o ∧ y = c)) : upd f o (upd (f o) c b) x y = f x y := by
  by_cases hx : x = o
  · subst hx
    rw [upd_same, upd_other _ _ (fun e => h ⟨rfl, e⟩)]
  · rw [upd_other _ _ hx]

theorem init_inv (input : List (Bytes × Str)) (repr : Str → Str → Str) (now : Nat) : CInv input repr (CWorld.init now) where
  parsed := .inl ⟨rfl, List.nodup_nil, fun f hf => by cases hf⟩
  prep _ _ := .inl ⟨rfl, List.nodup_nil, fun f hf => by cases hf⟩
  vocab _ _ h := by cases h

/-- Where a stage is matters only for the stage at work. -/
theorem prepPc_eq {pc : CPc} {c : Call} {p : Pc} (h : prepAt pc = some (c, p)) : prepPc pc c.out c.cfg = p := by
  simp [prepPc, h]

theorem step_inv {input : List (Bytes × Str)} {repr : Str → Str → Str} (hn : (input.map (·.1)).Nodup) {u v : CWorld} (hi : CInv input repr u)
    (h : CorpusStep input repr u v) : CInv input repr v := by
  have hne : ∀ cfg, ((expected input repr cfg).map (·.1)).Nodup := fun cfg => by rw [expected_names]; exact hn
  obtain ⟨hp, hq, hv⟩ := hi
  cases h with
  | begin c h =>
    rw [h] at hp hq
    exact ⟨hp, hq, hv⟩
  | create h =>
    rw [h] at hp hq
    refine ⟨?_, hq, hv⟩
    exact inv_call hn (marks := true) hp .create
  | @createOut c h =>
    rw [h] at hp hq
    refine ⟨hp, fun out cfg => ?_, hv⟩
    by_cases hk : out = c.out ∧ cfg = c.cfg
    · obtain ⟨rfl, rfl⟩ := hk
      have := inv_call (hne c.cfg) (marks := true) (hq c.out c.cfg) .create
      unfold CWorld.prepStage
      rw [prepPc_eq rfl]
      simp only [upd2_same]
      exact this
    · have := hq out cfg
      unfold CWorld.prepStage at this ⊢
      simp only [upd2_other _ _ hk]
      simp only [prepPc, prepAt, if_neg hk] at this ⊢
      exact this
  | found h hk hv' =>
    rw [h] at hp hq
    exact ⟨hp, hq, hv⟩
  | notFound h hv' =>
    rw [h] at hp hq
    exact ⟨hp, hq, hv⟩
  | @parse c p s h hs he =>
    rw [h] at hp hq
    refine ⟨inv_call hn hp hs, fun out cfg => ?_, hv⟩
    have h1 : u.now ≤ s.now := call_now hs
    exact inv_later (w := u.prepStage out cfg _) h1 (hq out cfg)
  | parsed h =>
    rw [h] at hp hq
    exact ⟨hp, hq, hv⟩
  | @prep c p s h hd hm hs he =>
    rw [h] at hp hq
    rw [prepResults_eq hn (show ((filesOf u.parsed.dir).map fun f => (f.name, f.content)).Perm input from hp.1)] at hs
    have h0 := inv_call (hne c.cfg) (by have := hq c.out c.cfg; rw [prepPc_eq rfl] at this; exact this) hs
    have h1 : u.now ≤ s.now := call_now hs
    refine ⟨inv_later (w := u.parseStage .done) h1 hp, fun out cfg => ?_, hv⟩
    by_cases hk : out = c.out ∧ cfg = c.cfg
    · obtain ⟨rfl, rfl⟩ := hk
      unfold CWorld.prepStage CWorld.putPrep
      rw [prepPc_eq rfl]
      simp only [upd2_same]
      exact inv_arch h0
    · have := inv_later (w := u.prepStage out cfg _) h1 (hq out cfg)
      unfold CWorld.prepStage CWorld.putPrep
      simp only [upd2_other _ _ hk]
      simp only [prepPc, prepAt, if_neg hk] at this ⊢
      exact inv_arch this
  | @prepExits c p h hd =>
    rw [h] at hp hq
    refine ⟨hp, fun out cfg => ?_, hv⟩
    have h0 := hq out cfg
    by_cases hk : out = c.out ∧ cfg = c.cfg
    · obtain ⟨rfl, rfl⟩ := hk
      rw [prepPc_eq rfl] at h0 ⊢
      exact (inv_quiet h0 :)
    · simp only [prepPc, prepAt, if_neg hk] at h0 ⊢
      exact h0
  | @prepFails c p h hd hm =>
    rw [h] at hp
    have h1 : ((filesOf u.parsed.dir).map fun f => (f.name, f.content)).Perm input := hp.1
    exact absurd hm (not_missing h1)
  | prepared h hk =>
    rw [h] at hp hq
    exact ⟨hp, hq, hv⟩
  | toCount h hk =>
    rw [h] at hp hq
    exact ⟨hp, hq, hv⟩
  | counted h hv' =>
    rw [h] at hp hq
    exact ⟨hp, hq, hv⟩
  | countNothing h hv' hi =>
    rw [h] at hp hq
    exact ⟨inv_off hp, fun out cfg => inv_off (hq out cfg), hv⟩
  | @countBegin c h hv' hi =>
    rw [h] at hp hq
    refine ⟨hp, hq, fun cfg t ht => ?_⟩
    by_cases hc : cfg = c.cfg
    · subst hc
      simp only [upd_same] at ht
      cases ht
    · simp only [upd_other _ _ hc] at ht
      exact hv cfg t ht
  | @countEnd c h =>
    rw [h] at hp hq
    refine ⟨hp, hq, fun cfg t ht => ?_⟩
    by_cases hc : cfg = c.cfg
    · subst hc
      simp only [upd_same, Option.some.injEq, VFile.whole.injEq] at ht
      subst ht
      have := hq c.out c.cfg
      rw [prepPc_eq rfl] at this
      have h1 := (this.1).map (·.2)
      rw [List.map_map] at h1
      exact h1
    · simp only [upd_other _ _ hc] at ht
      exact hv cfg t ht
  | exit => exact ⟨inv_off hp, fun out cfg => inv_off (hq out cfg), hv⟩
  | tick h => exact ⟨inv_later h hp, fun out cfg => inv_later h (hq out cfg), hv⟩

theorem user_place {u v : World} (h : UserStep u v) : v.archived = u.archived ∧ v.now = u.now ∧ v.pc = u.pc := by
  cases h <;> exact ⟨rfl, rfl, rfl⟩

theorem noticed_inv {input : List (Bytes × Str)} {repr : Str → Str → Str} {u v : CWorld} (hi : CInv input repr u)
    (h : CNoticed u v) : CInv input repr v := by
  obtain ⟨hp, hq, hv⟩ := hi
  cases h with
  | @parsed s h hs hc =>
    rw [h] at hp hq
    refine ⟨?_, ?_, hv⟩
    · have := inv_user hp hs hc
      obtain ⟨h1, h2, h3⟩ := user_place hs
      show Inv input ⟨s.dir, s.marker, u.archParsed, u.now, parsePc u.pc⟩
      rw [h]
      obtain ⟨d, m, a, n, p⟩ := s
      obtain rfl : n = u.now := h2
      obtain rfl : p = .off := h3
      exact inv_arch this
    · simp only [h]; exact hq
  | @prep s out cfg h hs hc =>
    rw [h] at hp hq
    refine ⟨by simp only [h]; exact hp, fun out' cfg' => ?_, hv⟩
    simp only [h]
    by_cases hk : out' = out ∧ cfg' = cfg
    · obtain ⟨rfl, rfl⟩ := hk
      have := inv_user (hq out' cfg') hs hc
      obtain ⟨h1, h2, h3⟩ := user_place hs
      unfold CWorld.prepStage
      simp only [upd2_same]
      obtain ⟨d, m, a, n, p⟩ := s
      obtain rfl : n = u.now := h2
      obtain rfl : p = .off := h3
      exact inv_arch this
    · have := hq out' cfg'
      unfold CWorld.prepStage at this ⊢
      simp only [upd2_other _ _ hk]
      exact this
  | vocab cfg h =>
    rw [h] at hp hq
    refine ⟨by simp only [h]; exact hp, by simp only [h]; exact hq, fun cfg' t ht => ?_⟩
    by_cases hc : cfg' = cfg
    · subst hc
      simp only [upd_same] at ht
      cases ht
    · simp only [upd_other _ _ hc] at ht
      exact hv cfg' t ht

theorem reach_inv {input : List (Bytes × Str)} {repr : Str → Str → Str} (hn : (input.map (·.1)).Nodup) {now : Nat} {w : CWorld}
    (h : Spec.Star (CCareful input repr) (CWorld.init now) w) : CInv input repr w := by
  induction h with
  | refl => exact init_inv input repr now
  | tail _ hs ih =>
    rcases hs with hs | hs
    · exact step_inv hn ih hs
    · exact noticed_inv ih hs

end Verif.Corpus
