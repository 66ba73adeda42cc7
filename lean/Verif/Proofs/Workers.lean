import Verif.Spec.Workers
/-!
# Workers: the invariant
-/
namespace Verif.Pool
open Verif

/-- The file a worker is at. -/
def held : WSt → Option Job
  | .idle => none
  | .start j | .opening j | .writing j _ _ | .saving j | .tokens j _ _ | .moving j | .raised j => some j

/-- The file with tokens a worker is writing. -/
def tok : WSt → Option Nat
  | .tokens _ i _ => some i
  | _ => none

/-- The unfinished file is complete. -/
def PartFull (d : Disk) (j : Job) : Prop := ∃ i s t, j.res = .ok s t ∧ d.dir (partOf j.dest) = some i ∧ d.data i = s

/-- The tokens have been saved, and nobody is writing to that file. -/
def Saved (c : Setup) (busy : Nat → Prop) (d : Disk) (j : Job) : Prop := c.saveTokens = true → c.fresh = true →
  ∃ s t p i, j.res = .ok s t ∧ d.dir (.side p) = some i ∧ d.data i = t ∧ ¬ busy i

/-- What holds for a worker. -/
def WOk (c : Setup) (busy : Nat → Prop) (d : Disk) : WSt → Prop
  | .idle => True
  | .start _ => True
  | .raised _ => True
  | .opening j => d.dir (.out j.dest) = none
  | .writing j i pos => d.dir (.out j.dest) = none ∧ d.dir (partOf j.dest) = some i ∧
      ∀ s t, j.res = .ok s t → pos ≤ s.length ∧ d.data i = s.take pos
  | .saving j => d.dir (.out j.dest) = none ∧ PartFull d j
  | .tokens j i pos => d.dir (.out j.dest) = none ∧ PartFull d j ∧ (∃ p, d.dir (.side p) = some i) ∧
      (c.fresh = true → ∀ s t, j.res = .ok s t → pos ≤ t.length ∧ d.data i = t.take pos)
  | .moving j => d.dir (.out j.dest) = none ∧ PartFull d j ∧ Saved c busy d j

/-- Different paths are different files. -/
structure DiskOk (d : Disk) : Prop where
  inj : ∀ p q i, d.dir p = some i → d.dir q = some i → p = q
  lt : ∀ p i, d.dir p = some i → i < d.next

/-- What a step of a worker leaves as it is. -/
structure Frame (c : Setup) (d : Disk) (s : WSt) (j : Job) (d' : Disk) : Prop where
  out : ∀ q, q ≠ j.dest → q ≠ j.dest ++ partExt → d'.dir (.out q) = d.dir (.out q)
  side : ∀ p i, d.dir (.side p) = some i → d'.dir (.side p) = some i
  outData : ∀ q i, q ≠ j.dest ++ partExt → d.dir (.out q) = some i → d'.data i = d.data i
  sideData : ∀ p i, c.fresh = true → d.dir (.side p) = some i → tok s ≠ some i → d'.data i = d.data i

theorem put_dir (d : Disk) (i : Nat) (s : Str) : (d.put i s).dir = d.dir := rfl

theorem put_data (d : Disk) (i k : Nat) (s : Str) : (d.put i s).data k = if k = i then s else d.data k := rfl

/-- `open(p, 'w')`. -/
theorem create_spec (d : Disk) (hd : DiskOk d) (p : Path) :
    (d.create p).1.dir p = some (d.create p).2 ∧ (d.create p).1.data (d.create p).2 = [] ∧
    (∀ q, q ≠ p → (d.create p).1.dir q = d.dir q) ∧ (∀ i, i ≠ (d.create p).2 → (d.create p).1.data i = d.data i) ∧
    (∀ i, d.dir p = some i → (d.create p).2 = i) ∧ (d.dir p = none → (d.create p).2 = d.next) ∧ DiskOk (d.create p).1 := by
  unfold Disk.create
  cases h : d.dir p with
  | some i =>
    simp only
    refine ⟨h, by simp [put_data], fun _ _ => rfl, fun k hk => by simp [put_data, hk], fun k hk => ?_, by simp, hd.inj, hd.lt⟩
    exact Option.some.inj hk
  | none =>
    simp only
    refine ⟨by simp, by simp [put_data], fun q hq => by simp [hq], fun k hk => by simp [put_data, hk], by simp, by simp, ?_, ?_⟩
    · intro a b i ha hb
      simp only at ha hb
      split at ha <;> split at hb
      · next h1 h2 => rw [h1, h2]
      · have := hd.lt _ _ hb; have := Option.some.inj ha; omega
      · have := hd.lt _ _ ha; have := Option.some.inj hb; omega
      · exact hd.inj _ _ _ ha hb
    · intro a i ha
      simp only at ha ⊢
      split at ha
      · have := Option.some.inj ha; omega
      · have := hd.lt _ _ ha; omega

theorem put_ok {d : Disk} (hd : DiskOk d) (i : Nat) (s : Str) : DiskOk (d.put i s) := ⟨hd.inj, hd.lt⟩

theorem pwrite_take {s : Str} {pos n : Nat} (hp : pos + n ≤ s.length) :
    pwrite (s.take pos) pos ((s.drop pos).take n) = s.take (pos + n) := by
  unfold pwrite
  have h1 : (s.take pos).length = pos := by rw [List.length_take]; omega
  have h2 : ((s.drop pos).take n).length = n := by rw [List.length_take, List.length_drop]; omega
  rw [List.drop_eq_nil_of_le (as := s.take pos) (by rw [h1]; omega), h1, Nat.sub_self, List.replicate_zero, List.append_nil, List.append_nil,
    List.take_of_length_le (by omega), ← List.take_add]

theorem rename_ok {d : Disk} (hd : DiskOk d) {p q : Path} : DiskOk (d.rename p q) := by
  refine ⟨?_, ?_⟩
  · intro a b i ha hb
    unfold Disk.rename at ha hb
    simp only at ha hb
    split at ha <;> split at hb
    · next h1 h2 => rw [h1, h2]
    · split at hb
      · cases hb
      · next h1 h2 h3 => exact absurd (hd.inj _ _ _ hb ha) h3
    · split at ha
      · cases ha
      · next h1 h2 h3 => exact absurd (hd.inj _ _ _ ha hb) h3
    · split at ha
      · cases ha
      · split at hb
        · cases hb
        · exact hd.inj _ _ _ ha hb
  · intro a i ha
    unfold Disk.rename at ha
    simp only at ha
    split at ha
    · exact hd.lt _ _ ha
    · split at ha
      · cases ha
      · exact hd.lt _ _ ha

theorem part_ne (d : Bytes) : d ++ partExt ≠ d := by
  intro h
  have := congrArg List.length h
  rw [List.length_append] at this
  have : partExt.length = 5 := by decide
  omega

theorem partOf_ne (d : Bytes) : partOf d ≠ .out d := fun h => part_ne d (Path.out.inj h)

/-- What a step of a worker does. -/
theorem wstep_spec {c : Setup} {d d' : Disk} {s s' : WSt} {j : Job} {busy : Nat → Prop} (hd : DiskOk d) (hs : held s = some j)
    (hw : WOk c busy d s) (h : WStep c d s d' s') : DiskOk d' ∧ Frame c d s j d' := by
  have triv : DiskOk d ∧ Frame c d s j d := ⟨hd, fun _ _ _ => rfl, fun _ _ h => h, fun _ _ _ _ => rfl, fun _ _ _ _ _ => rfl⟩
  have putp : ∀ (i : Nat) (x : Str), d.dir (partOf j.dest) = some i → DiskOk (d.put i x) ∧ Frame c d s j (d.put i x) := by
    intro i x hi
    refine ⟨put_ok hd _ _, fun _ _ _ => rfl, fun _ _ h => h, fun q k hq hk => ?_, fun p k _ hk _ => ?_⟩
    · rw [put_data, if_neg]
      rintro rfl
      exact hq (Path.out.inj (hd.inj _ _ _ hk hi))
    · rw [put_data, if_neg]
      rintro rfl
      cases hd.inj _ _ _ hk hi
  cases h with
  | skip h => exact triv
  | check h => exact triv
  | noSource _ _ => exact triv
  | @openPart j' h =>
    obtain rfl := Option.some.inj hs
    obtain ⟨c1, c2, c3, c4, c5, c6, c7⟩ := create_spec d hd (partOf j'.dest)
    refine ⟨c7, fun q _ hq => c3 _ (by intro h; exact hq (Path.out.inj h)), fun p i hp => ?_, fun q i hq hi => c4 _ ?_, fun p i _ hi _ => c4 _ ?_⟩
    · rw [c3 _ (by intro h; cases h)]; exact hp
    · intro he
      cases hp : d.dir (partOf j'.dest) with
      | none => have := c6 hp; have := hd.lt _ _ hi; omega
      | some k =>
        have := c5 k hp
        rw [← this, ← he] at hp
        exact hq (Path.out.inj (hd.inj _ _ _ hi hp))
    · intro he
      cases hp : d.dir (partOf j'.dest) with
      | none => have := c6 hp; have := hd.lt _ _ hi; omega
      | some k =>
        have := c5 k hp
        rw [← this, ← he] at hp
        cases hd.inj _ _ _ hi hp
  | ignore _ _ junk => obtain rfl := Option.some.inj hs; exact putp _ _ hw.2.1
  | fail _ => exact triv
  | write n hr hn hp => obtain rfl := Option.some.inj hs; exact putp _ _ hw.2.1
  | close _ _ => exact triv
  | @openTokens j' time hf =>
    obtain rfl := Option.some.inj hs
    obtain ⟨c1, c2, c3, c4, c5, c6, c7⟩ := create_spec d hd (tokensName j'.dest time)
    refine ⟨c7, fun q _ _ => c3 _ (by intro h; cases h), fun p i hp => ?_, fun q i hq hi => c4 _ ?_, fun p i hfr hi _ => c4 _ ?_⟩
    · by_cases he : Path.side p = tokensName j'.dest time
      · rw [he] at hp ⊢; rw [c1, c5 _ hp]
      · rw [c3 _ he]; exact hp
    · intro he
      cases hp : d.dir (tokensName j'.dest time) with
      | none => have := c6 hp; have := hd.lt _ _ hi; omega
      | some k =>
        have := c5 k hp
        rw [← this, ← he] at hp
        cases hd.inj _ _ _ hi hp
    · intro he
      have := c6 (hf hfr)
      have := hd.lt _ _ hi
      omega
  | @writeTokens j' i pos s t n hr hn hp =>
    obtain ⟨_, _, ⟨p, hp'⟩, _⟩ := hw
    refine ⟨put_ok hd _ _, fun _ _ _ => rfl, fun _ _ h => h, fun q k hq hk => ?_, fun q k _ hk ht => ?_⟩
    · rw [put_data, if_neg]
      rintro rfl
      cases hd.inj _ _ _ hk hp'
    · rw [put_data, if_neg]
      rintro rfl
      exact ht rfl
  | closeTokens _ _ => exact triv
  | @rename j' =>
    obtain rfl := Option.some.inj hs
    refine ⟨rename_ok hd, fun q h1 h2 => ?_, fun p i hp => ?_, fun _ _ _ _ => rfl, fun _ _ _ _ _ => rfl⟩
    · unfold Disk.rename
      simp only
      rw [if_neg (by intro h; exact h1 (Path.out.inj h)), if_neg (by intro h; exact h2 (Path.out.inj h))]
    · unfold Disk.rename
      simp only
      rw [if_neg (by intro h; cases h), if_neg (by intro h; cases h)]
      exact hp

/-- A step does not disturb a worker at another file. -/
theorem wok_frame {c : Setup} {d d' : Disk} {s u : WSt} {j k : Job} {busy busy' : Nat → Prop} (hf : Frame c d s j d')
    (h1 : k.dest ≠ j.dest) (h2 : k.dest ≠ j.dest ++ partExt) (h3 : j.dest ≠ k.dest ++ partExt) (hu : held u = some k)
    (ht : c.fresh = true → ∀ i, tok s = some i → tok u ≠ some i) (hb : ∀ i, c.fresh = true → tok s = some i → busy i)
    (hb' : c.fresh = true → ∀ p i, d.dir (.side p) = some i → ¬ busy i → ¬ busy' i) (hw : WOk c busy d u) : WOk c busy' d' u := by
  have hpp : k.dest ++ partExt ≠ j.dest ++ partExt := fun h => h1 (List.append_cancel_right h)
  have hdest : d'.dir (.out k.dest) = d.dir (.out k.dest) := hf.out _ h1 h2
  have hpart : d'.dir (partOf k.dest) = d.dir (partOf k.dest) := hf.out _ (Ne.symm h3) hpp
  have hfull : PartFull d k → PartFull d' k := by
    rintro ⟨i, s, t, hr, hi, he⟩
    exact ⟨i, s, t, hr, hpart ▸ hi, (hf.outData _ _ hpp hi).trans he⟩
  have hsaved : Saved c busy d k → Saved c busy' d' k := by
    intro h a b
    obtain ⟨s', t, p, i, hr, hi, he, hn⟩ := h a b
    refine ⟨s', t, p, i, hr, hf.side _ _ hi, (hf.sideData _ _ b hi ?_).trans he, hb' b _ _ hi hn⟩
    intro h'
    exact hn (hb _ b h')
  cases u with
  | idle => trivial
  | start _ => trivial
  | raised _ => trivial
  | opening k' => obtain rfl := Option.some.inj hu; exact hdest.trans hw
  | writing k' i pos =>
    obtain rfl := Option.some.inj hu
    obtain ⟨a, b, e⟩ := hw
    refine ⟨hdest.trans a, hpart.trans b, fun s t hr => ?_⟩
    rw [hf.outData _ _ hpp b]
    exact e s t hr
  | saving k' => obtain rfl := Option.some.inj hu; exact ⟨hdest.trans hw.1, hfull hw.2⟩
  | tokens k' i pos =>
    obtain rfl := Option.some.inj hu
    obtain ⟨a, b, ⟨p, hp⟩, e⟩ := hw
    refine ⟨hdest.trans a, hfull b, ⟨p, hf.side _ _ hp⟩, fun hfr s' t hr => ?_⟩
    rw [hf.sideData _ _ hfr hp (fun h' => ht hfr _ h' rfl)]
    exact e hfr s' t hr
  | moving k' => obtain rfl := Option.some.inj hu; exact ⟨hdest.trans hw.1, hfull hw.2.1, hsaved hw.2.2⟩

/-- The file is processed, or its source is missing, which is ignored when parsing. -/
def Done (c : Setup) (d : Disk) (j : Job) : Prop := d.dir (.out j.dest) ≠ none ∨ (c.stage = .parse ∧ j.res = .missing)

theorem saved_frame {c : Setup} {d d' : Disk} {s : WSt} {j k : Job} {busy busy' : Nat → Prop} (hf : Frame c d s j d')
    (hb : ∀ i, c.fresh = true → tok s = some i → busy i)
    (hb' : c.fresh = true → ∀ p i, d.dir (.side p) = some i → ¬ busy i → ¬ busy' i) (h : Saved c busy d k) : Saved c busy' d' k := by
  intro a b
  obtain ⟨s', t, p, i, hr, hi, he, hn⟩ := h a b
  refine ⟨s', t, p, i, hr, hf.side _ _ hi, (hf.sideData _ _ b hi ?_).trans he, hb' b _ _ hi hn⟩
  intro h'
  exact hn (hb _ b h')

/-- What a step means for the worker and its file. -/
theorem wstep_own {c : Setup} {d d' : Disk} {s s' : WSt} {j : Job} {busy busy' : Nat → Prop} (hd : DiskOk d) (hs : held s = some j)
    (hw : WOk c busy d s) (h : WStep c d s d' s')
    (hc : ∀ i, d.dir (.out j.dest) = some i → (∃ s t, j.res = .ok s t ∧ d.data i = s) ∧ Saved c busy d j)
    (hb : ∀ i, c.fresh = true → tok s = some i → busy i)
    (hb' : c.fresh = true → ∀ p i, d.dir (.side p) = some i → ¬ busy i → ¬ busy' i)
    (hown : c.fresh = true → ∀ i, tok s = some i → tok s' ≠ some i → ¬ busy' i) :
    WOk c busy' d' s' ∧ (held s' = some j ∨ s' = .idle ∧ Done c d' j) ∧
    (∀ i, d'.dir (.out j.dest) = some i → (∃ s t, j.res = .ok s t ∧ d'.data i = s) ∧ Saved c busy' d' j) ∧
    (∀ i, tok s' = some i → tok s = some i ∨ (c.fresh = true → ∀ p, d.dir (.side p) ≠ some i)) := by
  have hf := (wstep_spec hd hs hw h).2
  have hcd : ∀ i, d'.dir (.out j.dest) = d.dir (.out j.dest) → d'.dir (.out j.dest) = some i →
      (∃ s t, j.res = .ok s t ∧ d'.data i = s) ∧ Saved c busy' d' j := by
    intro i he hi
    rw [he] at hi
    obtain ⟨⟨s, t, e1, e2⟩, e3⟩ := hc i hi
    exact ⟨⟨s, t, e1, (hf.outData _ _ (part_ne j.dest).symm hi).trans e2⟩, saved_frame hf hb hb' e3⟩
  cases h with
  | skip h =>
    obtain rfl := Option.some.inj hs
    exact ⟨trivial, .inr ⟨rfl, .inl h⟩, fun i => hcd i rfl, by simp [tok]⟩
  | check h =>
    obtain rfl := Option.some.inj hs
    exact ⟨h, .inl rfl, fun i => hcd i rfl, by simp [tok]⟩
  | noSource _ _ =>
    obtain rfl := Option.some.inj hs
    exact ⟨trivial, .inl rfl, fun i => hcd i rfl, by simp [tok]⟩
  | @openPart j' h =>
    obtain rfl := Option.some.inj hs
    obtain ⟨c1, c2, c3, -⟩ := create_spec d hd (partOf j'.dest)
    have e := c3 (.out j'.dest) (partOf_ne _).symm
    refine ⟨⟨e.trans hw, c1, fun s t hr => ⟨Nat.zero_le _, by rw [c2]; rfl⟩⟩, .inl rfl, fun i => hcd i e, by simp [tok]⟩
  | ignore hp hr junk =>
    obtain rfl := Option.some.inj hs
    exact ⟨trivial, .inr ⟨rfl, .inr ⟨hp, hr⟩⟩, fun i => hcd i rfl, by simp [tok]⟩
  | fail _ =>
    obtain rfl := Option.some.inj hs
    exact ⟨trivial, .inl rfl, fun i => hcd i rfl, by simp [tok]⟩
  | @write j' i pos s t n hr hn hp =>
    obtain rfl := Option.some.inj hs
    obtain ⟨w1, w2, w3⟩ := hw
    refine ⟨⟨w1, w2, fun s' t' hr' => ?_⟩, .inl rfl, fun i => hcd i rfl, by simp [tok]⟩
    rw [hr] at hr'
    cases hr'
    refine ⟨hp, ?_⟩
    rw [put_data, if_pos rfl, (w3 s t hr).2, pwrite_take hp]
  | @close j' i pos s t hr hp =>
    obtain rfl := Option.some.inj hs
    obtain ⟨w1, w2, w3⟩ := hw
    have hpf : PartFull d j' := ⟨i, s, t, hr, w2, by rw [(w3 s t hr).2, hp, List.take_length]⟩
    refine ⟨?_, ?_, fun i => hcd i rfl, ?_⟩
    · split
      · exact ⟨w1, hpf⟩
      · next h => exact ⟨w1, hpf, fun a => absurd a h⟩
    · split <;> exact .inl rfl
    · split <;> simp [tok]
  | @openTokens j' time hfr =>
    obtain rfl := Option.some.inj hs
    obtain ⟨c1, c2, c3, c4, c5, c6, c7⟩ := create_spec d hd (tokensName j'.dest time)
    have e := c3 (.out j'.dest) (by intro h; cases h)
    obtain ⟨w1, i, s, t, hr, w2, w3⟩ := hw
    refine ⟨⟨e.trans w1, ⟨i, s, t, hr, (c3 _ (by intro h; cases h)).trans w2, ?_⟩, ⟨_, c1⟩, fun _ s t _ => ⟨Nat.zero_le _, by rw [c2]; rfl⟩⟩,
      .inl rfl, fun i => hcd i e, ?_⟩
    · rw [c4 _ ?_]
      · exact w3
      · intro he
        cases hp : d.dir (tokensName j'.dest time) with
        | none => have := c6 hp; have := hd.lt _ _ w2; omega
        | some k =>
          have := c5 k hp
          rw [← this, ← he] at hp
          cases hd.inj _ _ _ w2 hp
    · intro k hk
      right
      intro hfr' p hp
      obtain rfl := Option.some.inj hk
      have := c6 (hfr hfr')
      have := hd.lt _ _ hp
      omega
  | @writeTokens j' i pos s t n hr hn hp =>
    obtain rfl := Option.some.inj hs
    obtain ⟨w1, ⟨k, s', t', hr', w2, w2'⟩, ⟨p, w3⟩, w4⟩ := hw
    rw [hr] at hr'
    cases hr'
    refine ⟨⟨w1, ⟨k, s, t, hr, w2, ?_⟩, ⟨p, w3⟩, fun hfr s' t' hr' => ?_⟩, .inl rfl, fun i => hcd i rfl, ?_⟩
    · rw [put_data, if_neg]
      · exact w2'
      · rintro rfl
        cases hd.inj _ _ _ w2 w3
    · rw [hr] at hr'
      cases hr'
      refine ⟨hp, ?_⟩
      rw [put_data, if_pos rfl, (w4 hfr s t hr).2, pwrite_take hp]
    · intro k hk; exact .inl hk
  | @closeTokens j' i pos s t hr hp =>
    obtain rfl := Option.some.inj hs
    obtain ⟨w1, w2, ⟨p, w3⟩, w4⟩ := hw
    refine ⟨⟨w1, w2, fun _ hfr => ⟨s, t, p, i, hr, w3, ?_, hown hfr i rfl (by simp [tok])⟩⟩, .inl rfl, fun i => hcd i rfl, by simp [tok]⟩
    rw [(w4 hfr s t hr).2, hp, List.take_length]
  | @rename j' =>
    obtain rfl := Option.some.inj hs
    obtain ⟨w1, ⟨i, s, t, hr, w2, w3⟩, w4⟩ := hw
    have e : (d.rename (partOf j'.dest) (.out j'.dest)).dir (.out j'.dest) = some i := by
      unfold Disk.rename; simp only [if_pos]; exact w2
    refine ⟨trivial, .inr ⟨rfl, .inl (by rw [e]; simp)⟩, fun k hk => ?_, by simp [tok]⟩
    rw [e] at hk
    obtain rfl := Option.some.inj hk
    exact ⟨⟨s, t, hr, w3⟩, saved_frame hf hb hb' w4⟩

/-! ## The invariant -/

/-- A file with tokens is being written. -/
def Busy (r : Run) (i : Nat) : Prop := ∃ w, tok (r.workers w) = some i

/-- All results on the disk are complete. -/
def Complete (c : Setup) (busy : Nat → Prop) (d : Disk) (jobs : List Job) : Prop :=
  ∀ j ∈ jobs, ∀ i, d.dir (.out j.dest) = some i → (∃ s t, j.res = .ok s t ∧ d.data i = s) ∧ Saved c busy d j

/-- What holds during a run. -/
structure RunOk (c : Setup) (jobs : List Job) (n : Nat) (d : Disk) (r : Run) : Prop where
  disk : DiskOk d
  complete : Complete c (Busy r) d jobs
  pending : ∀ j ∈ r.pending, j ∈ jobs
  once : r.pending.Nodup
  heldIn : ∀ w j, held (r.workers w) = some j → j ∈ jobs ∧ j ∉ r.pending
  heldNe : ∀ w w' j, held (r.workers w) = some j → held (r.workers w') = some j → w = w'
  ok : ∀ w, WOk c (Busy r) d (r.workers w)
  tokNe : c.fresh = true → ∀ w w' i, tok (r.workers w) = some i → tok (r.workers w') = some i → w = w'
  account : ∀ j ∈ jobs, j ∈ r.pending ∨ (∃ w, held (r.workers w) = some j) ∨ Done c d j
  few : ∀ w, r.workers w ≠ .idle → w < n

/-- What always holds. -/
structure WorldOk (c : Setup) (jobs : List Job) (n : Nat) (w : World) : Prop where
  disk : DiskOk w.disk
  complete : w.run = none → Complete c (fun _ => False) w.disk jobs
  running : ∀ r, w.run = some r → RunOk c jobs n w.disk r
  finished : w.ready = true → ∀ j ∈ jobs, Done c w.disk j

theorem nodup_of_map_inj {α β : Type} {f : α → β} {l : List α} (h : (l.map f).Nodup) {a b : α} (ha : a ∈ l) (hb : b ∈ l)
    (he : f a = f b) : a = b := by
  induction l with
  | nil => cases ha
  | cons x l ih =>
    rw [List.map_cons, List.nodup_cons] at h
    rcases List.mem_cons.mp ha with ha | ha <;> rcases List.mem_cons.mp hb with hb | hb
    · rw [ha, hb]
    · exact absurd (ha ▸ he ▸ List.mem_map_of_mem hb) h.1
    · exact absurd (hb ▸ he ▸ List.mem_map_of_mem ha) h.1
    · exact ih h.2 ha hb

theorem dest_inj {jobs : List Job} (hg : GoodJobs jobs) {j k : Job} (hj : j ∈ jobs) (hk : k ∈ jobs) (h : j.dest = k.dest) : j = k :=
  nodup_of_map_inj hg.distinct hj hk h

theorem dest_part {jobs : List Job} (hg : GoodJobs jobs) {j k : Job} (hj : j ∈ jobs) : j.dest ≠ k.dest ++ partExt :=
  fun h => hg.notPart j hj ⟨_, h.symm⟩

theorem busy_none_of_busy {c : Setup} {d : Disk} {r : Run} {jobs : List Job} (h : Complete c (Busy r) d jobs) :
    Complete c (fun _ => False) d jobs := by
  intro j hj i hi
  obtain ⟨h1, h2⟩ := h j hj i hi
  refine ⟨h1, fun a b => ?_⟩
  obtain ⟨s, t, p, i, e1, e2, e3, _⟩ := h2 a b
  exact ⟨s, t, p, i, e1, e2, e3, id⟩

theorem WStep.held {c : Setup} {d d' : Disk} {s s' : WSt} (h : WStep c d s d' s') : ∃ j, held s = some j := by
  cases h <;> exact ⟨_, rfl⟩

theorem done_frame {c : Setup} {d d' : Disk} {s : WSt} {j k : Job} (hf : Frame c d s j d') (h1 : k.dest ≠ j.dest)
    (h2 : k.dest ≠ j.dest ++ partExt) (h : Done c d k) : Done c d' k := by
  rcases h with h | h
  · exact .inl (by rw [hf.out _ h1 h2]; exact h)
  · exact .inr h

theorem set_workers (r : Run) (w : Nat) (s : WSt) (x : Nat) : (r.set w s).workers x = if x = w then s else r.workers x := rfl

theorem wstep_tok {c : Setup} {d d' : Disk} {s s' : WSt} (hd : DiskOk d) (h : WStep c d s d' s') {i : Nat} (hi : tok s' = some i) :
    tok s = some i ∨ (c.fresh = true → ∀ p, d.dir (.side p) ≠ some i) := by
  cases h with
  | @openTokens j' time hfr =>
    right
    intro hfr' p hp
    obtain rfl := Option.some.inj hi
    have := (create_spec d hd (tokensName j'.dest time)).2.2.2.2.2.1 (hfr hfr')
    have := hd.lt _ _ hp
    omega
  | writeTokens => exact .inl hi
  | close => split at hi <;> cases hi
  | _ => cases hi

theorem tok_side {c : Setup} {d : Disk} {busy : Nat → Prop} {s : WSt} {i : Nat} (h : WOk c busy d s) (hi : tok s = some i) :
    ∃ p, d.dir (.side p) = some i := by
  cases s with
  | tokens j k pos => obtain rfl := Option.some.inj hi; exact h.2.2.1
  | _ => cases hi

/-- A step of a worker keeps the invariant. -/
theorem work_ok {c : Setup} {jobs : List Job} {n : Nat} (hg : GoodJobs jobs) {d d' : Disk} {r : Run} {w : Nat} {s' : WSt} (hr : RunOk c jobs n d r)
    (hw : w < n) (h : WStep c d (r.workers w) d' s') : RunOk c jobs n d' (r.set w s') := by
  obtain ⟨j, hj⟩ := h.held
  obtain ⟨hjm, hjp⟩ := hr.heldIn w j hj
  obtain ⟨hd', hf⟩ := wstep_spec hr.disk hj (hr.ok w) h
  have hb : ∀ i, c.fresh = true → tok (r.workers w) = some i → Busy r i := fun i _ h => ⟨w, h⟩
  have hb' : c.fresh = true → ∀ p i, d.dir (.side p) = some i → ¬ Busy r i → ¬ Busy (r.set w s') i := by
    rintro hfr p i hp hn ⟨x, hx⟩
    rw [set_workers] at hx
    split at hx
    · rcases wstep_tok hr.disk h hx with h1 | h1
      · exact hn ⟨w, h1⟩
      · exact h1 hfr p hp
    · exact hn ⟨x, hx⟩
  have hown : c.fresh = true → ∀ i, tok (r.workers w) = some i → tok s' ≠ some i → ¬ Busy (r.set w s') i := by
    rintro hfr i h1 h2 ⟨x, hx⟩
    rw [set_workers] at hx
    split at hx
    · exact h2 hx
    · next hne => exact hne (hr.tokNe hfr x w i hx h1)
  obtain ⟨o1, o2, o3, -⟩ := wstep_own hr.disk hj (hr.ok w) h (hr.complete j hjm) hb hb' hown
  have hheld : ∀ x k, held ((r.set w s').workers x) = some k → held (r.workers x) = some k := by
    intro x k hx
    rw [set_workers] at hx
    split at hx
    · next he =>
      rcases o2 with o2 | ⟨o2, -⟩
      · rw [he, hj, ← hx, o2]
      · rw [o2] at hx; cases hx
    · exact hx
  have hother : ∀ k ∈ jobs, k ≠ j → k.dest ≠ j.dest ∧ k.dest ≠ j.dest ++ partExt ∧ j.dest ≠ k.dest ++ partExt :=
    fun k hk hne => ⟨fun e => hne (dest_inj hg hk hjm e), dest_part hg hk, dest_part hg hjm⟩
  refine ⟨hd', ?_, hr.pending, hr.once, ?_, ?_, ?_, ?_, ?_, ?_⟩
  · intro k hk i hi
    by_cases he : k = j
    · subst he; exact o3 i hi
    · obtain ⟨n1, n2, n3⟩ := hother k hk he
      rw [hf.out _ n1 n2] at hi
      obtain ⟨⟨s, t, e1, e2⟩, e3⟩ := hr.complete k hk i hi
      exact ⟨⟨s, t, e1, (hf.outData _ _ n2 hi).trans e2⟩, saved_frame hf hb hb' e3⟩
  · intro x k hx
    exact hr.heldIn x k (hheld x k hx)
  · intro x y k hx hy
    exact hr.heldNe x y k (hheld x k hx) (hheld y k hy)
  · intro x
    rw [set_workers]
    split
    · exact o1
    · next hne =>
      cases hk : held (r.workers x) with
      | none =>
        cases hs : r.workers x with
        | idle => trivial
        | _ => rw [hs] at hk; cases hk
      | some k =>
        have hkj : k ≠ j := by
          rintro rfl
          exact hne (hr.heldNe x w k hk hj)
        obtain ⟨n1, n2, n3⟩ := hother k (hr.heldIn x k hk).1 hkj
        exact wok_frame hf n1 n2 n3 hk (fun hfr i h1 h2 => hne (hr.tokNe hfr x w i h2 h1)) hb hb' (hr.ok x)
  · intro hfr x y i hx hy
    rw [set_workers] at hx hy
    have key : ∀ z, z ≠ w → tok s' = some i → tok (r.workers z) = some i → False := by
      intro z hz h1 h2
      rcases wstep_tok hr.disk h h1 with h3 | h3
      · exact hz (hr.tokNe hfr z w i h2 h3)
      · obtain ⟨p, hp⟩ := tok_side (hr.ok z) h2
        exact h3 hfr p hp
    split at hx <;> split at hy
    · next h1 h2 => rw [h1, h2]
    · next h1 h2 => exact (key y h2 hx hy).elim
    · next h1 h2 => exact (key x h1 hy hx).elim
    · exact hr.tokNe hfr x y i hx hy
  · intro k hk
    rcases hr.account k hk with h1 | ⟨x, hx⟩ | h1
    · exact .inl h1
    · by_cases hxw : x = w
      · subst hxw
        rw [hj] at hx
        obtain rfl := Option.some.inj hx
        rcases o2 with o2 | ⟨-, o2⟩
        · exact .inr (.inl ⟨x, by rw [set_workers, if_pos rfl]; exact o2⟩)
        · exact .inr (.inr o2)
      · exact .inr (.inl ⟨x, by rw [set_workers, if_neg hxw]; exact hx⟩)
    · refine .inr ?_
      by_cases he : k = j
      · subst he
        rcases o2 with o2 | ⟨-, o2⟩
        · exact .inl ⟨w, by rw [set_workers, if_pos rfl]; exact o2⟩
        · exact .inr o2
      · obtain ⟨n1, n2, n3⟩ := hother k hk he
        exact .inr (done_frame hf n1 n2 h1)
  · intro x hx
    rw [set_workers] at hx
    split at hx
    · next he => rw [he]; exact hw
    · exact hr.few x hx

theorem nodup_of_map_nodup {α β : Type} {f : α → β} {l : List α} (h : (l.map f).Nodup) : l.Nodup := by
  induction l with
  | nil => exact .nil
  | cons a l ih =>
    rw [List.map_cons, List.nodup_cons] at h
    exact List.nodup_cons.mpr ⟨fun hm => h.1 (List.mem_map_of_mem hm), ih h.2⟩

theorem take_ok {c : Setup} {jobs : List Job} {n : Nat} {d : Disk} {r : Run} {w : Nat} {j : Job} {a b : List Job} (hr : RunOk c jobs n d r)
    (hw : w < n) (hi : r.workers w = .idle) (hp : r.pending = a ++ j :: b) :
    RunOk c jobs n d ({ r with pending := a ++ b }.set w (.start j)) := by
  have hsub : ∀ k, k ∈ a ++ b → k ∈ r.pending := by
    intro k hk
    rw [hp]
    rcases List.mem_append.mp hk with h | h
    · exact List.mem_append_left _ h
    · exact List.mem_append_right _ (List.mem_cons_of_mem _ h)
  have hjp : j ∈ r.pending := by rw [hp]; simp
  have honce := hr.once
  rw [hp, List.nodup_append] at honce
  obtain ⟨o1, o2, o3⟩ := honce
  rw [List.nodup_cons] at o2
  have hjn : j ∉ a ++ b := by
    intro h
    rcases List.mem_append.mp h with h | h
    · exact o3 j h j (by simp) rfl
    · exact o2.1 h
  have hbusy : ∀ i, Busy ({ r with pending := a ++ b }.set w (.start j)) i → Busy r i := by
    rintro i ⟨x, hx⟩
    rw [set_workers] at hx
    split at hx
    · cases hx
    · exact ⟨x, hx⟩
  have hsaved : ∀ k, Saved c (Busy r) d k → Saved c (Busy ({ r with pending := a ++ b }.set w (.start j))) d k := by
    intro k h h1 h2
    obtain ⟨s, t, p, i, e1, e2, e3, e4⟩ := h h1 h2
    exact ⟨s, t, p, i, e1, e2, e3, fun h => e4 (hbusy i h)⟩
  refine ⟨hr.disk, ?_, fun k hk => hr.pending k (hsub k hk), ?_, ?_, ?_, ?_, ?_, ?_, ?_⟩
  · intro k hk i hi
    obtain ⟨e1, e2⟩ := hr.complete k hk i hi
    exact ⟨e1, hsaved k e2⟩
  · show (a ++ b).Nodup
    rw [List.nodup_append]
    exact ⟨o1, o2.2, fun x hx y hy => o3 x hx y (List.mem_cons_of_mem _ hy)⟩
  · intro x k hx
    rw [set_workers] at hx
    split at hx
    · obtain rfl := Option.some.inj hx; exact ⟨hr.pending _ hjp, hjn⟩
    · obtain ⟨e1, e2⟩ := hr.heldIn x k hx
      exact ⟨e1, fun h => e2 (hsub k h)⟩
  · intro x y k hx hy
    rw [set_workers] at hx hy
    split at hx <;> split at hy
    · next h1 h2 => rw [h1, h2]
    · obtain rfl := Option.some.inj hx; exact absurd hjp (hr.heldIn y _ hy).2
    · obtain rfl := Option.some.inj hy; exact absurd hjp (hr.heldIn x _ hx).2
    · exact hr.heldNe x y k hx hy
  · intro x
    rw [set_workers]
    split
    · trivial
    · have := hr.ok x
      show WOk _ _ _ (r.workers x)
      cases hs : r.workers x with
      | moving k => rw [hs] at this; exact ⟨this.1, this.2.1, hsaved k this.2.2⟩
      | _ => rw [hs] at this; exact this
  · intro hfr x y i hx hy
    rw [set_workers] at hx hy
    split at hx
    · cases hx
    · split at hy
      · cases hy
      · exact hr.tokNe hfr x y i hx hy
  · intro k hk
    rcases hr.account k hk with h | ⟨x, hx⟩ | h
    · rw [hp] at h
      rcases List.mem_append.mp h with h | h
      · exact .inl (List.mem_append_left _ h)
      · rcases List.mem_cons.mp h with rfl | h
        · exact .inr (.inl ⟨w, by rw [set_workers, if_pos rfl]; rfl⟩)
        · exact .inl (List.mem_append_right _ h)
    · refine .inr (.inl ⟨x, ?_⟩)
      rw [set_workers, if_neg]
      · exact hx
      · rintro rfl
        rw [hi] at hx; cases hx
    · exact .inr (.inr h)
  · intro x hx
    rw [set_workers] at hx
    split at hx
    · next he => rw [he]; exact hw
    · exact hr.few x hx

/-- All steps keep the invariant. -/
theorem step_ok {c : Setup} {jobs : List Job} {n : Nat} (hg : GoodJobs jobs) {w w' : World} (hw : WorldOk c jobs n w) (h : Step c jobs n w w') :
    WorldOk c jobs n w' := by
  cases h with
  | @start d =>
    refine ⟨hw.disk, by simp, fun r hr => ?_, by simp⟩
    obtain rfl := Option.some.inj hr
    have hc := hw.complete rfl
    refine ⟨hw.disk, ?_, fun _ h => h, nodup_of_map_nodup hg.distinct, by simp [held], by simp [held], fun _ => trivial, by simp [tok],
      fun k hk => .inl hk, by simp⟩
    intro k hk i hi
    obtain ⟨e1, e2⟩ := hc k hk i hi
    refine ⟨e1, fun a b => ?_⟩
    obtain ⟨s, t, p, i, f1, f2, f3, -⟩ := e2 a b
    exact ⟨s, t, p, i, f1, f2, f3, by rintro ⟨x, hx⟩; cases hx⟩
  | @take d r x j a b hx hi hp =>
    refine ⟨hw.disk, by simp, fun r' hr => ?_, by simp⟩
    obtain rfl := Option.some.inj hr
    exact take_ok (hw.running r rfl) hx hi hp
  | @work d d' r x s hx h =>
    have := work_ok hg (hw.running r rfl) hx h
    refine ⟨this.disk, by simp, fun r' hr => ?_, by simp⟩
    obtain rfl := Option.some.inj hr
    exact this
  | @crash d r =>
    exact ⟨hw.disk, fun _ => busy_none_of_busy (hw.running r rfl).complete, by simp, by simp⟩
  | @finish d r hp hi =>
    have hr := hw.running r rfl
    refine ⟨hw.disk, fun _ => busy_none_of_busy hr.complete, by simp, fun _ k hk => ?_⟩
    rcases hr.account k hk with h | ⟨x, hx⟩ | h
    · rw [hp] at h; cases h
    · have hne : r.workers x ≠ .idle := by intro h; rw [h] at hx; cases hx
      rw [hi x (hr.few x hne)] at hx
      cases hx
    · exact h

theorem init_ok (c : Setup) (jobs : List Job) (n : Nat) : WorldOk c jobs n World.init :=
  ⟨⟨by simp [World.init], by simp [World.init]⟩, fun _ => by simp [Complete, World.init], by simp [World.init], by simp [World.init]⟩

theorem reachable_ok {c : Setup} {jobs : List Job} {n : Nat} (hg : GoodJobs jobs) {w : World} (h : Reachable c jobs n w) : WorldOk c jobs n w := by
  induction h with
  | refl => exact init_ok c jobs n
  | tail _ h ih => exact step_ok hg ih h

/-- What is in the directory with the results. -/
def OnlyOwn (jobs : List Job) (d : Disk) : Prop :=
  ∀ p, d.dir (.out p) ≠ none → ∃ j ∈ jobs, p = j.dest ∨ p = j.dest ++ partExt ∧ d.dir (.out j.dest) = none

theorem onlyOwn_work {c : Setup} {jobs : List Job} (hg : GoodJobs jobs) {d d' : Disk} {s s' : WSt} {j : Job} {busy : Nat → Prop} (hd : DiskOk d)
    (hs : held s = some j) (hj : j ∈ jobs) (hw : WOk c busy d s) (h : WStep c d s d' s') (ho : OnlyOwn jobs d) : OnlyOwn jobs d' := by
  have hf := (wstep_spec hd hs hw h).2
  intro p hp
  by_cases h1 : p = j.dest
  · exact ⟨j, hj, .inl h1⟩
  by_cases h2 : p = j.dest ++ partExt
  · subst h2
    refine ⟨j, hj, .inr ⟨rfl, ?_⟩⟩
    have hne : Path.out j.dest ≠ partOf j.dest := fun e => partOf_ne _ e.symm
    cases h with
    | skip h =>
      obtain rfl := Option.some.inj hs
      obtain ⟨k, hk, e | ⟨e, e'⟩⟩ := ho _ hp
      · exact absurd e.symm (dest_part hg hk)
      · rw [List.append_cancel_right e]; exact e'
    | check h => obtain rfl := Option.some.inj hs; exact h
    | noSource _ _ => obtain rfl := Option.some.inj hs; exact hw
    | openPart _ =>
      obtain rfl := Option.some.inj hs
      rw [(create_spec d hd _).2.2.1 _ hne]
      exact hw
    | ignore _ _ _ => obtain rfl := Option.some.inj hs; exact hw.1
    | fail _ => obtain rfl := Option.some.inj hs; exact hw.1
    | write _ _ _ _ => obtain rfl := Option.some.inj hs; exact hw.1
    | close _ _ => obtain rfl := Option.some.inj hs; exact hw.1
    | openTokens time _ =>
      obtain rfl := Option.some.inj hs
      rw [(create_spec d hd _).2.2.1 _ (by intro e; cases e)]
      exact hw.1
    | writeTokens _ _ _ _ => obtain rfl := Option.some.inj hs; exact hw.1
    | closeTokens _ _ => obtain rfl := Option.some.inj hs; exact hw.1
    | rename =>
      obtain rfl := Option.some.inj hs
      exfalso
      apply hp
      unfold Disk.rename
      simp only
      rw [if_neg (fun e => h1 (Path.out.inj e))]
      exact if_pos rfl
  · rw [hf.out p h1 h2] at hp
    obtain ⟨k, hk, e | ⟨e, e'⟩⟩ := ho p hp
    · exact ⟨k, hk, .inl e⟩
    · refine ⟨k, hk, .inr ⟨e, ?_⟩⟩
      rw [hf.out k.dest (fun h => h2 (by rw [e, h])) (dest_part hg hk)]
      exact e'

theorem onlyOwn {c : Setup} {jobs : List Job} {n : Nat} (hg : GoodJobs jobs) {w : World} (h : Reachable c jobs n w) : OnlyOwn jobs w.disk := by
  induction h with
  | refl => intro p hp; exact absurd rfl hp
  | @tail u v hu h ih =>
    have hok := reachable_ok hg hu
    cases h with
    | start => exact ih
    | take _ _ _ => exact ih
    | work hx h =>
      obtain ⟨j, hj⟩ := h.held
      have hr := hok.running _ rfl
      exact onlyOwn_work hg hr.disk hj (hr.heldIn _ _ hj).1 (hr.ok _) h ih
    | crash => exact ih
    | finish _ _ => exact ih

end Verif.Pool
