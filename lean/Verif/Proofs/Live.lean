import Verif.Spec.Live
import Verif.Proofs.Stages
import Mathlib.Data.List.Nodup
/-!
# Invariants of histories of a dataset that changes
-/
namespace Verif.Live
open Verif Stage

variable {parse : Bytes → Str → Str} {repr : Str → Str → Str}

/-- The names of the files. -/
def namesOf (d : RDir) : List Bytes := d.files.map (·.name)

/-- There is a result for each file. -/
def All (d : RDir) (p : Place) : Prop := ∀ n ∈ namesOf d, n ∈ p.results.map (·.1)

/-- A directory has only right results, and all of them if it is marked. -/
structure PlaceOk (g : RFile → Str) (d : RDir) (p : Place) : Prop where
  right : ∀ e ∈ p.results, ∃ f ∈ d.files, e = (f.name, g f)
  nodup : (p.results.map (·.1)).Nodup
  full : p.mark ≠ .no → All d p

/-- What is kept for the current time is right. -/
structure CacheOk (parse : Bytes → Str → Str) (repr : Str → Str → Str) (d : RDir) (C : Cache) : Prop where
  list : ∀ l, C.list = some l → l = namesOf d
  parsed : PlaceOk (fun f => parse f.name f.content) d C.parsed
  prep : ∀ out, PlaceOk (fun f => repr out (parse f.name f.content)) d (C.prep out)

/-- What has been done by the call, if it began at the current time. -/
def PcOk (d : RDir) (C : Cache) (k : Nat) : Pc → Prop
  | .off => True
  | .parse _ => True
  | .parseList _ => True
  | .parsing c todo => c.time = k → (∀ n ∈ namesOf d, n ∈ todo ∨ n ∈ C.parsed.results.map (·.1)) ∧ ∀ n ∈ todo, n ∈ namesOf d
  | .parseMark c => c.time = k → All d C.parsed
  | .parseStamp c => c.time = k → All d C.parsed
  | .prep c => c.time = k → All d C.parsed
  | .prepList c => c.time = k → All d C.parsed
  | .prepping c todo => c.time = k → All d C.parsed ∧
      (∀ n ∈ namesOf d, n ∈ todo ∨ n ∈ (C.prep c.out).results.map (·.1)) ∧ ∀ n ∈ todo, n ∈ namesOf d
  | .prepMark c => c.time = k → All d (C.prep c.out)
  | .prepStamp c => c.time = k → All d (C.prep c.out)
  | .returned c => c.time = k → All d (C.prep c.out)
  | .raised c _ => c.time ≠ k

/-- The call that runs. -/
def callOf : Pc → Option Call
  | .off => none
  | .parse c => some c
  | .parseList c => some c
  | .parsing c _ => some c
  | .parseMark c => some c
  | .parseStamp c => some c
  | .prep c => some c
  | .prepList c => some c
  | .prepping c _ => some c
  | .prepMark c => some c
  | .prepStamp c => some c
  | .returned c => some c
  | .raised c _ => some c

theorem contentOf_some {n : Bytes} {d : RDir} {x : Str} (h : contentOf n d = some x) : ∃ f ∈ d.files, f.name = n ∧ f.content = x := by
  unfold contentOf at h
  rcases hf : d.files.find? (·.name = n) with _ | f
  · rw [hf] at h; exact absurd h nofun
  · rw [hf] at h
    exact ⟨f, List.mem_of_find?_eq_some hf, by simpa using List.find?_some hf, Option.some.inj h⟩

theorem contentOf_none {n : Bytes} {d : RDir} (h : contentOf n d = none) : n ∉ namesOf d := by
  unfold contentOf at h
  rw [Option.map_eq_none_iff, List.find?_eq_none] at h
  intro hn
  obtain ⟨f, hf, e⟩ := List.mem_map.mp hn
  exact h f hf (by simpa using e)

theorem lookup_some {n : Bytes} {l : List (Bytes × Str)} {x : Str} (h : lookup n l = some x) : (n, x) ∈ l := by
  unfold lookup at h
  rcases hf : l.find? (·.1 = n) with _ | f
  · rw [hf] at h; exact absurd h nofun
  · rw [hf] at h
    have h1 := List.mem_of_find?_eq_some hf
    have h2 : f.1 = n := by simpa using List.find?_some hf
    have h3 : f.2 = x := Option.some.inj h
    rw [← h2, ← h3]; exact h1

theorem lookup_none {n : Bytes} {l : List (Bytes × Str)} (h : lookup n l = none) : n ∉ l.map (·.1) := by
  unfold lookup at h
  rw [Option.map_eq_none_iff, List.find?_eq_none] at h
  intro hn
  obtain ⟨f, hf, e⟩ := List.mem_map.mp hn
  exact h f hf (by simpa using e)

theorem PlaceOk.empty {g : RFile → Str} {d : RDir} : PlaceOk g d ⟨[], .no⟩ :=
  ⟨fun _ he => absurd he List.not_mem_nil, List.nodup_nil, fun h => absurd rfl h⟩

theorem PlaceOk.marked {g : RFile → Str} {d : RDir} {p : Place} {m : Mark} (h : PlaceOk g d p) (ha : All d p) : PlaceOk g d ⟨p.results, m⟩ :=
  ⟨h.right, h.nodup, fun _ => ha⟩

theorem PlaceOk.add {g : RFile → Str} {d : RDir} {p : Place} {f : RFile} (h : PlaceOk g d p) (hf : f ∈ d.files)
    (hn : f.name ∉ p.results.map (·.1)) : PlaceOk g d ⟨p.results ++ [(f.name, g f)], p.mark⟩ := by
  refine ⟨fun e he => ?_, ?_, fun hm n hn => ?_⟩
  · rcases List.mem_append.mp he with he | he
    · exact h.right e he
    · exact ⟨f, hf, List.mem_singleton.mp he⟩
  · rw [List.map_append]
    refine List.nodup_append.mpr ⟨h.nodup, by simp, fun a ha b hb e => ?_⟩
    rw [List.map_singleton, List.mem_singleton] at hb
    subst e; subst hb
    exact hn ha
  · have := h.full hm n hn
    show n ∈ (p.results ++ [(f.name, g f)]).map (·.1)
    rw [List.map_append]; exact List.mem_append_left _ this

theorem CacheOk.init (d : RDir) : CacheOk parse repr d .init :=
  ⟨fun _ h => absurd h nofun, .empty, fun _ => .empty⟩

/-- What holds in histories of noticed changes. -/
structure Inv (parse : Bytes → Str → Str) (repr : Str → Str → Str) (past : List RDir) (w : World) : Prop where
  last : past.head? = some w.src
  fresh : ∀ t, (∀ s ∈ past, timestamp s ≠ .ok t) → w.cache t = .init
  call : ∀ c, callOf w.pc = some c → ∃ s ∈ past, timestamp s = .ok c.time
  good : ∀ k, timestamp w.src = .ok k → CacheOk parse repr w.src (w.cache k) ∧ PcOk w.src (w.cache k) k w.pc

/-- A step that leaves the disk as it is. -/
theorem Inv.goto {past : List RDir} {w : World} {pc : Pc} (h : Inv parse repr past w)
    (hc : ∀ c, callOf pc = some c → callOf w.pc = some c)
    (hp : ∀ k, timestamp w.src = .ok k → CacheOk parse repr w.src (w.cache k) → PcOk w.src (w.cache k) k w.pc → PcOk w.src (w.cache k) k pc) :
    Inv parse repr past { w with pc := pc } :=
  ⟨h.last, h.fresh, fun c hcc => h.call c (hc c hcc), fun k hk => ⟨(h.good k hk).1, hp k hk (h.good k hk).1 (h.good k hk).2⟩⟩

/-- A step that changes what is kept for the time of the call. -/
theorem Inv.put {past : List RDir} {w : World} {pc : Pc} {c : Call} {C : Cache} (h : Inv parse repr past w)
    (hw : callOf w.pc = some c) (hc : callOf pc = some c)
    (hp : timestamp w.src = .ok c.time → CacheOk parse repr w.src (w.cache c.time) → PcOk w.src (w.cache c.time) c.time w.pc →
      CacheOk parse repr w.src C ∧ PcOk w.src C c.time pc)
    (hne : ∀ k (C' : Cache), c.time ≠ k → PcOk w.src C' k pc) :
    Inv parse repr past { w with cache := Corpus.upd w.cache c.time C, pc := pc } := by
  refine ⟨h.last, fun t ht => ?_, fun c' hcc => ?_, fun k hk => ?_⟩
  · show Corpus.upd w.cache c.time C t = .init
    unfold Corpus.upd
    by_cases e : t = c.time
    · obtain ⟨s, hs, hst⟩ := h.call c hw
      rw [← e] at hst
      exact absurd hst (ht s hs)
    · rw [if_neg e]; exact h.fresh t ht
  · rw [hc] at hcc
    rw [← Option.some.inj hcc]
    exact h.call c hw
  · show CacheOk parse repr w.src (Corpus.upd w.cache c.time C k) ∧ PcOk w.src (Corpus.upd w.cache c.time C k) k pc
    unfold Corpus.upd
    by_cases e : k = c.time
    · subst e
      rw [if_pos rfl]
      exact hp hk (h.good _ hk).1 (h.good _ hk).2
    · rw [if_neg e]
      exact ⟨(h.good k hk).1, hne k _ (fun e' => e e'.symm)⟩

theorem Inv.init {d : RDir} : Inv parse repr [d] (.init d) :=
  ⟨rfl, fun _ _ => rfl, fun _ h => absurd h nofun, fun _ _ => ⟨.init d, trivial⟩⟩

theorem Inv.change {past : List RDir} {w : World} {d : RDir} (h : Inv parse repr past w) (hn : timestamp d ∉ past.map timestamp) :
    Inv parse repr (d :: past) { w with src := d } := by
  have hk : ∀ k, timestamp d = .ok k → ∀ s ∈ past, timestamp s ≠ .ok k := fun k hk s hs e =>
    hn (List.mem_map.mpr ⟨s, hs, e.trans hk.symm⟩)
  refine ⟨rfl, fun t ht => h.fresh t fun s hs => ht s (List.mem_cons_of_mem _ hs), fun c hc => ?_, fun k hdk => ?_⟩
  · obtain ⟨s, hs, e⟩ := h.call c hc
    exact ⟨s, List.mem_cons_of_mem _ hs, e⟩
  · have e : w.cache k = .init := h.fresh k (hk k hdk)
    have hne : ∀ c, callOf w.pc = some c → c.time ≠ k := fun c hc e => by
      obtain ⟨s, hs, e'⟩ := h.call c hc
      exact hk k hdk s hs (e ▸ e')
    show CacheOk parse repr d (w.cache k) ∧ PcOk d (w.cache k) k w.pc
    rw [e]
    refine ⟨.init d, ?_⟩
    rcases hpc : w.pc with _ | c | c | ⟨c, todo⟩ | c | c | c | c | ⟨c, todo⟩ | c | c | c | ⟨c, e⟩
    all_goals first
      | trivial
      | exact fun e' => absurd e' (hne c (by rw [hpc]; rfl))

theorem names_eq {w : World} {c : Call} (h : CacheOk parse repr w.src (w.cache c.time)) : w.names c = namesOf w.src := by
  unfold World.names
  rcases hl : (w.cache c.time).list with _ | l
  · rfl
  · exact h.list l hl

/-- The listing of the files. -/
theorem Inv.listed {past : List RDir} {w : World} {pc : Pc} {c : Call} (h : Inv parse repr past w)
    (hw : callOf w.pc = some c) (hc : callOf pc = some c)
    (hp : timestamp w.src = .ok c.time → w.names c = namesOf w.src → ∀ C : Cache, C.parsed = (w.cache c.time).parsed → C.prep = (w.cache c.time).prep →
      PcOk w.src (w.cache c.time) c.time w.pc → PcOk w.src C c.time pc)
    (hne : ∀ k (C' : Cache), c.time ≠ k → PcOk w.src C' k pc) : Inv parse repr past (w.putList c pc) := by
  unfold World.putList
  by_cases hca : c.caching = true
  · rw [if_pos hca]
    refine h.put hw hc (fun hk hC hP => ⟨⟨fun l hl => ?_, hC.parsed, hC.prep⟩, hp hk (names_eq hC) _ rfl rfl hP⟩) hne
    rw [← Option.some.inj hl]
    exact names_eq hC
  · rw [if_neg hca]
    refine h.goto (fun c' h' => ?_) (fun k hk hC hP => ?_)
    · rw [hc] at h'; rw [← h']; exact hw
    · by_cases e : c.time = k
      · subst e; exact hp hk (names_eq hC) _ rfl rfl hP
      · exact hne k _ e

theorem mem_drop {a b : List Bytes} {n m : Bytes} (h : m ∈ a ++ n :: b) : m = n ∨ m ∈ a ++ b := by
  rcases List.mem_append.mp h with h | h
  · exact .inr (List.mem_append_left _ h)
  · rcases List.mem_cons.mp h with h | h
    · exact .inl h
    · exact .inr (List.mem_append_right _ h)

theorem mem_keep {a b : List Bytes} {n m : Bytes} (h : m ∈ a ++ b) : m ∈ a ++ n :: b := by
  rcases List.mem_append.mp h with h | h
  · exact List.mem_append_left _ h
  · exact List.mem_append_right _ (List.mem_cons_of_mem _ h)

theorem mem_added {l : List (Bytes × Str)} {e : Bytes × Str} {n : Bytes} (h : n ∈ l.map (·.1) ∨ n = e.1) : n ∈ (l ++ [e]).map (·.1) := by
  rw [List.map_append]
  rcases h with h | h
  · exact List.mem_append_left _ h
  · exact List.mem_append_right _ (by simp [h])

theorem Inv.step {past : List RDir} {w w' : World} (h : Inv parse repr past w) (hs : Step parse repr w w') :
    Inv parse repr past w' := by
  cases hs with
  | @begin t out caching hpc ht =>
    refine ⟨h.last, h.fresh, fun c hc => ?_, fun k hk => ⟨(h.good k hk).1, trivial⟩⟩
    rw [← Option.some.inj hc]
    exact ⟨w.src, List.mem_of_mem_head? h.last, ht⟩
  | @parseFound c hpc hm =>
    refine h.goto (fun c' hc => by rw [hpc]; exact hc) fun k hk hC _ e => ?_
    subst e
    exact hC.parsed.full fun e => by rw [World.parsed, e] at hm; cases hm
  | @parseRun c hpc hm => exact h.goto (fun c' hc => by rw [hpc]; exact hc) fun k hk hC _ => trivial
  | @parseArchive c hpc hm =>
    exact h.put (by rw [hpc]; rfl) rfl (fun _ hC _ => ⟨⟨hC.list, .empty, hC.prep⟩, trivial⟩) (fun _ _ _ => trivial)
  | @parseListed c hpc =>
    refine h.listed (by rw [hpc]; rfl) rfl (fun _ hN C _ _ _ _ => ?_) (fun k C' hne e => absurd e hne)
    rw [hN]
    exact ⟨fun n hn => .inl hn, fun n hn => hn⟩
  | @parseSkip c n a b hpc hn =>
    refine h.goto (fun c' hc => by rw [hpc]; exact hc) fun k hk hC hP e => ?_
    rw [hpc] at hP
    have hP := hP e
    subst e
    refine ⟨fun m hm => ?_, fun m hm => hP.2 m (mem_keep hm)⟩
    rcases hP.1 m hm with h1 | h1
    · rcases mem_drop h1 with e | h1
      · subst e; exact .inr hn
      · exact .inl h1
    · exact .inr h1
  | @parseFile c n a b x hpc hn hx =>
    obtain ⟨f, hf, e1, e2⟩ := contentOf_some hx
    subst e1; subst e2
    refine h.put (by rw [hpc]; rfl) rfl (fun hk hC hP => ⟨⟨hC.list, hC.parsed.add hf hn, hC.prep⟩, fun _ => ?_⟩) (fun k C' hne e => absurd e hne)
    rw [hpc] at hP
    have hP := hP rfl
    refine ⟨fun m hm => ?_, fun m hm => hP.2 m (mem_keep hm)⟩
    rcases hP.1 m hm with h1 | h1
    · rcases mem_drop h1 with e | h1
      · exact .inr (mem_added (.inr e))
      · exact .inl h1
    · exact .inr (mem_added (.inl h1))
  | @parseGone c n a b hpc hn hx =>
    refine h.goto (fun c' hc => by rw [hpc]; exact hc) fun k hk hC hP e => ?_
    rw [hpc] at hP
    have hP := hP e
    exact absurd (hP.2 n (by simp)) (contentOf_none hx)
  | @parseDone c hpc =>
    refine h.goto (fun c' hc => by rw [hpc]; by_cases hca : c.caching = true <;> (simp only [hca] at hc; exact hc)) fun k hk hC hP => ?_
    rw [hpc] at hP
    have : c.time = k → All w.src (w.cache k).parsed := fun e n hn => ((hP e).1 n hn).resolve_left List.not_mem_nil
    by_cases hca : c.caching = true
    · rw [if_pos hca]; exact this
    · rw [if_neg hca]; exact this
  | @parseMark c hpc =>
    refine h.put (by rw [hpc]; rfl) rfl (fun hk hC hP => ?_) (fun k C' hne e => absurd e hne)
    rw [hpc] at hP
    exact ⟨⟨hC.list, hC.parsed.marked (hP rfl), hC.prep⟩, fun _ => hP rfl⟩
  | @parseStamp c hpc =>
    refine h.put (by rw [hpc]; rfl) rfl (fun hk hC hP => ?_) (fun k C' hne e => absurd e hne)
    rw [hpc] at hP
    exact ⟨⟨hC.list, hC.parsed.marked (hP rfl), hC.prep⟩, fun _ => hP rfl⟩
  | @prepFound c hpc hm =>
    refine h.goto (fun c' hc => by rw [hpc]; exact hc) fun k hk hC _ e => ?_
    subst e
    exact (hC.prep c.out).full fun e => by rw [World.prep, e] at hm; cases hm
  | @prepRun c hpc hm =>
    refine h.goto (fun c' hc => by rw [hpc]; exact hc) fun k hk hC hP => ?_
    rw [hpc] at hP
    exact hP
  | @prepArchive c hpc hm =>
    refine h.put (by rw [hpc]; rfl) rfl (fun _ hC hP => ⟨⟨hC.list, hC.parsed, fun out => ?_⟩, fun _ => ?_⟩) (fun k C' hne e => absurd e hne)
    · show PlaceOk _ _ (Corpus.upd (w.cache c.time).prep c.out ⟨[], .no⟩ out)
      unfold Corpus.upd
      by_cases e : out = c.out
      · rw [if_pos e]; exact .empty
      · rw [if_neg e]; exact hC.prep out
    · rw [hpc] at hP; exact hP rfl
  | @prepListed c hpc =>
    refine h.listed (by rw [hpc]; rfl) rfl (fun _ hN C hC1 _ hP _ => ?_) (fun k C' hne e => absurd e hne)
    rw [hN, hC1]
    rw [hpc] at hP
    exact ⟨hP rfl, fun n hn => .inl hn, fun n hn => hn⟩
  | @prepSkip c n a b hpc hn =>
    refine h.goto (fun c' hc => by rw [hpc]; exact hc) fun k hk hC hP e => ?_
    rw [hpc] at hP
    have hP := hP e
    subst e
    refine ⟨hP.1, fun m hm => ?_, fun m hm => hP.2.2 m (mem_keep hm)⟩
    rcases hP.2.1 m hm with h1 | h1
    · rcases mem_drop h1 with e | h1
      · subst e; exact .inr hn
      · exact .inl h1
    · exact .inr h1
  | @prepFile c n a b x hpc hn hx =>
    refine h.put (by rw [hpc]; rfl) rfl (fun hk hC hP => ?_) (fun k C' hne e => absurd e hne)
    obtain ⟨f, hf, e⟩ := hC.parsed.right _ (lookup_some hx)
    have e1 : n = f.name := congrArg Prod.fst e
    have e2 : x = parse f.name f.content := congrArg Prod.snd e
    subst e1; subst e2
    rw [hpc] at hP
    have hP := hP rfl
    refine ⟨⟨hC.list, hC.parsed, fun out => ?_⟩, fun _ => ⟨hP.1, fun m hm => ?_, fun m hm => hP.2.2 m (mem_keep hm)⟩⟩
    · show PlaceOk _ _ (Corpus.upd (w.cache c.time).prep c.out _ out)
      unfold Corpus.upd
      by_cases e : out = c.out
      · rw [if_pos e, e]; exact (hC.prep c.out).add hf hn
      · rw [if_neg e]; exact hC.prep out
    · show m ∈ a ++ b ∨ m ∈ (Corpus.upd (w.cache c.time).prep c.out _ c.out).results.map (·.1)
      unfold Corpus.upd
      rw [if_pos rfl]
      rcases hP.2.1 m hm with h1 | h1
      · rcases mem_drop h1 with e | h1
        · exact .inr (mem_added (.inr e))
        · exact .inl h1
      · exact .inr (mem_added (.inl h1))
  | @prepMissing c n a b hpc hn hx =>
    refine h.goto (fun c' hc => by rw [hpc]; exact hc) fun k hk hC hP e => ?_
    rw [hpc] at hP
    have hP := hP e
    subst e
    exact lookup_none hx (hP.1 n (hP.2.2 n (by simp)))
  | @prepDone c hpc =>
    refine h.goto (fun c' hc => by rw [hpc]; exact hc) fun k hk hC hP e n hn => ?_
    rw [hpc] at hP
    exact ((hP e).2.1 n hn).resolve_left List.not_mem_nil
  | @prepMark c hpc =>
    refine h.put (by rw [hpc]; rfl) rfl (fun hk hC hP => ?_) (fun k C' hne e => absurd e hne)
    rw [hpc] at hP
    refine ⟨⟨hC.list, hC.parsed, fun out => ?_⟩, fun _ => ?_⟩
    · show PlaceOk _ _ (Corpus.upd (w.cache c.time).prep c.out _ out)
      unfold Corpus.upd
      by_cases e : out = c.out
      · rw [if_pos e, e]; exact (hC.prep c.out).marked (hP rfl)
      · rw [if_neg e]; exact hC.prep out
    · show All w.src (Corpus.upd (w.cache c.time).prep c.out _ c.out)
      unfold Corpus.upd
      rw [if_pos rfl]; exact hP rfl
  | @prepStamp c hpc =>
    refine h.put (by rw [hpc]; rfl) rfl (fun hk hC hP => ?_) (fun k C' hne e => absurd e hne)
    rw [hpc] at hP
    refine ⟨⟨hC.list, hC.parsed, fun out => ?_⟩, fun _ => ?_⟩
    · show PlaceOk _ _ (Corpus.upd (w.cache c.time).prep c.out _ out)
      unfold Corpus.upd
      by_cases e : out = c.out
      · rw [if_pos e, e]; exact (hC.prep c.out).marked (hP rfl)
      · rw [if_neg e]; exact hC.prep out
    · show All w.src (Corpus.upd (w.cache c.time).prep c.out _ c.out)
      unfold Corpus.upd
      rw [if_pos rfl]; exact hP rfl
  | exit => exact h.goto (fun c' hc => absurd hc nofun) fun _ _ _ _ => trivial

/-- A step does not change the dataset. -/
theorem Step.src {w w' : World} (hs : Step parse repr w w') : w'.src = w.src := by
  cases hs <;> rfl

theorem History.proper {past : List RDir} {w : World} (h : History parse repr past w) : Proper w.src := by
  induction h with
  | init hd => exact hd
  | step _ hs ih => rw [hs.src]; exact ih
  | change _ hd _ => exact hd

theorem History.inv {past : List RDir} {w : World} (h : History parse repr past w) (hn : Noticed past) : Inv parse repr past w := by
  induction h with
  | init _ => exact .init
  | step _ hs ih => exact (ih hn).step hs
  | change _ _ ih =>
    have := List.nodup_cons.mp hn
    exact (ih this.2).change this.1

/-- The right results, complete. -/
theorem PlaceOk.perm {out : Str} {d : RDir} {p : Place} (h : PlaceOk (fun f => repr out (parse f.name f.content)) d p) (hd : Proper d)
    (ha : All d p) : p.results.Perm (expected parse repr out d) := by
  have h2 : ((expected parse repr out d).map (·.1)).Nodup := by
    unfold expected; rw [List.map_map]; exact hd
  refine (List.perm_ext_iff_of_nodup (nodup_of_map _ h.nodup) (nodup_of_map _ h2)).mpr fun e => ⟨fun he => ?_, fun he => ?_⟩
  · obtain ⟨f, hf, e'⟩ := h.right e he
    exact List.mem_map.mpr ⟨f, hf, e'.symm⟩
  · have : e.1 ∈ p.results.map (·.1) := ha _ (by
      obtain ⟨f, hf, e'⟩ := List.mem_map.mp he
      rw [← e']; exact List.mem_map.mpr ⟨f, hf, rfl⟩)
    obtain ⟨e2, he2, e3⟩ := List.mem_map.mp this
    obtain ⟨f, hf, e4⟩ := h.right e2 he2
    obtain ⟨g, hg, e5⟩ := List.mem_map.mp he
    have : f = g := by
      refine List.inj_on_of_nodup_map hd hf hg ?_
      rw [e4, ← e5] at e3
      exact e3
    rw [← e5, ← this, ← e4]
    exact he2

theorem Steps.trans {u v w : World} (h : Steps parse repr u v) (h' : Steps parse repr v w) : Steps parse repr u w := by
  induction h' with
  | refl => exact h
  | tail _ hs ih => exact .tail ih hs

theorem Steps.one {u v : World} (h : Step parse repr u v) : Steps parse repr u v := .tail .refl h

theorem Steps.src {u v : World} (h : Steps parse repr u v) : v.src = u.src := by
  induction h with
  | refl => rfl
  | tail _ hs ih => exact hs.src.trans ih

theorem History.steps {past : List RDir} {u v : World} (h : History parse repr past u) (hs : Steps parse repr u v) : History parse repr past v := by
  induction hs with
  | refl => exact h
  | tail _ hs ih => exact .step ih hs

theorem parsing_run {c : Call} (todo : List Bytes) (w : World) (h : w.pc = .parsing c todo) :
    ∃ w', Steps parse repr w w' ∧ w'.pc = .parsing c [] := by
  induction todo generalizing w with
  | nil => exact ⟨w, .refl, h⟩
  | cons n todo ih =>
    have h' : w.pc = .parsing c ([] ++ n :: todo) := h
    have go : ∀ v, Step parse repr w v → v.pc = .parsing c todo → ∃ w', Steps parse repr w w' ∧ w'.pc = .parsing c [] := fun v hs hv =>
      let ⟨u, hu, e⟩ := ih v hv
      ⟨u, (Steps.one hs).trans hu, e⟩
    by_cases hn : n ∈ (w.parsed c).results.map (·.1)
    · exact go _ (.parseSkip h' hn) rfl
    · rcases hx : contentOf n w.src with _ | x
      · exact go _ (.parseGone h' hn hx) rfl
      · exact go _ (.parseFile h' hn hx) rfl

theorem prepping_run {past : List RDir} {c : Call} (hn : Noticed past) (todo : List Bytes) (w : World) (hw : History parse repr past w)
    (h : w.pc = .prepping c todo) (ht : timestamp w.src = .ok c.time) : ∃ w', Steps parse repr w w' ∧ w'.pc = .prepping c [] := by
  induction todo generalizing w with
  | nil => exact ⟨w, .refl, h⟩
  | cons n todo ih =>
    have h' : w.pc = .prepping c ([] ++ n :: todo) := h
    by_cases hr : n ∈ (w.prep c).results.map (·.1)
    · have hs := Step.prepSkip (parse := parse) (repr := repr) h' hr
      obtain ⟨v, hv, e⟩ := ih _ (hw.step hs) rfl ht
      exact ⟨v, (Steps.one hs).trans hv, e⟩
    · rcases hx : lookup n (w.parsed c).results with _ | x
      · have hs := Step.prepMissing (parse := parse) (repr := repr) h' hr hx
        exact absurd rfl ((((hw.step hs).inv hn).good c.time ht).2 : c.time ≠ c.time)
      · have hs := Step.prepFile (parse := parse) (repr := repr) h' hr hx
        obtain ⟨v, hv, e⟩ := ih _ (hw.step hs) rfl ht
        exact ⟨v, (Steps.one hs).trans hv, e⟩

/-- From the first stage to the second. -/
theorem parse_run {c : Call} (w : World) (h : w.pc = .parse c) : ∃ w', Steps parse repr w w' ∧ w'.pc = .prep c := by
  have list : ∀ u : World, Steps parse repr w u → u.pc = .parseList c → ∃ w', Steps parse repr w w' ∧ w'.pc = .prep c := fun u hwu hu => by
    have s1 := hwu.tail (Step.parseListed (parse := parse) (repr := repr) hu)
    obtain ⟨v, hv, e⟩ := parsing_run (parse := parse) (repr := repr) _ _ (rfl : (u.putList c (.parsing c (u.names c))).pc = _)
    have s2 := Step.parseDone (parse := parse) (repr := repr) e
    by_cases hc : c.caching = true
    · rw [if_pos hc] at s2
      have s3 := Step.parseMark (parse := parse) (repr := repr) (w := { v with pc := .parseMark c }) rfl
      have s4 := Step.parseStamp (parse := parse) (repr := repr)
        (w := World.putParsed { v with pc := .parseMark c } c ⟨(World.parsed { v with pc := .parseMark c } c).results, .cut⟩ (.parseStamp c)) rfl
      exact ⟨_, .tail (.tail (.tail (s1.trans hv) s2) s3) s4, rfl⟩
    · rw [if_neg hc] at s2
      exact ⟨_, .tail (s1.trans hv) s2, rfl⟩
  rcases hm : (w.parsed c).mark with _ | _ | _
  · exact list _ (.one (.parseRun h hm)) rfl
  · exact list _ (.one (.parseArchive h hm)) rfl
  · exact ⟨_, .one (.parseFound h hm), rfl⟩

/-- From the second stage to the end. -/
theorem prep_run {past : List RDir} {c : Call} (hn : Noticed past) (w : World) (hw : History parse repr past w) (h : w.pc = .prep c)
    (ht : timestamp w.src = .ok c.time) : ∃ w', Steps parse repr w w' ∧ w'.pc = .returned c := by
  have list : ∀ u : World, Steps parse repr w u → u.pc = .prepList c → ∃ w', Steps parse repr w w' ∧ w'.pc = .returned c := fun u hwu hu => by
    have s1 := hwu.tail (Step.prepListed (parse := parse) (repr := repr) hu)
    obtain ⟨v, hv, e⟩ := prepping_run (parse := parse) (repr := repr) hn _ _ (hw.steps s1) (rfl : (u.putList c (.prepping c (u.names c))).pc = _)
      (by rw [s1.src]; exact ht)
    have s2 := Step.prepDone (parse := parse) (repr := repr) e
    have s3 := Step.prepMark (parse := parse) (repr := repr) (w := { v with pc := .prepMark c }) rfl
    have s4 := Step.prepStamp (parse := parse) (repr := repr)
      (w := World.putPrep { v with pc := .prepMark c } c ⟨(World.prep { v with pc := .prepMark c } c).results, .cut⟩ (.prepStamp c)) rfl
    exact ⟨_, .tail (.tail (.tail (s1.trans hv) s2) s3) s4, rfl⟩
  rcases hm : (w.prep c).mark with _ | _ | _
  · exact list _ (.one (.prepRun h hm)) rfl
  · exact list _ (.one (.prepArchive h hm)) rfl
  · exact ⟨_, .one (.prepFound h hm), rfl⟩

/-- What is kept comes from datasets that there were. -/
structure Origin (parse : Bytes → Str → Str) (repr : Str → Str → Str) (past : List RDir) (w : World) : Prop where
  last : w.src ∈ past
  parsed : ∀ t, ∀ e ∈ (w.cache t).parsed.results, ∃ s ∈ past, ∃ f ∈ s.files, e = (f.name, parse f.name f.content)
  prep : ∀ t out, ∀ e ∈ ((w.cache t).prep out).results, ∃ s ∈ past, ∃ f ∈ s.files, e = (f.name, repr out (parse f.name f.content))

theorem Origin.putParsed {past : List RDir} {w : World} {c : Call} {p : Place} {pc : Pc} (h : Origin parse repr past w)
    (hp : ∀ e ∈ p.results, ∃ s ∈ past, ∃ f ∈ s.files, e = (f.name, parse f.name f.content)) : Origin parse repr past (w.putParsed c p pc) := by
  refine ⟨h.last, fun t => ?_, fun t => ?_⟩
  · show ∀ e ∈ (Corpus.upd w.cache c.time _ t).parsed.results, _
    unfold Corpus.upd
    by_cases e : t = c.time
    · rw [if_pos e]; exact hp
    · rw [if_neg e]; exact h.parsed t
  · show ∀ out, ∀ e ∈ ((Corpus.upd w.cache c.time _ t).prep out).results, _
    unfold Corpus.upd
    by_cases e : t = c.time
    · rw [if_pos e]; exact h.prep c.time
    · rw [if_neg e]; exact h.prep t

theorem Origin.putPrep {past : List RDir} {w : World} {c : Call} {p : Place} {pc : Pc} (h : Origin parse repr past w)
    (hp : ∀ e ∈ p.results, ∃ s ∈ past, ∃ f ∈ s.files, e = (f.name, repr c.out (parse f.name f.content))) :
    Origin parse repr past (w.putPrep c p pc) := by
  refine ⟨h.last, fun t => ?_, fun t => ?_⟩
  · show ∀ e ∈ (Corpus.upd w.cache c.time _ t).parsed.results, _
    unfold Corpus.upd
    by_cases e : t = c.time
    · rw [if_pos e]; exact h.parsed c.time
    · rw [if_neg e]; exact h.parsed t
  · show ∀ out, ∀ e ∈ ((Corpus.upd w.cache c.time _ t).prep out).results, _
    by_cases e : t = c.time
    · intro out
      show ∀ e ∈ ((if t = c.time then _ else _ : Cache).prep out).results, _
      rw [if_pos e]
      show ∀ e ∈ (Corpus.upd (w.cache c.time).prep c.out p out).results, _
      unfold Corpus.upd
      by_cases e2 : out = c.out
      · rw [if_pos e2, e2]; exact hp
      · rw [if_neg e2]; exact h.prep c.time out
    · intro out
      show ∀ e ∈ ((if t = c.time then _ else _ : Cache).prep out).results, _
      rw [if_neg e]; exact h.prep t out

theorem Origin.putList {past : List RDir} {w : World} {c : Call} {pc : Pc} (h : Origin parse repr past w) :
    Origin parse repr past (w.putList c pc) := by
  unfold World.putList
  by_cases hc : c.caching = true
  · rw [if_pos hc]
    refine ⟨h.last, fun t => ?_, fun t => ?_⟩
    · show ∀ e ∈ (Corpus.upd w.cache c.time _ t).parsed.results, _
      unfold Corpus.upd
      by_cases e : t = c.time
      · rw [if_pos e]; exact h.parsed c.time
      · rw [if_neg e]; exact h.parsed t
    · show ∀ out, ∀ e ∈ ((Corpus.upd w.cache c.time _ t).prep out).results, _
      unfold Corpus.upd
      by_cases e : t = c.time
      · rw [if_pos e]; exact h.prep c.time
      · rw [if_neg e]; exact h.prep t
  · rw [if_neg hc]
    exact ⟨h.last, h.parsed, h.prep⟩

theorem Origin.goto {past : List RDir} {w : World} {pc : Pc} (h : Origin parse repr past w) : Origin parse repr past { w with pc := pc } :=
  ⟨h.last, h.parsed, h.prep⟩

theorem Origin.step {past : List RDir} {w w' : World} (h : Origin parse repr past w) (hs : Step parse repr w w') : Origin parse repr past w' := by
  cases hs with
  | parseArchive _ _ => exact h.putParsed fun _ he => absurd he List.not_mem_nil
  | parseListed _ => exact h.putList
  | @parseFile c n a b x hpc hn hx =>
    refine h.putParsed fun e he => ?_
    rcases List.mem_append.mp he with he | he
    · exact h.parsed c.time e he
    · obtain ⟨f, hf, e1, e2⟩ := contentOf_some hx
      rw [List.mem_singleton.mp he]
      exact ⟨w.src, h.last, f, hf, by rw [e1, e2]⟩
  | @parseMark c _ => exact h.putParsed (h.parsed c.time)
  | @parseStamp c _ => exact h.putParsed (h.parsed c.time)
  | prepArchive _ _ => exact h.putPrep fun _ he => absurd he List.not_mem_nil
  | prepListed _ => exact h.putList
  | @prepFile c n a b x hpc hn hx =>
    refine h.putPrep fun e he => ?_
    rcases List.mem_append.mp he with he | he
    · exact h.prep c.time c.out e he
    · obtain ⟨s, hs, f, hf, e2⟩ := h.parsed c.time _ (lookup_some hx)
      have e3 : n = f.name := congrArg Prod.fst e2
      have e4 : x = parse f.name f.content := congrArg Prod.snd e2
      rw [List.mem_singleton.mp he]
      exact ⟨s, hs, f, hf, by rw [e3, e4]⟩
  | @prepMark c _ => exact h.putPrep (h.prep c.time c.out)
  | @prepStamp c _ => exact h.putPrep (h.prep c.time c.out)
  | _ => exact h.goto

theorem History.origin {past : List RDir} {w : World} (h : History parse repr past w) : Origin parse repr past w := by
  induction h with
  | init _ => exact ⟨List.mem_singleton.mpr rfl, fun _ _ he => absurd he List.not_mem_nil, fun _ _ _ he => absurd he List.not_mem_nil⟩
  | step _ hs ih => exact ih.step hs
  | change _ _ ih =>
    refine ⟨List.mem_cons_self, fun t e he => ?_, fun t out e he => ?_⟩
    · obtain ⟨s, hs, r⟩ := ih.parsed t e he
      exact ⟨s, List.mem_cons_of_mem _ hs, r⟩
    · obtain ⟨s, hs, r⟩ := ih.prep t out e he
      exact ⟨s, List.mem_cons_of_mem _ hs, r⟩

/-- A call that writes results has not marked them, and nobody else has. -/
def MarkOk (w : World) : Prop :=
  match w.pc with
  | .prepList c => (w.prep c).mark = .no
  | .prepping c _ => (w.prep c).mark = .no
  | .prepMark c => (w.prep c).mark = .no
  | .prepStamp c => (w.prep c).mark = .cut
  | _ => True

theorem prep_putPrep (w : World) (c : Call) (p : Place) (pc : Pc) : (w.putPrep c p pc).prep c = p := by
  show (Corpus.upd w.cache c.time _ c.time).prep c.out = p
  unfold Corpus.upd
  rw [if_pos rfl]
  show (Corpus.upd _ c.out p c.out) = p
  unfold Corpus.upd
  rw [if_pos rfl]

theorem prep_putList (w : World) (c : Call) (pc : Pc) (t : Nat) (out : Str) : ((w.putList c pc).cache t).prep out = (w.cache t).prep out := by
  unfold World.putList
  by_cases hc : c.caching = true
  · rw [if_pos hc]
    show (Corpus.upd w.cache c.time _ t).prep out = _
    unfold Corpus.upd
    by_cases e : t = c.time
    · rw [if_pos e, e]
    · rw [if_neg e]
  · rw [if_neg hc]

theorem MarkOk.step {w w' : World} (h : MarkOk w) (hs : Step parse repr w w') : MarkOk w' := by
  cases hs with
  | @parseDone c hpc =>
    unfold MarkOk
    by_cases hc : c.caching = true
    · simp only [if_pos hc]
    · simp only [if_neg hc]
  | @prepRun c hpc hm => exact hm
  | @prepArchive c hpc hm => exact congrArg Place.mark (prep_putPrep w c _ _)
  | @prepListed c hpc =>
    have h : (w.prep c).mark = .no := by simpa only [MarkOk, hpc] using h
    exact (congrArg Place.mark (prep_putList w c _ c.time c.out)).trans h
  | @prepSkip c n a b hpc hn =>
    have h : (w.prep c).mark = .no := by simpa only [MarkOk, hpc] using h
    exact h
  | @prepFile c n a b x hpc hn hx =>
    have h : (w.prep c).mark = .no := by simpa only [MarkOk, hpc] using h
    exact (congrArg Place.mark (prep_putPrep w c _ _)).trans h
  | @prepDone c hpc =>
    have h : (w.prep c).mark = .no := by simpa only [MarkOk, hpc] using h
    exact h
  | @prepMark c hpc => exact congrArg Place.mark (prep_putPrep w c _ _)
  | _ => trivial

theorem History.markOk {past : List RDir} {w : World} (h : History parse repr past w) : MarkOk w := by
  induction h with
  | init _ => trivial
  | step _ hs ih => exact ih.step hs
  | change _ _ ih => exact ih

theorem prep_putParsed (w : World) (c : Call) (p : Place) (pc : Pc) (t : Nat) (out : Str) :
    ((w.putParsed c p pc).cache t).prep out = (w.cache t).prep out := by
  show (Corpus.upd w.cache c.time _ t).prep out = _
  unfold Corpus.upd
  by_cases e : t = c.time
  · rw [if_pos e, e]
  · rw [if_neg e]

theorem prep_putPrep_ne (w : World) (c : Call) (p : Place) (pc : Pc) (t : Nat) (out : Str) (h : ¬ (t = c.time ∧ out = c.out)) :
    ((w.putPrep c p pc).cache t).prep out = (w.cache t).prep out := by
  show (Corpus.upd w.cache c.time _ t).prep out = _
  unfold Corpus.upd
  by_cases e : t = c.time
  · rw [if_pos e]
    show (if out = c.out then _ else _) = _
    rw [if_neg fun e2 => h ⟨e, e2⟩, e]
  · rw [if_neg e]

/-- Marked results are not changed by a step. -/
theorem MarkOk.kept {w w' : World} (h : MarkOk w) (hs : Step parse repr w w') (t : Nat) (out : Str) (hm : ((w.cache t).prep out).mark = .full) :
    (w'.cache t).prep out = (w.cache t).prep out := by
  have ne : ∀ c : Call, (w.prep c).mark ≠ .full → ¬ (t = c.time ∧ out = c.out) := fun c hc e => by
    rw [e.1, e.2] at hm
    exact hc hm
  cases hs with
  | parseArchive _ _ => exact prep_putParsed ..
  | parseListed _ => exact prep_putList ..
  | parseFile _ _ _ => exact prep_putParsed ..
  | parseMark _ => exact prep_putParsed ..
  | parseStamp _ => exact prep_putParsed ..
  | @prepArchive c hpc hc => exact prep_putPrep_ne _ _ _ _ _ _ (ne c (by rw [hc]; nofun))
  | prepListed _ => exact prep_putList ..
  | @prepFile c n a b x hpc hn hx =>
    have h : (w.prep c).mark = .no := by simpa only [MarkOk, hpc] using h
    exact prep_putPrep_ne _ _ _ _ _ _ (ne c (by rw [h]; nofun))
  | @prepMark c hpc =>
    have h : (w.prep c).mark = .no := by simpa only [MarkOk, hpc] using h
    exact prep_putPrep_ne _ _ _ _ _ _ (ne c (by rw [h]; nofun))
  | @prepStamp c hpc =>
    have h : (w.prep c).mark = .cut := by simpa only [MarkOk, hpc] using h
    exact prep_putPrep_ne _ _ _ _ _ _ (ne c (by rw [h]; nofun))
  | _ => rfl

end Verif.Live
